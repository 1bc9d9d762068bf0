import Verif.Thick.Paving

/-!
# Thick pavings in files

Models `PNode::save`, `PNode::load`, codac_PNode_impl.hpp:192-229. A file is a list of written values; the widths of the C++ types and the
order of the bytes are left out.
-/

set_option linter.unusedSectionVars false

namespace Codac.TPav

open TNode

variable {K : Type*} [LinearOrder K]

/-- the values written in a file -/
inductive Tok (K : Type*) where
  | value (v : TB)
  | int (n : Nat)
  /-- a double: `none` for an infinite or undefined one -/
  | dbl (a : Option K)
  | bool (b : Bool)

/-- the bounds written for a component, codac_PNode_impl.hpp:198-203 -/
def boundToks (I : Itv K) : List (Tok K) := [.dbl I.lb?, .dbl I.ub?]

/-- the values written for one node without its children, codac_PNode_impl.hpp:195-205 -/
def nodeToks (b : Box K) (v : TB) (children : Bool) : List (Tok K) := .value v :: .int b.length :: (b.flatMap boundToks ++ [.bool children])

/-- `PNode::save`, codac_PNode_impl.hpp:192-210 -/
def save : TNode K → List (Tok K)
  | leaf b v => nodeToks b v false
  | node b v l r => nodeToks b v true ++ (save l ++ save r)

/-- `read` of `n` doubles, codac_PNode_impl.hpp:220-221 -/
def readDbls : Nat → List (Tok K) → Option (List (Option K) × List (Tok K))
  | 0, f => some ([], f)
  | n + 1, .dbl a :: f => (readDbls n f).map fun p => (a :: p.1, p.2)
  | _ + 1, _ => none

/-- `IntervalVector(size, bounds[0][0])`: the IBEX constructor from a size and an interval, the double being converted to the interval `[x,x]`
(empty when it is infinite), codac_PNode_impl.hpp:223; `none`: `bounds` is empty -/
def loadBox (n : Nat) : List (Option K) → Option (Box K)
  | [] => none
  | some a :: _ => some (List.replicate n (Itv.point a))
  | none :: _ => some (List.replicate n ⊥)

/-- `PNode::load`, codac_PNode_impl.hpp:212-229; `fuel` bounds the depth of the tree -/
def load : Nat → List (Tok K) → Option (TNode K × List (Tok K))
  | 0, _ => none
  | fuel + 1, .value v :: .int n :: f =>
    (readDbls (2 * n) f).bind fun p =>
      (loadBox n p.1).bind fun b =>
        match p.2 with
        | .bool true :: f => (load fuel f).bind fun l => (load fuel l.2).map fun r => (node b v l.1 r.1, r.2)
        | .bool false :: f => some (leaf b v, f)
        | _ => none
  | _ + 1, _ => none

/-- the tree which is read back -/
def loaded : TNode K → TNode K
  | leaf b v => leaf (b.map fun _ => (b.headD ⊥).lb?.elim ⊥ Itv.point) v
  | node b v l r => node (b.map fun _ => (b.headD ⊥).lb?.elim ⊥ Itv.point) v (loaded l) (loaded r)

/-- number of levels -/
def height : TNode K → Nat
  | leaf _ _ => 1
  | node _ _ l r => 1 + max (height l) (height r)

/-- all the boxes have a component -/
def NonNil : TNode K → Prop
  | leaf b _ => b ≠ []
  | node b _ l r => b ≠ [] ∧ NonNil l ∧ NonNil r

theorem readDbls_bounds (b : Box K) (f : List (Tok K)) :
    readDbls (2 * b.length) (b.flatMap boundToks ++ f) = some (b.flatMap (fun I => [I.lb?, I.ub?]), f) := by
  induction b with
  | nil => rfl
  | cons I b ih =>
    have : 2 * (I :: b).length = 2 * b.length + 1 + 1 := by simp; omega
    rw [this, List.flatMap_cons, List.flatMap_cons]
    simp only [boundToks, List.cons_append, List.nil_append, readDbls]
    rw [ih]
    rfl

theorem loadBox_bounds {b : Box K} (hb : b ≠ []) :
    loadBox b.length (b.flatMap fun I => [I.lb?, I.ub?]) = some (b.map fun _ => (b.headD ⊥).lb?.elim ⊥ Itv.point) := by
  cases b with
  | nil => exact absurd rfl hb
  | cons I b =>
    have e : List.map (fun _ => I.lb?.elim ⊥ Itv.point) (I :: b) = List.replicate (I :: b).length (I.lb?.elim ⊥ Itv.point) := List.map_const'
    rw [List.headD_cons, e]
    simp only [List.flatMap_cons, List.cons_append]
    cases h : I.lb? <;> rfl

theorem load_node (fuel n : Nat) (v : TB) (f : List (Tok K)) :
    load (fuel + 1) (.value v :: .int n :: f) =
      (readDbls (2 * n) f).bind fun p =>
        (loadBox n p.1).bind fun b =>
          match p.2 with
          | .bool true :: f => (load fuel f).bind fun l => (load fuel l.2).map fun r => (node b v l.1 r.1, r.2)
          | .bool false :: f => some (leaf b v, f)
          | _ => none := rfl

theorem load_save {t : TNode K} (ht : NonNil t) {fuel : Nat} (hf : height t ≤ fuel) (f : List (Tok K)) : load fuel (save t ++ f) = some (loaded t, f) := by
  induction t generalizing fuel f with
  | leaf b v =>
    obtain ⟨fuel, rfl⟩ := Nat.exists_eq_succ_of_ne_zero (by simp only [height] at hf; omega : fuel ≠ 0)
    simp only [save, nodeToks, List.cons_append, List.append_assoc]
    rw [load_node, readDbls_bounds, Option.bind_some, loadBox_bounds ht]
    rfl
  | node b v l r ihl ihr =>
    simp only [height] at hf
    obtain ⟨fuel, rfl⟩ := Nat.exists_eq_succ_of_ne_zero (by omega : fuel ≠ 0)
    simp only [save, nodeToks, List.cons_append, List.append_assoc]
    rw [load_node, readDbls_bounds, Option.bind_some, loadBox_bounds ht.1]
    simp only [Option.bind_some, List.nil_append]
    rw [ihl ht.2.1 (by omega), Option.bind_some, ihr ht.2.2 (by omega)]
    rfl

end Codac.TPav
