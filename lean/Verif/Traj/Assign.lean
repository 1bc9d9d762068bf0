import Mathlib.Data.List.Basic
import Mathlib.Logic.Function.Basic

/-!
# Assignment of vectors of trajectories and of tubes

Sources: `TrajectoryVector::operator=`, codac_TrajectoryVector.cpp:122-136, and `TubeVector::operator=`, codac_TubeVector.cpp:187-201: the same code. The memory is a
set of blocks, one array per vector; a component is a value (its assignment copies it: trajectories given by points; the memory of a tube is modelled in
`Tube/Life.lean`).
-/

set_option linter.unusedSectionVars false

namespace Codac.Assign

variable {V α : Type*} [DecidableEq V]

/-- a vector: its size `m_n` and the array it points to -/
structure Vec where
  n : Nat
  blk : Nat

/-- the vectors of a program and the arrays; `none`: not allocated, or deleted -/
structure Mem (V α : Type*) where
  vars : V → Vec
  heap : Nat → Option (List α)
  next : Nat

/-- `(*this)[i] = x[i]`: read in the array `src`, write in the array `dst`; `none` when an array is deleted or too short -/
def copyAt (src dst : Nat) (h : Nat → Option (List α)) (i : Nat) : Option (Nat → Option (List α)) :=
  match h src, h dst with
  | some l, some r =>
    match l[i]? with
    | some x => if i < r.length then some (Function.update h dst (some (r.set i x))) else none
    | none => none
  | _, _ => none

/-- the loop over the components -/
def copyLoop (src dst : Nat) : Nat → (Nat → Option (List α)) → Option (Nat → Option (List α))
  | 0, h => some h
  | k + 1, h => (copyLoop src dst k h).bind fun h => copyAt src dst h k

/-- `a = b` for vectors, codac_TrajectoryVector.cpp:122-136: the array of `a` is deleted, a new one of the size of `b` is allocated with default components (`d`), and
the components of `b`, as it is now, are copied -/
def assign (d : α) (m : Mem V α) (a b : V) : Option (Mem V α) :=
  if (m.heap (m.vars a).blk).isNone then none else
  let h1 := Function.update m.heap (m.vars a).blk none
  let n := (m.vars b).n
  let h2 := Function.update h1 m.next (some (List.replicate n d))
  let vars := Function.update m.vars a ⟨n, m.next⟩
  (copyLoop (vars b).blk m.next n h2).map fun h => ⟨vars, h, m.next + 1⟩

/-- a sequence of assignments -/
def run (d : α) : List (V × V) → Mem V α → Option (Mem V α)
  | [], m => some m
  | (a, b) :: os, m => (assign d m a b).bind (run d os)

/-- the components of a vector -/
def Mem.value (m : Mem V α) (v : V) : Option (List α) := m.heap (m.vars v).blk

/-- each vector has its own array, of its size; the arrays of the vectors are all that is allocated -/
structure Mem.Ok (m : Mem V α) : Prop where
  own : ∀ v, ∃ l, m.heap (m.vars v).blk = some l ∧ l.length = (m.vars v).n
  inj : ∀ v w, (m.vars v).blk = (m.vars w).blk → v = w
  fresh : ∀ v, (m.vars v).blk < m.next
  all : ∀ i, m.heap i ≠ none → ∃ v, (m.vars v).blk = i

theorem copyLoop_other {src dst : Nat} (hne : src ≠ dst) {l r : List α} : ∀ (k : Nat) {h : Nat → Option (List α)}, h src = some l → h dst = some r → k ≤ l.length →
    k ≤ r.length → copyLoop src dst k h = some (Function.update h dst (some (l.take k ++ r.drop k)))
  | 0, h, _, h2, _, _ => by
    simp only [copyLoop, List.take_zero, List.nil_append, List.drop_zero, ← h2, Function.update_eq_self]
  | k + 1, h, h1, h2, h3, h4 => by
    rw [copyLoop, copyLoop_other hne k h1 h2 (by omega) (by omega), Option.bind_some, copyAt, Function.update_of_ne hne, h1, Function.update_self]
    have hl : l[k]? = some l[k] := List.getElem?_eq_getElem (by omega)
    simp only [hl]
    rw [if_pos (by simp; omega), Function.update_idem]
    congr 3
    apply List.ext_getElem?
    intro i
    rw [List.getElem?_set]
    by_cases hi : k = i
    · subst hi
      rw [if_pos rfl, if_pos (by simp; omega), List.getElem?_append_left (by simp; omega), List.getElem?_take_of_lt (by omega), hl]
    · rw [if_neg hi]
      by_cases hlt : i < k
      · rw [List.getElem?_append_left (by simp; omega), List.getElem?_append_left (by simp; omega), List.getElem?_take_of_lt hlt, List.getElem?_take_of_lt (by omega)]
      · rw [List.getElem?_append_right (by simp; omega), List.getElem?_append_right (by simp; omega), List.getElem?_drop, List.getElem?_drop]
        congr 1
        simp only [List.length_take]
        omega

theorem copyLoop_self {b : Nat} {r : List α} : ∀ (k : Nat) {h : Nat → Option (List α)}, h b = some r → k ≤ r.length → copyLoop b b k h = some h
  | 0, _, _, _ => rfl
  | k + 1, h, h1, h2 => by
    rw [copyLoop, copyLoop_self k h1 (by omega), Option.bind_some, copyAt, h1]
    have hl : r[k]? = some r[k] := List.getElem?_eq_getElem (by omega)
    simp only [hl]
    rw [if_pos (by omega), List.set_getElem_self, ← h1, Function.update_eq_self]

end Codac.Assign
