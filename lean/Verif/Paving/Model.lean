import Verif.Sivia.Model

/-!
# Pavings: model

Sources: `src/core/paving/codac_Paving.cpp`, `codac_SIVIAPaving.cpp`, `codac_Set.h`. The bisection of IBEX is a parameter.
-/

set_option linter.unusedSectionVars false

namespace Codac

variable {K : Type*} [LinearOrder K]

/-- `SetValue`, codac_Set.h:26-33: bit flags -/
abbrev SetValue := Nat
namespace SetValue
def DEFAULT : SetValue := 0
def UNKNOWN : SetValue := 1
def OUT : SetValue := 2
def IN : SetValue := 4
/-- `a & b` used as a condition, codac_Set.h:36-37 -/
def meets (a b : SetValue) : Bool := a &&& b != 0
end SetValue

/-- a paving: box, value and the two sub-pavings, codac_Paving.h (members `m_box`, `m_value`, `m_first_subpaving`, `m_second_subpaving`;
the flags and the root are treated apart) -/
inductive Paving (K : Type*) [LinearOrder K] where
  | leaf (box : Box K) (value : SetValue)
  | node (box : Box K) (value : SetValue) (l r : Paving K)

namespace Paving

/-- `Set::box`, codac_Set.cpp:40-43 -/
def box : Paving K → Box K
  | leaf b _ => b
  | node b _ _ _ => b

/-- `Paving::get_boxes`, codac_Paving.cpp:172-196 -/
def getBoxes (val neg : SetValue) : Paving K → List (Box K)
  | leaf b v => if neg != .DEFAULT && v.meets neg && !v.meets val then [] else if v.meets val then [b] else []
  | node _ v l r => if neg != .DEFAULT && v.meets neg && !v.meets val then [] else l.getBoxes val neg ++ r.getBoxes val neg

/-- a leaf as a pointer: the tree it belongs to, its position in the tree, with its box and value. Two equal pointers have the same box
and value. -/
structure Leaf (K : Type*) [LinearOrder K] where
  tree : Nat
  path : List Bool
  box : Box K
  value : SetValue
deriving DecidableEq

/-- the leaves, from the first to the second sub-paving; `tree` the tree, `path` the position of the paving in the tree -/
def leaves (tree : Nat) (path : List Bool) : Paving K → List (Leaf K)
  | leaf b v => [⟨tree, path, b, v⟩]
  | node _ _ l r => l.leaves tree (path ++ [false]) ++ r.leaves tree (path ++ [true])

/-- `Paving::get_first_leaf(val, true)`, codac_Paving.cpp:104-116; `flags`: the flagged leaves -/
def firstLeaf (val : SetValue) (flags : List (Leaf K)) (tree : Nat) (path : List Bool) : Paving K → Option (Leaf K)
  | leaf b v => if v.meets val && !flags.contains ⟨tree, path, b, v⟩ then some ⟨tree, path, b, v⟩ else none
  | node _ _ l r => (l.firstLeaf val flags tree (path ++ [false])).or (r.firstLeaf val flags tree (path ++ [true]))

/-- `Paving::get_pavings_intersecting(val, b, …, false)`, codac_Paving.cpp:198-220 -/
def intersecting (val : SetValue) (b : Box K) (tree : Nat) (path : List Bool) : Paving K → List (Leaf K)
  | leaf b' v => if (Box.inter b b').isEmpty then [] else if v.meets val then [⟨tree, path, b', v⟩] else []
  | node b' _ l r => if (Box.inter b b').isEmpty then [] else
      l.intersecting val b tree (path ++ [false]) ++ r.intersecting val b tree (path ++ [true])

/-- `Paving::get_neighbours(…, val, true)` of the leaf `e`, whose root is the paving `root` of the tree `tree`, codac_Paving.cpp:222-233 -/
def neighbours (val : SetValue) (flags : List (Leaf K)) (tree : Nat) (root : Paving K) (e : Leaf K) : List (Leaf K) :=
  (root.intersecting val e.box tree []).filter fun p => p != e && p.value.meets val && !flags.contains p

/-- the inner loop of `get_connected_subsets`, codac_Paving.cpp:253-269: `l` the list, `items` the subset, `flags` the flagged leaves; at
most `fuel` iterations -/
def grow (val : SetValue) (tree : Nat) (root : Paving K) : Nat → List (Leaf K) → List (Leaf K) → List (Leaf K) →
    Option (List (Leaf K) × List (Leaf K))
  | _, [], items, flags => some (items, flags)
  | 0, _ :: _, _, _ => none
  | n + 1, e :: l, items, flags =>
    let nb := root.neighbours val (e :: flags) tree e
    grow val tree root n (l ++ nb) (items ++ [e]) (nb ++ e :: flags)

/-- the outer loop, codac_Paving.cpp:247-272; `self` is the paving on which the method is called, at position `path` of the tree `stree` -/
def subsets (fuel : Nat) (val : SetValue) (stree : Nat) (path : List Bool) (self : Paving K) (tree : Nat) (root : Paving K) :
    Nat → List (Leaf K) → List (List (Leaf K)) → Option (List (List (Leaf K)))
  | 0, _, _ => none
  | n + 1, flags, acc =>
    match self.firstLeaf val flags stree path with
    | none => some acc
    | some p => (grow val tree root fuel [p] [] flags).bind fun r => subsets fuel val stree path self tree root n r.2 (acc ++ [r.1])

/-- `Paving::get_connected_subsets(_, val)`, codac_Paving.cpp:240-278 (no sort is done); `flags0` the leaves flagged before the call,
`reset_flags` (codac_Paving.cpp:153-158) acts on `self` only. `root` is `self->m_root`. -/
def connectedSubsets (fuel : Nat) (val : SetValue) (stree : Nat) (path : List Bool) (self : Paving K) (tree : Nat) (root : Paving K)
    (flags0 : List (Leaf K)) : Option (List (List (Leaf K))) :=
  subsets fuel val stree path self tree root fuel (flags0.filter fun p => !(self.leaves stree path).contains p) []

end Paving

/-! ### Computation of pavings -/

section compute
variable {K : Type*} [Field K] [LinearOrder K] [IsStrictOrderedRing K]

namespace Paving

/-- the recursion of `SIVIAPaving::compute`, codac_SIVIAPaving.cpp:25-94: `classify` is the value given by the tests, or nothing when the box is bisected
(`Paving::bisect`, codac_Paving.cpp:118-129: the sub-pavings carry the value of their parent). `fuel` bounds the depth. -/
def compute (bis : Box K → Box K × Box K) (classify : Box K → Option SetValue) (val : SetValue) : Nat → Box K → Option (Paving K)
  | 0, _ => none
  | n + 1, X =>
    match classify X with
    | some v => some (leaf X v)
    | none =>
      match compute bis classify val n (bis X).1, compute bis classify val n (bis X).2 with
      | some l, some r => some (node X val l r)
      | _, _ => none

end Paving

/-- `IntervalVector::is_subset` (IBEX) -/
def Box.isSubset (X Y : Box K) : Bool := X.isEmpty || (!Y.isEmpty && (List.zipWith (fun I J => decide (I ≤ J)) X Y).all id)

/-- `IntervalVector::intersects` (IBEX) -/
def Box.intersects (X Y : Box K) : Bool := !X.isEmpty && !Y.isEmpty && (List.zipWith Itv.intersects X Y).all id

/-- the tests of `SIVIAPaving::compute(f, y, precision)`, codac_SIVIAPaving.cpp:31-42 -/
def classifyFun (F : Box K → Box K) (y : Box K) (p : K) (X : Box K) : Option SetValue :=
  let result := F X
  if Box.isSubset result y then some .IN
  else if !Box.intersects result y then some .OUT
  else if Box.maxDiamLt p X then some .UNKNOWN
  else none

/-- the tests of `SIVIAPaving::compute(ctc, precision)`, codac_SIVIAPaving.cpp:55-64 -/
def classifyCtc (ctc : Box K → Box K) (p : K) (X : Box K) : Option SetValue :=
  if (ctc X).isEmpty then some .OUT else if Box.maxDiamLt p X then some .UNKNOWN else none

/-- the tests of `SIVIAPaving::compute(sep, precision)`, codac_SIVIAPaving.cpp:75-88 -/
def classifySep (sep : Box K → Box K → Box K × Box K) (p : K) (X : Box K) : Option SetValue :=
  if (sep X X).1.isEmpty then some .IN
  else if (sep X X).2.isEmpty then some .OUT
  else if Box.maxDiamLt p X then some .UNKNOWN
  else none

end compute

end Codac
