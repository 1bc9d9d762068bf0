import Verif.C2.BoxExtr
import Mathlib.Analysis.SpecialFunctions.Log.Basic

/-!
# `Paving` of codac2, and the volume of boxes: model

Sources: `src/core/2/domains/paving/codac2_Paving.h`, `src/core/2/domains/interval/codac2_IntervalMatrix.h` (`volume`). A paving is a tree: a node has two sons or none
(in the code, `bisect` creates both; the pointers are public fields, a user who resets one of them is not modelled).
-/

set_option linter.unusedSectionVars false

namespace Codac.Pav2

open Codac.Bx

variable {K : Type*} [LinearOrder K]

/-- `Paving`, codac2_Paving.h:23-137: the box `_x` and the sons -/
inductive Pav (K : Type*) [LinearOrder K] where
  | leaf (x : Box K) : Pav K
  | node (x : Box K) (l r : Pav K) : Pav K

namespace Pav

/-- `box`, codac2_Paving.h:36-39 -/
def box : Pav K → Box K
  | leaf x => x
  | node x _ _ => x

/-- `is_empty`, codac2_Paving.h:51-58 -/
def isEmpty : Pav K → Bool
  | leaf x => Bx.isEmpty x
  | node _ l r => l.isEmpty && r.isEmpty

/-- the default argument `IntervalVector_<N>()`: the whole space for a static size, a vector of size 0 for a dynamic one (`none`) -/
def whole : Option Nat → Box K
  | some n => List.replicate n ⊤
  | none => []

/-- `intersects`, codac2_IntervalMatrix.h:230-238, with the reading beyond the end of a shorter second box as `none` -/
def intersects? (X Y : Box K) : Option Bool :=
  if Bx.isEmpty X || Bx.isEmpty Y then some false else if Y.length < X.length then none else some (Bx.intersects X Y)

/-- `boxes_list_push`, codac2_Paving.h:111-120: the recursive calls do not give the argument `intersect` -/
def boxesPush (N : Option Nat) : Pav K → Box K → Option (List (Box K))
  | leaf x, I => if !Bx.isEmpty x then (intersects? x I).map fun b => if b then [x] else [] else some []
  | node _ l r, _ => (boxesPush N l (whole N)).bind fun a => (boxesPush N r (whole N)).map fun b => a ++ b

/-- `boxes_list(intersect)`, codac2_Paving.h:95-100 -/
def boxesList (N : Option Nat) (p : Pav K) (I : Box K) : Option (List (Box K)) := boxesPush N p I

/-- `leaves_list`, codac2_Paving.h:102-107 and 122-131: the pointers are given as the paths from the root (`false` for the left) -/
def leavesList : Pav K → List (List Bool)
  | leaf x => if !Bx.isEmpty x then [[]] else []
  | node _ l r => l.leavesList.map (false :: ·) ++ r.leavesList.map (true :: ·)

/-- `hull_box`, codac2_Paving.h:85-93; with a dynamic size `empty_set()` asks for a vector of size -1: `none` -/
def hullBox (N : Option Nat) : Pav K → Option (Box K)
  | leaf x => some x
  | node _ l r => N.bind fun n => (hullBox N l).bind fun a => (hullBox N r).map fun b => Bx.hull (Bx.hull (List.replicate n ⊥) a) b

/-- the paving at a path -/
def sub? : Pav K → List Bool → Option (Pav K)
  | p, [] => some p
  | leaf _, _ :: _ => none
  | node _ l r, d :: path => if d then r.sub? path else l.sub? path

/-- a change of the paving at a path, made through its pointer -/
def change (f : Pav K → Option (Pav K)) : Pav K → List Bool → Option (Pav K)
  | p, [] => f p
  | leaf _, _ :: _ => none
  | node x l r, d :: path => if d then (r.change f path).map fun r' => node x l r' else (l.change f path).map fun l' => node x l' r

end Pav

section field

variable {K : Type*} [Field K] [LinearOrder K] [IsStrictOrderedRing K]

/-- `bisect`, codac2_Paving.h:75-83: `none` when an assertion fails -/
def Pav.bisectHere (c : Cut K) : Pav K → Option (Pav K)
  | .leaf x => if isBisectable c x then (Bx.bisect c x).map fun ab => .node x (.leaf ab.1) (.leaf ab.2) else none
  | .node .. => none

/-- a contraction of the box of a leaf (`leaf->_x`, a public field) -/
def Pav.contractHere (f : Box K → Box K) : Pav K → Option (Pav K)
  | .leaf x => some (.leaf (f x))
  | .node .. => none

/-- one operation of a user: bisect a leaf, or contract the box of a leaf -/
inductive Op (K : Type*) [LinearOrder K]
  | bisect (path : List Bool) (c : Cut K)
  | contract (path : List Bool) (f : Box K → Box K)

/-- the effect of one operation -/
def Op.run (p : Pav K) : Op K → Option (Pav K)
  | .bisect path c => p.change (Pav.bisectHere c) path
  | .contract path f => p.change (Pav.contractHere f) path

/-- the effect of several operations -/
def runAll : List (Op K) → Pav K → Option (Pav K)
  | [], p => some p
  | o :: os, p => (o.run p).bind (runAll os)

end field

section volume

/-- the loop of `volume`, codac2_IntervalMatrix.h:382-388 (`none` is `+oo`; exact logarithm and exponential) -/
noncomputable def volLoop : Box ℝ → ℝ → Option ℝ
  | [], v => some (Real.exp v)
  | I :: X, v => if I.isUnbounded then none else if I.isDegenerated then some 0 else volLoop X (v + Real.log (width I))

/-- `IntervalMatrix_::volume`, codac2_IntervalMatrix.h:377-390 -/
noncomputable def volume (X : Box ℝ) : Option ℝ := if Bx.isEmpty X then some 0 else volLoop X 0

/-- the sum of two values that may be `+oo` -/
def addVol (a b : Option ℝ) : Option ℝ := a.bind fun x => b.map fun y => x + y

/-- `Paving::volume`, codac2_Paving.h:65-73 -/
noncomputable def Pav.vol : Pav ℝ → Option ℝ
  | .leaf x => Pav2.volume x
  | .node _ l r => addVol (addVol (some 0) l.vol) r.vol

end volume

end Codac.Pav2
