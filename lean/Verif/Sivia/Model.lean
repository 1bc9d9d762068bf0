import Verif.Ctc.Boxes
import Mathlib.Algebra.Order.Field.Basic

/-!
# SIVIA: model

Source: `src/core/sivia/codac_sivia.cpp`. The display (VIBes) is not modelled and `return_result` is taken as true. The bisector of
IBEX (`LargestFirst`), the difference of boxes of IBEX (`IntervalVector::diff`), the contractor and the separator are parameters.
-/

set_option linter.unusedSectionVars false

namespace Codac

variable {K : Type*} [Field K] [LinearOrder K] [IsStrictOrderedRing K]

/-- `diam() < p` (IBEX `Interval::diam`, which is 0 for an empty interval) -/
def Itv.diamBelow (p : K) : Itv K → Bool
  | .empty => decide (0 < p)
  | .mk (some a) (some b) _ => decide (b - a < p)
  | .mk _ _ _ => false

/-- `max_diam() < p` (IBEX `IntervalVector::max_diam`) -/
def Box.maxDiamLt (p : K) (X : Box K) : Bool := X.all (Itv.diamBelow p)

/-- the map `boxes` of results: `IN`, `OUT`, `UNKNOWN` (no `IN` with a contractor), codac_sivia.cpp:76-80 and 231-235 -/
structure SivRes (K : Type*) [LinearOrder K] where
  inn : List (Box K)
  out : List (Box K)
  unk : List (Box K)

namespace Sivia

/-- the boxes pushed in `IN`, in `OUT`, and `x_remaining` if any, for one box of the stack -/
structure Step (K : Type*) [LinearOrder K] where
  inn : List (Box K)
  out : List (Box K)
  rem : Option (Box K)

/-- body of the loop with a contractor up to `x_remaining`, codac_sivia.cpp:91-129 -/
def ctcStep (regular : Bool) (diff : Box K → Box K → List (Box K)) (ctc : Box K → Box K) (x_before : Box K) : Step K :=
  let x := ctc x_before
  { inn := []
    out := if regular then (if x.isEmpty then [x_before] else []) else diff x_before x
    rem := if x.isEmpty then none else some (if regular then x_before else x) }

/-- body of the loop with a separator up to `x_remaining`, codac_sivia.cpp:246-303 -/
def sepStep (regular : Bool) (diff : Box K → Box K → List (Box K)) (sep : Box K → Box K → Box K × Box K) (x_before : Box K) :
    Step K :=
  let x_in := (sep x_before x_before).1
  let x_out := (sep x_before x_before).2
  let x := Box.inter x_in x_out
  { inn := if regular then (if x_in.isEmpty then [x_before] else []) else diff x_before x_in
    out := if regular then (if x_out.isEmpty then [x_before] else []) else diff x_before x_out
    rem := if x.isEmpty then none else some (if regular then x_before else x) }

/-- the loop on the stack, codac_sivia.cpp:88-161 and 243-324: `step` is one of the above, `small` the test of the precision and
`split` the boxes pushed at the end of the stack. At most `fuel` iterations (`none`: more are needed). -/
def loop (step : Box K → Step K) (small : Box K → Bool) (split : Box K → List (Box K)) :
    Nat → List (Box K) → SivRes K → Option (SivRes K)
  | _, [], r => some r
  | 0, _ :: _, _ => none
  | n + 1, X :: q, r =>
    let s := step X
    let r' : SivRes K := { r with inn := s.inn.reverse ++ r.inn, out := s.out.reverse ++ r.out }
    match s.rem with
    | none => loop step small split n q r'
    | some Z =>
      if small Z then loop step small split n q { r' with unk := Z :: r'.unk }
      else loop step small split n (q ++ split Z) r'

/-- the boxes pushed on the stack: bisection of the `nx` first components, the others are `y0`, codac_sivia.cpp:144-159 (and
319-321 with `y0` of dimension 0) -/
def splitXY (bis : Box K → Box K × Box K) (nx : Nat) (y0 : Box K) (Z : Box K) : List (Box K) :=
  [(bis (Z.take nx)).1 ++ y0, (bis (Z.take nx)).2 ++ y0]

/-- `_SIVIA(x0, y0, ctc, precision, regular_paving)`, codac_sivia.cpp:35-172; `y0 = []` when there is no `y0` -/
def sivCtc (bis : Box K → Box K × Box K) (diff : Box K → Box K → List (Box K)) (ctc : Box K → Box K) (p : K) (regular : Bool)
    (x0 y0 : Box K) (fuel : Nat) : Option (SivRes K) :=
  loop (ctcStep regular diff ctc) (fun Z => Box.maxDiamLt p (Z.take x0.length)) (splitXY bis x0.length y0) fuel [x0 ++ y0] ⟨[], [], []⟩

/-- `SIVIA(x0, sep, precision, regular_paving)`, codac_sivia.cpp:188-336 -/
def sivSep (bis : Box K → Box K × Box K) (diff : Box K → Box K → List (Box K)) (sep : Box K → Box K → Box K × Box K) (p : K)
    (regular : Bool) (x0 : Box K) (fuel : Nat) : Option (SivRes K) :=
  loop (sepStep regular diff sep) (Box.maxDiamLt p) (splitXY bis x0.length []) fuel [x0] ⟨[], [], []⟩

end Sivia

/-! ### Specification of the operators of IBEX -/

/-- strictly between the bounds -/
def Itv.InInt (a : K) : Itv K → Prop
  | .empty => False
  | .mk lo hi _ => (∀ l, lo = some l → l < a) ∧ (∀ h, hi = some h → a < h)

/-- a point in the interior of a box -/
def InInterior (v : List K) (X : Box K) : Prop := List.Forall₂ Itv.InInt v X

/-- what is used of `bisector.bisect` for correctness: two boxes inside the box, covering it, of disjoint interiors -/
structure IsBis (bis : Box K → Box K × Box K) : Prop where
  le₁ : ∀ X, X ≠ [] → BoxLe (bis X).1 X
  le₂ : ∀ X, X ≠ [] → BoxLe (bis X).2 X
  cover : ∀ X v, X ≠ [] → InBox v X → InBox v (bis X).1 ∨ InBox v (bis X).2
  disj : ∀ X v, X ≠ [] → InInterior v (bis X).1 → ¬ InInterior v (bis X).2

/-- width of a bounded interval -/
def Itv.width : Itv K → K
  | .mk (some a) (some b) _ => b - a
  | _ => 0

/-- what is used of `LargestFirst::bisect` for termination: one of the components of largest diameter is split, both parts being
reduced by the factor `c` -/
def IsLargestFirst (c : K) (bis : Box K → Box K × Box K) : Prop :=
  ∀ X : Box K, (∀ I ∈ X, I.isUnbounded = false) → (∃ I ∈ X, 0 < I.width) →
    ∃ i, (∀ J ∈ X, J.width ≤ (X.getD i ⊥).width) ∧
      ((bis X).1.getD i ⊥).width ≤ c * (X.getD i ⊥).width ∧ ((bis X).2.getD i ⊥).width ≤ c * (X.getD i ⊥).width

/-- what is used of `x0.diff(x, boxes)` for `x` inside `x0`: the boxes are inside `x0`, cover the points of `x0` which are not in
`x`, and their interiors do not meet `x` unless `x` is flat in some direction (IBEX computes the closure of the difference: the
difference of `[0,2]` and `[1,1]` is `[0,2]`) -/
structure IsDiff (diff : Box K → Box K → List (Box K)) : Prop where
  le : ∀ X Y, BoxLe Y X → ∀ P ∈ diff X Y, BoxLe P X
  cover : ∀ X Y, BoxLe Y X → ∀ v, InBox v X → ¬ InBox v Y → ∃ P ∈ diff X Y, InBox v P
  sep : ∀ X Y, BoxLe Y X → ∀ P ∈ diff X Y, ∀ v, InInterior v P → InBox v Y → Y.any Itv.isDegenerated = true

end Codac
