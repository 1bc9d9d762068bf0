import Verif.Box
import Mathlib.Algebra.Order.Field.Basic

/-!
# The boxes of codac2 (`IntervalMatrix_`, `IntervalVector_`): model

Sources: `src/core/2/domains/interval/codac2_IntervalMatrix.h`, `codac2_IntervalVector.h`. A matrix or vector of intervals is the list of its
components in the order of storage (`data()`). In codac2 a box is empty as soon as one component is empty. The functions with two boxes read the second one with the
indices of the first one: they are used here on boxes of the same size.
-/

set_option linter.unusedSectionVars false

namespace Codac.Bx

section order

variable {K : Type*} [LinearOrder K]

/-- `is_empty`, codac2_IntervalMatrix.h:139-145 -/
def isEmpty (X : Box K) : Bool := X.any Itv.isEmpty

/-- `is_flat`, codac2_IntervalMatrix.h:157-164 -/
def isFlat (X : Box K) : Bool := if isEmpty X then true else X.any Itv.isDegenerated

/-- `is_unbounded`, codac2_IntervalMatrix.h:166-173 -/
def isUnbounded (X : Box K) : Bool := if isEmpty X then false else X.any Itv.isUnbounded

/-- the loop of `is_subset` -/
def subsetLoop : Box K → Box K → Bool
  | I :: X, J :: Y => if decide (I ≤ J) then subsetLoop X Y else false
  | _, _ => true

/-- `is_subset`, codac2_IntervalMatrix.h:175-183 -/
def isSubset (X Y : Box K) : Bool := if isEmpty X then true else if isEmpty Y then false else subsetLoop X Y

/-- the loop of `is_strict_subset`; `Interval::is_strict_subset` (IBEX) is inclusion and difference -/
def strictLoop : Box K → Box K → Bool → Bool
  | I :: X, J :: Y, b =>
    if decide (I ≤ J) then strictLoop X Y (if decide (I ≤ J ∧ I ≠ J) then true else b) else false
  | _, _, b => b

/-- `is_strict_subset`, codac2_IntervalMatrix.h:185-198 -/
def isStrictSubset (X Y : Box K) : Bool := if isEmpty Y then false else if isEmpty X then true else strictLoop X Y false

/-- `is_superset`, codac2_IntervalMatrix.h:200-203 -/
def isSuperset (X Y : Box K) : Bool := isSubset Y X

/-- `is_strict_superset`, codac2_IntervalMatrix.h:205-208 -/
def isStrictSuperset (X Y : Box K) : Bool := isStrictSubset Y X

/-- the loop of `contains` -/
def containsLoop : Box K → List K → Bool
  | I :: X, x :: v => if decide (x ∈ I) then containsLoop X v else false
  | _, _ => true

/-- `contains`, codac2_IntervalMatrix.h:210-218 -/
def contains (X : Box K) (v : List K) : Bool := if isEmpty X then false else containsLoop X v

/-- the loop of `intersects` -/
def intersectsLoop : Box K → Box K → Bool
  | I :: X, J :: Y => if I.intersects J then intersectsLoop X Y else false
  | _, _ => true

/-- `intersects`, codac2_IntervalMatrix.h:230-238 -/
def intersects (X Y : Box K) : Bool := if isEmpty X || isEmpty Y then false else intersectsLoop X Y

/-- the loop of `is_disjoint`; `Interval::is_disjoint` (IBEX) is the negation of `intersects` -/
def disjointLoop : Box K → Box K → Bool
  | I :: X, J :: Y => if !I.intersects J then true else disjointLoop X Y
  | _, _ => false

/-- `is_disjoint`, codac2_IntervalMatrix.h:250-258 -/
def isDisjoint (X Y : Box K) : Bool := if isEmpty X || isEmpty Y then true else disjointLoop X Y

/-- the loop of `operator==` -/
def eqLoop : Box K → Box K → Bool
  | I :: X, J :: Y => if decide (I ≠ J) then false else eqLoop X Y
  | _, _ => true

/-- `operator==`, codac2_IntervalMatrix.h:463-473; the numbers of rows and columns are only seen through the size -/
def beq (X Y : Box K) : Bool :=
  if Y.length ≠ X.length then false else if isEmpty X || isEmpty Y then isEmpty X && isEmpty Y else eqLoop X Y

/-- `set_empty`, codac2_IntervalMatrix.h:436-445 -/
def setEmpty (X : Box K) : Box K := X.map fun _ => ⊥

/-- `operator&=`, codac2_IntervalMatrix.h:480-491 -/
def inter (X Y : Box K) : Box K :=
  if !isEmpty X then (if isEmpty Y then setEmpty X else List.zipWith (· ⊓ ·) X Y) else X

/-- `operator|=`, codac2_IntervalMatrix.h:493-504 -/
def hull (X Y : Box K) : Box K :=
  if !isEmpty Y then (if isEmpty X then Y else List.zipWith (· ⊔ ·) X Y) else X

/-! ### Difference of boxes -/

/-- the loop of `diff` over the components, codac2_IntervalVector.h:192-220; `idiff` is `Interval::diff` (IBEX) on the components of `x` and `y`. The components before
`var` are in `pre`, those from `var` in `X` -/
def diffLoop (idiff : Itv K → Itv K → Itv K × Itv K) (pre : Box K) : Box K → Box K → List (Box K)
  | I :: X, J :: Y =>
    let c := idiff I J
    if !c.1.isEmpty then
      (pre ++ c.1 :: X) :: ((if !c.2.isEmpty then [pre ++ c.2 :: X] else []) ++ diffLoop idiff (pre ++ [I ⊓ J]) X Y)
    else diffLoop idiff (pre ++ [I]) X Y
  | _, _ => []

/-- `diff`, codac2_IntervalVector.h:161-223; `idiff` is `Interval::diff` of IBEX with the same flag of compactness -/
def diff (idiff : Itv K → Itv K → Itv K × Itv K) (compactness : Bool) (X Y : Box K) : List (Box K) :=
  if beq Y X then [List.replicate X.length ⊥]
  else if isEmpty (inter X Y) then [X]
  else if compactness && (List.zipWith (fun Z I => Z.isDegenerated && !I.isDegenerated) (inter X Y) X).any id then [X]
  else diffLoop idiff [] X Y

/-- `complementary`, codac2_IntervalVector.h:156-159 -/
def complementary (idiff : Itv K → Itv K → Itv K × Itv K) (X : Box K) : List (Box K) :=
  diff idiff true (List.replicate X.length ⊤) X

end order

section field

variable {K : Type*} [Field K] [LinearOrder K] [IsStrictOrderedRing K]

/-- `Interval::diam()` for a bounded interval (exact arithmetic) -/
def width (X : Itv K) : K := match X with | .mk (some a) (some b) _ => b - a | _ => 0

/-- the test of the first loop of `extr_diam_index`, codac2_IntervalMatrix.h:311; `d` is `none` for its initial value -/
def testW (min : Bool) (d : Option K) (w : K) : Bool := match d with
  | none => true
  | some d => if min then decide (w < d) else decide (w > d)

/-- the tests of the second loop of `extr_diam_index`, codac2_IntervalMatrix.h:344 and 352; `pt` is `none` for its initial value -/
def testR (min : Bool) (pt : Option K) (a : K) : Bool := match pt with
  | none => true
  | some p => if min then decide (a > p) else decide (a < p)

/-- the first loop of `extr_diam_index`, codac2_IntervalMatrix.h:301-318: the selected index, whether an unbounded component was met, and the index where the loop stops. `d`
is `none` before the first selection: the initial values `+oo` and -1 are beyond all diameters -/
def scan1 (min : Bool) : Box K → Nat → Option K → Option Nat → Bool → Option Nat × Bool × Nat
  | [], i, _, sel, unb => (sel, unb, i)
  | I :: X, i, d, sel, unb =>
    if I.isUnbounded then (if !min then (sel, true, i) else scan1 min X (i + 1) d sel true)
    else if testW min d (width I) then scan1 min X (i + 1) (some (width I)) (some i) unb
    else scan1 min X (i + 1) d sel unb

/-- the second loop of `extr_diam_index`, codac2_IntervalMatrix.h:333-358; `pt` is `none` for its initial infinite value -/
def scan2 (min : Bool) : Box K → Nat → Option K → Nat → Nat
  | [], _, _, sel => sel
  | .mk none none _ :: X, i, pt, sel => if !min then i else scan2 min X (i + 1) pt sel
  | .mk none (some u) _ :: X, i, pt, sel =>
    if testR min pt (-u) then scan2 min X (i + 1) (some (-u)) i else scan2 min X (i + 1) pt sel
  | .mk (some l) none _ :: X, i, pt, sel =>
    if testR min pt l then scan2 min X (i + 1) (some l) i else scan2 min X (i + 1) pt sel
  | _ :: X, i, pt, sel => scan2 min X (i + 1) pt sel

/-- `extr_diam_index`, codac2_IntervalMatrix.h:288-362: `none` for the failures of the assertions and for the index -1 -/
def extrIndex (min : Bool) (X : Box K) : Option Nat :=
  if isEmpty X then none
  else match scan1 min X 0 none none false with
    | (sel, unb, i) =>
      if min && sel.isNone && !unb then none
      else
        let i := if min && sel.isNone then 0 else i
        if unb && (!min || sel.isNone) then some (scan2 min (X.drop i) i none i) else sel

/-- `largest_diam_index`, codac2_IntervalMatrix.h:283-286 -/
def largestIndex (X : Box K) : Option Nat := extrIndex false X

/-- `thinnest_diam_index`, codac2_IntervalMatrix.h:278-281 -/
def thinnestIndex (X : Box K) : Option Nat := extrIndex true X

/-- the bisection of one interval by IBEX: the test `is_bisectable` and the place of the cut for a ratio -/
structure Cut (K : Type*) [LinearOrder K] where
  /-- `Interval::is_bisectable` -/
  bis : Itv K → Bool
  /-- the point where `Interval::bisect(ratio)` cuts -/
  at' : Itv K → K

/-- `is_bisectable`, codac2_IntervalMatrix.h:260-266 -/
def isBisectable (c : Cut K) (X : Box K) : Bool := X.any c.bis

/-- `bisect`, codac2_IntervalMatrix.h:364-375, in exact arithmetic: `none` when an assertion fails. The ratio is in `c` -/
def bisect (c : Cut K) (X : Box K) : Option (Box K × Box K) :=
  (largestIndex X).bind fun i => (X[i]?).bind fun I =>
    if c.bis I then some (X.set i (I ⊓ Itv.mk none (some (c.at' I)) trivial), X.set i (I ⊓ Itv.mk (some (c.at' I)) none trivial)) else none

end field

end Codac.Bx
