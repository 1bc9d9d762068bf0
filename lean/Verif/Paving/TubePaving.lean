import Verif.Paving.Compute
import Verif.Tube.Vector

/-!
# Pavings of tubes

Source: `src/core/paving/codac_TubePaving.cpp`. The recursion is the one of `Paving.compute` (`SetValue::UNKNOWN` for the nodes).
-/

set_option linter.unusedSectionVars false

namespace Codac

variable {K : Type*} [Field K] [LinearOrder K] [IsStrictOrderedRing K]

/-- the loop over one interval `v_t_inv[i]` of the inversion, codac_TubePaving.cpp:42-56: a row of slices ending before the end of the
interval, whose envelopes all contain the components of the box. The intervals are bounded, the time domain being bounded. -/
def tubeRowsIn (x : List (Tube K)) (y : Box K) : Itv K → Bool
  | .mk (some a) (some b) _ =>
    (((vRows x).drop (vIndex x a)).takeWhile fun r => decide (r.1.2 ≤ b)).any fun r =>
      (List.zipWith (fun (I : Itv K) (s : Slice K) => decide (I ≤ s.cod)) y r.2).all id
  | _ => false

/-- the tests of `TubePaving::compute(precision, TubeVector)`, codac_TubePaving.cpp:31-68 (`v_t_inv` = `L`) -/
def classifyTubeVector (x : List (Tube K)) (p : K) (y : Box K) (L : List (Itv K)) : Option SetValue :=
  if L.isEmpty then some .OUT
  else if L.any (tubeRowsIn x y) then some .IN
  else if Box.maxDiamLt p y then some .UNKNOWN
  else none

/-- the same, with the inversion; slicings which differ (see `vInvertList`) are excluded by the hypotheses of the theorems and give no
value here -/
def tubeVectorTest (x : List (Tube K)) (p : K) (y : Box K) : Option SetValue :=
  match vDom x with
  | none => none
  | some (t0, tf) => (vInvertList x y (Itv.icc t0 tf)).bind (classifyTubeVector x p y)

/-- the loop of codac_TubePaving.cpp:96-103: the slices from `slice(a)` which start before `b` have an envelope containing `v` -/
def slicesContain (T : Tube K) (a b : K) (v : Itv K) : Bool :=
  ((seek a T.slices).takeWhile fun s => decide (s.lb ≤ b)).all fun s => decide (v ≤ s.cod)

/-- `is_in`, codac_TubePaving.cpp:93-104: `y[0]` in the time domain, `y[1]` in the evaluation over `y[0]` and in the envelopes of the slices.
An unbounded `y[0]` is not in the time domain, an empty one has been classified before. -/
def tubeIn (T : Tube K) (d v : Itv K) : Bool :=
  match d with
  | .mk (some a) (some b) _ => decide (d ≤ Itv.icc T.t0 T.tf) && decide (v ≤ T.evalItv d) && slicesContain T a b v
  | _ => false

/-- the tests of `TubePaving::compute(precision, Tube)`, codac_TubePaving.cpp:82-110, on a box `[time] × [value]` (the box of a paving is not empty) -/
def classifyTube (T : Tube K) (p : K) (X : Box K) : Option SetValue :=
  match X with
  | [d, v] =>
    let D := Itv.icc T.t0 T.tf
    if (D ⊓ d).isEmpty || (T.codomain ⊓ v).isEmpty || (v ⊓ T.evalItv (D ⊓ d)).isEmpty then some .OUT
    else if tubeIn T d v then some .IN
    else if Box.maxDiamLt p X then some .UNKNOWN
    else none
  | _ => none

end Codac
