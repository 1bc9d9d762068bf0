import Verif.Tube.EvalMono
import Verif.Tube.Examples

/-! # C03: evaluations and sampling -/

namespace Codac.Props
open Codac Codac.Ex

/-- **C03**: `sample(t)` changes no evaluation, at any instant (even for an empty tube, which has no trajectory). -/
theorem C03_sample_same_evaluations {K : Type*} [LinearOrder K] {T : Tube K} (h : T.WF) {t : K} (h1 : T.t0 ≤ t) (h2 : t ≤ T.tf)
    (u : K) : (T.sample t).evalAt u = T.evalAt u := sample_evalAt h h1 h2 u

example : (T.sample (1/2)).evalAt (1/2) = I 0 2 ∧ (T.sample (1/2)).evalAt 1 = I 1 2 := by decide +kernel

end Codac.Props
