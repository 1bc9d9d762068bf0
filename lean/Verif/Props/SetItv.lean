import Verif.Tube.SetItv
import Verif.Tube.Examples

/-! # Property C50: setting a tube over an interval of time -/

namespace Codac.Props
open Codac

variable {K : Type*} [LinearOrder K]

/-- **C50**: after `set(y, [a,b])` with `a < b`, a trajectory is in the tube iff its values are in `y` over `[a,b]`, it
satisfies the former constraints of every slice and gate outside of `[a,b]`, and its values at `a` and at `b` are in the
former envelopes of the slice that reaches `a` from before and of the slice that goes beyond `b`. -/
theorem C50_set_interval {T : Tube K} (h : T.WF) {a b : K} (h1 : T.t0 ≤ a) (h2 : a < b) (h3 : b ≤ T.tf) (y : Itv K)
    (f : K → K) :
    (T.setItv y a b).Encloses f ↔
      (∀ t, a ≤ t → t ≤ b → f t ∈ y) ∧ ∀ s ∈ T.slices,
        (¬ (a ≤ s.lb ∧ s.lb ≤ b) → f s.lb ∈ s.inG) ∧ (¬ (a ≤ s.ub ∧ s.ub ≤ b) → f s.ub ∈ s.outG) ∧
        (∀ t, s.lb < t → t < s.ub → ¬ (a ≤ t ∧ t ≤ b) → f t ∈ s.cod) ∧
        (s.lb < a → a ≤ s.ub → f a ∈ s.cod) ∧ (s.lb ≤ b → b < s.ub → f b ∈ s.cod) :=
  setItv_encloses h h1 h2 h3 y f

/-- **C50**: with consistent gates, no trajectory of the tube with values in `y` over `[a,b]` is lost. -/
theorem C50_set_interval_keeps {T : Tube K} (h : T.WF) (hgc : T.GatesInEnvelopes) {a b : K} (h1 : T.t0 ≤ a) (h2 : a < b)
    (h3 : b ≤ T.tf) (y : Itv K) {f : K → K} (hf : T.Encloses f) (hy : ∀ t, a ≤ t → t ≤ b → f t ∈ y) :
    (T.setItv y a b).Encloses f := by
  rw [C50_set_interval h h1 h2 h3]
  refine ⟨hy, fun s hs => ?_⟩
  obtain ⟨i1, i2, i3⟩ := hf s hs
  exact ⟨fun _ => i1, fun _ => i2, fun t k1 k2 _ => i3 t k1 k2, fun k1 k2 => (hf s hs).mem_cod (hgc s hs) k1.le k2,
    fun k1 k2 => (hf s hs).mem_cod (hgc s hs) k1 k2.le⟩

/-- **C50**: if the tube is set over its whole domain, its trajectories are those with values in `y`. -/
theorem C50_set_interval_all {T : Tube K} (h : T.WF) (y : Itv K) (f : K → K) :
    (T.setItv y T.t0 T.tf).Encloses f ↔ ∀ t, T.t0 ≤ t → t ≤ T.tf → f t ∈ y := by
  rw [C50_set_interval h (le_refl _) h.lt (le_refl _)]
  refine ⟨fun k => k.1, fun k => ⟨k, fun s hs => ?_⟩⟩
  obtain ⟨b1, b2, b3⟩ := h.tiles.mem_bounds hs
  refine ⟨fun e => absurd ⟨b1, le_trans b2.le b3⟩ e, fun e => absurd ⟨le_trans b1 b2.le, b3⟩ e, ?_, ?_, ?_⟩
  · intro t k1 k2 e
    exact absurd ⟨le_trans b1 k1.le, le_trans k2.le b3⟩ e
  · intro k; exact absurd k (not_lt.mpr b1)
  · intro _ k; exact absurd k (not_lt.mpr b3)

/-- hypotheses on a concrete tube; `[1/2,3]` starts and ends inside slices; the result has five slices and its value
is `[2,3]` over `[1/2,3]`, intersected at `1/2` with the envelope `[0,2]` -/
example : Ex.T.WF ∧ Ex.T.GatesInEnvelopes ∧ Ex.T.t0 ≤ 1/2 ∧ (3:ℚ) ≤ Ex.T.tf ∧
    (Ex.T.setItv (Ex.I 2 3) (1/2) 3).nbSlices = 5 ∧ (Ex.T.setItv (Ex.I 2 3) (1/2) 3).evalAt 1 = Ex.I 2 3 ∧
    (Ex.T.setItv (Ex.I 2 3) (1/2) 3).evalAt (1/2) = Ex.I 2 2 ∧ (Ex.T.setItv (Ex.I 2 3) (1/2) 3).evalAt (1/4) = Ex.I 0 2 ∧
    (Ex.T.setItv (Ex.I 2 3) (1/2) 3).evalAt 4 = Ex.I 4 5 :=
  ⟨Ex.T_wf, Ex.T_gc, by decide +kernel, by decide +kernel, by decide +kernel, by decide +kernel, by decide +kernel,
    by decide +kernel, by decide +kernel⟩

end Codac.Props
