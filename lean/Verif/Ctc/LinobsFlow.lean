import Verif.Ctc.Linobs
import Mathlib.Analysis.Calculus.Deriv.MeanValue
import Mathlib.Analysis.Calculus.Deriv.Mul
import Mathlib.Analysis.Calculus.Deriv.Comp

/-!
# The solutions of `x' = A x + b v` satisfy what the loops of `CtcLinobs` use
-/

namespace Codac.Lin
open Codac.Graham Codac.Poly

/-- `E t` is the exponential of `A t`: the solution of `E' = E A`, `E 0 = I` -/
structure IsExp (A : Mat ℝ) (E : ℝ → Mat ℝ) : Prop where
  one : E 0 = ((1, 0), (0, 1))
  d11 : ∀ t, HasDerivAt (fun t => (E t).1.1) ((E t).1.1 * A.1.1 + (E t).1.2 * A.2.1) t
  d12 : ∀ t, HasDerivAt (fun t => (E t).1.2) ((E t).1.1 * A.1.2 + (E t).1.2 * A.2.2) t
  d21 : ∀ t, HasDerivAt (fun t => (E t).2.1) ((E t).2.1 * A.1.1 + (E t).2.2 * A.2.1) t
  d22 : ∀ t, HasDerivAt (fun t => (E t).2.2) ((E t).2.1 * A.1.2 + (E t).2.2 * A.2.2) t

/-- `x' = A x + b v` over the slice of bounds `c`, with `v` in `U` -/
structure Solves (A : Mat ℝ) (b : Pt ℝ) (c : ℝ × ℝ) (x : ℝ → Pt ℝ) (v : ℝ → ℝ) : Prop where
  cont1 : ContinuousOn (fun t => (x t).1) (Set.Icc c.1 c.2)
  cont2 : ContinuousOn (fun t => (x t).2) (Set.Icc c.1 c.2)
  der1 : ∀ t, c.1 < t → t < c.2 → HasDerivAt (fun t => (x t).1) (A.1.1 * (x t).1 + A.1.2 * (x t).2 + b.1 * v t) t
  der2 : ∀ t, c.1 < t → t < c.2 → HasDerivAt (fun t => (x t).2) (A.2.1 * (x t).1 + A.2.2 * (x t).2 + b.2 * v t) t

/-- between `0` and `d ≤ w`, the entries of the exponential are between their values at `0` and `d` -/
def HullExp (E : ℝ → Mat ℝ) (w : ℝ) : Prop := ∀ s d, 0 ≤ s → s ≤ d → d ≤ w → InMat (E s) (expAt E 0 d)

/-- one row of `E(t-s) x(s)`, along the solution -/
theorem row_fwd {A : Mat ℝ} {b : Pt ℝ} {c : ℝ × ℝ} {x : ℝ → Pt ℝ} {v : ℝ → ℝ} (hx : Solves A b c x v) {p q : ℝ → ℝ}
    (hp : ∀ t, HasDerivAt p (p t * A.1.1 + q t * A.2.1) t) (hq : ∀ t, HasDerivAt q (p t * A.1.2 + q t * A.2.2) t) {s t : ℝ} (h1 : c.1 ≤ s) (h2 : s < t) (h3 : t ≤ c.2) :
    ∃ ξ, s < ξ ∧ ξ < t ∧ p 0 * (x t).1 + q 0 * (x t).2 = p (t - s) * (x s).1 + q (t - s) * (x s).2 + (t - s) * (p (t - ξ) * (b.1 * v ξ) + q (t - ξ) * (b.2 * v ξ)) := by
  have hsub : Set.Icc s t ⊆ Set.Icc c.1 c.2 := Set.Icc_subset_Icc h1 h3
  have hpc : Continuous p := continuous_iff_continuousAt.mpr fun t => (hp t).continuousAt
  have hqc : Continuous q := continuous_iff_continuousAt.mpr fun t => (hq t).continuousAt
  obtain ⟨ξ, hξ, e⟩ := exists_hasDerivAt_eq_slope (fun r => p (t - r) * (x r).1 + q (t - r) * (x r).2) (fun r => p (t - r) * (b.1 * v r) + q (t - r) * (b.2 * v r)) h2
    (((hpc.comp (continuous_const.sub continuous_id)).continuousOn.mul (hx.cont1.mono hsub)).add
      ((hqc.comp (continuous_const.sub continuous_id)).continuousOn.mul (hx.cont2.mono hsub))) (by
      intro r hr
      have k1 := hx.der1 r (h1.trans_lt hr.1) (hr.2.trans_le h3)
      have k2 := hx.der2 r (h1.trans_lt hr.1) (hr.2.trans_le h3)
      have d : HasDerivAt (fun r => t - r) (-1) r := by simpa using (hasDerivAt_id r).const_sub t
      have kp := (hp (t - r)).comp r d
      have kq := (hq (t - r)).comp r d
      refine ((kp.mul k1).add (kq.mul k2)).congr_deriv ?_
      simp only [Function.comp]
      ring)
  refine ⟨ξ, hξ.1, hξ.2, ?_⟩
  rw [eq_div_iff (by linarith), sub_self] at e
  linarith

/-- one row of `F(t-s) x(t)`, along the solution -/
theorem row_bwd {A : Mat ℝ} {b : Pt ℝ} {c : ℝ × ℝ} {x : ℝ → Pt ℝ} {v : ℝ → ℝ} (hx : Solves A b c x v) {p q : ℝ → ℝ}
    (hp : ∀ t, HasDerivAt p (p t * -A.1.1 + q t * -A.2.1) t) (hq : ∀ t, HasDerivAt q (p t * -A.1.2 + q t * -A.2.2) t) {s t : ℝ} (h1 : c.1 ≤ s) (h2 : s < t) (h3 : t ≤ c.2) :
    ∃ ξ, s < ξ ∧ ξ < t ∧ p 0 * (x s).1 + q 0 * (x s).2 = p (t - s) * (x t).1 + q (t - s) * (x t).2 - (t - s) * (p (ξ - s) * (b.1 * v ξ) + q (ξ - s) * (b.2 * v ξ)) := by
  have hsub : Set.Icc s t ⊆ Set.Icc c.1 c.2 := Set.Icc_subset_Icc h1 h3
  have hpc : Continuous p := continuous_iff_continuousAt.mpr fun t => (hp t).continuousAt
  have hqc : Continuous q := continuous_iff_continuousAt.mpr fun t => (hq t).continuousAt
  obtain ⟨ξ, hξ, e⟩ := exists_hasDerivAt_eq_slope (fun r => p (r - s) * (x r).1 + q (r - s) * (x r).2) (fun r => p (r - s) * (b.1 * v r) + q (r - s) * (b.2 * v r)) h2
    (((hpc.comp (continuous_id.sub continuous_const)).continuousOn.mul (hx.cont1.mono hsub)).add
      ((hqc.comp (continuous_id.sub continuous_const)).continuousOn.mul (hx.cont2.mono hsub))) (by
      intro r hr
      have k1 := hx.der1 r (h1.trans_lt hr.1) (hr.2.trans_le h3)
      have k2 := hx.der2 r (h1.trans_lt hr.1) (hr.2.trans_le h3)
      have d : HasDerivAt (fun r => r - s) 1 r := (hasDerivAt_id r).sub_const s
      have kp := (hp (r - s)).comp r d
      have kq := (hq (r - s)).comp r d
      refine ((kp.mul k1).add (kq.mul k2)).congr_deriv ?_
      simp only [Function.comp]
      ring)
  refine ⟨ξ, hξ.1, hξ.2, ?_⟩
  rw [eq_div_iff (by linarith), sub_self] at e
  linarith

theorem mem_term {D M1 M2 U : Itv ℝ} {d m1 m2 u b1 b2 : ℝ} (hd : d ∈ D) (h1 : m1 ∈ M1) (h2 : m2 ∈ M2) (hu : u ∈ U) :
    d * m1 * (u * b1) + d * m2 * (u * b2) ∈ Itv.add (.mul (.mul D M1) (.mul U (.point b1))) (.mul (.mul D M2) (.mul U (.point b2))) :=
  Itv.mem_add (Itv.mem_mul (Itv.mem_mul hd h1) (Itv.mem_mul hu (Itv.mem_point.mpr rfl))) (Itv.mem_mul (Itv.mem_mul hd h2) (Itv.mem_mul hu (Itv.mem_point.mpr rfl)))

/-- the forced part from the two rows: the instants of the mean value theorem differ -/
theorem in_forced {D : Itv ℝ} {M : IMat ℝ} {U : Itv ℝ} {b : Pt ℝ} {d u1 u2 : ℝ} {G1 G2 : Mat ℝ} (hd : d ∈ D) (h1 : InMat G1 M) (h2 : InMat G2 M) (k1 : u1 ∈ U) (k2 : u2 ∈ U) :
    In (d * (G1.1.1 * (b.1 * u1) + G1.1.2 * (b.2 * u1)), d * (G2.2.1 * (b.1 * u2) + G2.2.2 * (b.2 * u2))) (forced D M U b) := by
  refine ⟨?_, ?_⟩
  · have := mem_term (b1 := b.1) (b2 := b.2) hd h1.1.1 h1.1.2 k1
    rwa [show d * G1.1.1 * (u1 * b.1) + d * G1.1.2 * (u1 * b.2) = d * (G1.1.1 * (b.1 * u1) + G1.1.2 * (b.2 * u1)) by ring] at this
  · have := mem_term (b1 := b.1) (b2 := b.2) hd h2.2.1 h2.2.2 k2
    rwa [show d * G2.2.1 * (u2 * b.1) + d * G2.2.2 * (u2 * b.2) = d * (G2.2.1 * (b.1 * u2) + G2.2.2 * (b.2 * u2)) by ring] at this

variable {A : Mat ℝ} {P : Params ℝ} {c : ℝ × ℝ} {x : ℝ → Pt ℝ} {v : ℝ → ℝ} {U : Itv ℝ} {w : ℝ}

/-- forward, with any interval matrix containing the exponentials of the durations -/
theorem sol_fwd (hE : IsExp A P.E) (hx : Solves A P.b c x v) (hu : ∀ t, c.1 < t → t < c.2 → v t ∈ U) (hlt : c.1 < c.2) {D : Itv ℝ} {M : IMat ℝ} {s t : ℝ}
    (h1 : c.1 ≤ s) (h2 : s ≤ t) (h3 : t ≤ c.2) (hD : t - s ∈ D) (hM : ∀ r, 0 ≤ r → r ≤ t - s → InMat (P.E r) M) :
    ∃ f, In f (forced D M U P.b) ∧ x t = ((app (P.E (t - s)) (x s)).1 + f.1, (app (P.E (t - s)) (x s)).2 + f.2) := by
  rcases h2.eq_or_lt with rfl | h2
  · have hm := hM 0 le_rfl (by simp)
    have hv := hu ((c.1 + c.2) / 2) (by linarith) (by linarith)
    refine ⟨_, in_forced (b := P.b) hD hm hm hv hv, ?_⟩
    simp only [sub_self, hE.one, app]
    ext <;> simp
  · obtain ⟨ξ, a1, a2, e1⟩ := row_fwd hx hE.d11 hE.d12 h1 h2 h3
    obtain ⟨η, b1, b2, e2⟩ := row_fwd hx hE.d21 hE.d22 h1 h2 h3
    refine ⟨_, in_forced (b := P.b) hD (hM (t - ξ) (by linarith) (by linarith)) (hM (t - η) (by linarith) (by linarith)) (hu ξ (by linarith) (by linarith))
      (hu η (by linarith) (by linarith)), ?_⟩
    rw [hE.one] at e1 e2
    simp only [one_mul, zero_mul, add_zero, zero_add] at e1 e2
    exact Prod.ext e1 e2

theorem sol_bwd (hF : IsExp ((-A.1.1, -A.1.2), (-A.2.1, -A.2.2)) P.F) (hx : Solves A P.b c x v) (hu : ∀ t, c.1 < t → t < c.2 → v t ∈ U) (hlt : c.1 < c.2)
    {D : Itv ℝ} {M : IMat ℝ} {s t : ℝ} (h1 : c.1 ≤ s) (h2 : s ≤ t) (h3 : t ≤ c.2) (hD : t - s ∈ D) (hM : ∀ r, 0 ≤ r → r ≤ t - s → InMat (P.F r) M) :
    ∃ f, In f (forced D M U P.b) ∧ x s = ((app (P.F (t - s)) (x t)).1 - f.1, (app (P.F (t - s)) (x t)).2 - f.2) := by
  rcases h2.eq_or_lt with rfl | h2
  · have hm := hM 0 le_rfl (by simp)
    have hv := hu ((c.1 + c.2) / 2) (by linarith) (by linarith)
    refine ⟨_, in_forced (b := P.b) hD hm hm hv hv, ?_⟩
    simp only [sub_self, hF.one, app]
    ext <;> simp
  · obtain ⟨ξ, a1, a2, e1⟩ := row_bwd hx hF.d11 hF.d12 h1 h2 h3
    obtain ⟨η, b1, b2, e2⟩ := row_bwd hx hF.d21 hF.d22 h1 h2 h3
    refine ⟨_, in_forced (b := P.b) hD (hM (ξ - s) (by linarith) (by linarith)) (hM (η - s) (by linarith) (by linarith)) (hu ξ (by linarith) (by linarith))
      (hu η (by linarith) (by linarith)), ?_⟩
    rw [hF.one] at e1 e2
    simp only [one_mul, zero_mul, add_zero, zero_add] at e1 e2
    exact Prod.ext e1 e2

/-- the solutions satisfy what the loops use -/
theorem flow_of_solves (hE : IsExp A P.E) (hF : IsExp ((-A.1.1, -A.1.2), (-A.2.1, -A.2.2)) P.F) (hEw : HullExp P.E w) (hFw : HullExp P.F w)
    (hw : c.2 - c.1 ≤ w) (hlt : c.1 < c.2) (hx : Solves A P.b c x v) (hu : ∀ t, c.1 < t → t < c.2 → v t ∈ U) : Flow P U c x where
  fwd s t h1 h2 h3 := sol_fwd hE hx hu hlt h1 h2 h3 (Itv.mem_point.mpr rfl) fun r r0 r1 => hEw r (t - s) r0 r1 (by linarith)
  bwd s t h1 h2 h3 := sol_bwd hF hx hu hlt h1 h2 h3 (Itv.mem_point.mpr rfl) fun r r0 r1 => hFw r (t - s) r0 r1 (by linarith)
  env t h1 h2 := ⟨hEw (t - c.1) (c.2 - c.1) (by linarith) (by linarith) hw,
    sol_fwd hE hx hu hlt le_rfl h1 h2 (Itv.mem_icc.mpr ⟨by linarith, by linarith⟩) fun r r0 r1 => hEw r (c.2 - c.1) r0 (by linarith) hw⟩

/-- the instants of the gates -/
noncomputable def gateTime (u : Tube ℝ) : Nat → ℝ
  | 0 => u.t0
  | k + 1 => ((u.slices.map fun s => (s.lb, s.ub))[k]?.map (·.2)).getD u.tf

theorem gateTime_spec {u : Tube ℝ} (h : u.WF) {k : Nat} {b : ℝ × ℝ} (hb : (u.slices.map fun s => (s.lb, s.ub))[k]? = some b) :
    b.1 = gateTime u k ∧ b.2 = gateTime u (k + 1) ∧ b.1 ≤ b.2 := by
  rw [List.getElem?_map, Option.map_eq_some_iff] at hb
  obtain ⟨s, hs, rfl⟩ := hb
  refine ⟨?_, ?_, (h.tiles.mem_bounds (List.mem_of_getElem? hs)).2.1.le⟩
  · cases k with
    | zero =>
      have ht := h.tiles
      unfold Tube.slices at hs
      cases hcs : u.cells with
      | nil => rw [hcs] at hs; simp at hs
      | cons c cs =>
        rw [hcs] at hs ht
        rw [slicesFrom_cons, List.getElem?_cons_zero, Option.some.injEq] at hs
        subst hs
        exact ht.1
    | succ k =>
      obtain ⟨p, hp⟩ : ∃ p, u.slices[k]? = some p := ⟨_, List.getElem?_eq_getElem (by have := (List.getElem?_eq_some_iff.mp hs).1; omega)⟩
      rw [gateTime, List.getElem?_map, hp]
      exact slices_link h (Nat.succ_pos k) hs hp
  · rw [gateTime, List.getElem?_map, hs]
    rfl

end Codac.Lin
