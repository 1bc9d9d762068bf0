import Verif.Interval
import Mathlib.Analysis.Calculus.MeanValue
import Mathlib.Analysis.Calculus.Deriv.MeanValue
import Mathlib.Analysis.Calculus.Deriv.Prod
import Mathlib.Analysis.Calculus.ContDiff.Basic
import Mathlib.Analysis.SpecialFunctions.ExpDeriv

/-!
# Solutions of `y' = ψ(y)`: they stay in the boxes that the Picard operator maps to themselves; remainder of order 2; mean value formula
-/

set_option linter.unusedSectionVars false

namespace Codac.Loh
open Codac Set

/-- nearest point of an interval -/
noncomputable def clamp (I : Itv ℝ) (v : ℝ) : ℝ :=
  match I with
  | .empty => v
  | .mk l u _ =>
    let w := match l with | some a => max a v | none => v
    match u with | some b => min b w | none => w

theorem clamp_continuous (I : Itv ℝ) : Continuous (clamp I) := by
  unfold clamp
  cases I with
  | empty => exact continuous_id
  | mk l u p => cases l <;> cases u <;> simp only <;> fun_prop

theorem clamp_spec {I : Itv ℝ} {m0 : ℝ} (h : m0 ∈ I) (v : ℝ) :
    clamp I v ∈ I ∧ (v ≤ clamp I v ∨ ∀ m ∈ I, m ≤ clamp I v) ∧ (clamp I v ≤ v ∨ ∀ m ∈ I, clamp I v ≤ m) := by
  cases I with
  | empty => exact absurd h (Itv.not_mem_empty _)
  | mk l u p =>
    cases l with
    | none => cases u with
      | none => exact ⟨⟨trivial, trivial⟩, Or.inl le_rfl, Or.inl le_rfl⟩
      | some b =>
        simp only [clamp, Itv.mem_mk, loLe_none, leHi_some, true_and]
        refine ⟨min_le_left _ _, ?_, Or.inl (min_le_right _ _)⟩
        rcases le_total v b with hb | hb
        · left; rw [min_eq_right hb]
        · right; intro m hm; rw [min_eq_left hb]; exact hm
    | some a => cases u with
      | none =>
        simp only [clamp, Itv.mem_mk, loLe_some, leHi_none, and_true]
        refine ⟨le_max_left _ _, Or.inl (le_max_right _ _), ?_⟩
        rcases le_total v a with hb | hb
        · right; intro m hm; rw [max_eq_left hb]; exact hm
        · left; rw [max_eq_right hb]
      | some b =>
        have hab : a ≤ b := p
        simp only [clamp, Itv.mem_mk, loLe_some, leHi_some]
        refine ⟨⟨le_min hab (le_max_left _ _), min_le_left _ _⟩, ?_, ?_⟩
        · rcases le_total v b with hb | hb
          · left; exact le_min hb (le_max_right _ _)
          · right; intro m hm; rw [min_eq_left (hb.trans (le_max_right _ _))]; exact hm.2
        · rcases le_total v a with hb | hb
          · right; intro m hm; rw [max_eq_left hb, min_eq_right hab]; exact hm.1
          · left; rw [max_eq_right hb]; exact min_le_right _ _

variable {n : Nat}

/-- a continuously differentiable function is Lipschitz on balls -/
theorem lipschitz_ball {ψ : (Fin n → ℝ) → (Fin n → ℝ)} (hψ : ContDiff ℝ 1 ψ) (R : ℝ) :
    ∃ L, 0 < L ∧ ∀ v w, ‖v‖ ≤ R → ‖w‖ ≤ R → ‖ψ v - ψ w‖ ≤ L * ‖v - w‖ := by
  obtain ⟨C, hC⟩ := (isCompact_closedBall (0 : Fin n → ℝ) R).exists_bound_of_continuousOn
    (f := fderiv ℝ ψ) (hψ.continuous_fderiv (by norm_num)).continuousOn
  refine ⟨max C 1, lt_max_of_lt_right one_pos, fun v w hv hw => ?_⟩
  refine (convex_closedBall (0 : Fin n → ℝ) R).norm_image_sub_le_of_norm_fderiv_le (𝕜 := ℝ) (fun x _ => (hψ.differentiable (by norm_num)) x)
    (fun x hx => (hC x hx).trans (le_max_left _ _)) ?_ ?_
  · simpa using hw
  · simpa using hv

/-- a solution stays in a box `U` if `y(0) + s ψ(w)` is in `U` for all `w` in `U` -/
theorem stays {ψ : (Fin n → ℝ) → (Fin n → ℝ)} (hψ : ContDiff ℝ 1 ψ) {y : ℝ → Fin n → ℝ} {h : ℝ}
    (hy : ∀ s ∈ Icc 0 h, HasDerivWithinAt y (ψ (y s)) (Icc 0 h) s) {U : Fin n → Itv ℝ} (h0 : ∀ i, y 0 i ∈ U i)
    (hU : ∀ w, (∀ i, w i ∈ U i) → ∀ s ∈ Icc 0 h, ∀ i, y 0 i + s * ψ w i ∈ U i) : ∀ s ∈ Icc 0 h, ∀ i, y s i ∈ U i := by
  by_cases hh : 0 ≤ h
  swap
  · intro s hs; exact absurd (hs.1.trans hs.2) hh
  have hcy : ContinuousOn y (Icc 0 h) := fun s hs => (hy s hs).continuousWithinAt
  let Pj : (Fin n → ℝ) → (Fin n → ℝ) := fun v i => clamp (U i) (v i)
  have hPc : Continuous Pj := continuous_pi fun i => (clamp_continuous (U i)).comp (continuous_apply i)
  have hPm : ∀ v i, Pj v i ∈ U i := fun v i => (clamp_spec (h0 i) (v i)).1
  obtain ⟨R1, hR1⟩ := isCompact_Icc.exists_bound_of_continuousOn hcy
  obtain ⟨R2, hR2⟩ := isCompact_Icc.exists_bound_of_continuousOn (hPc.comp_continuousOn hcy)
  obtain ⟨L, hL0, hL⟩ := lipschitz_ball hψ (max R1 R2)
  let d : ℝ → ℝ := fun s => ‖y s - Pj (y s)‖
  have hdc : ContinuousOn d (Icc 0 h) := (hcy.sub (hPc.comp_continuousOn hcy)).norm
  have hec : ContinuousOn (fun s => d s * Real.exp (-(2 * L * s))) (Icc 0 h) := hdc.mul (by fun_prop)
  obtain ⟨s0, hs0, hmax⟩ := isCompact_Icc.exists_isMaxOn (nonempty_Icc.2 hh) hec
  set M := d s0 * Real.exp (-(2 * L * s0)) with hM
  have hM0 : 0 ≤ M := mul_nonneg (norm_nonneg _) (Real.exp_pos _).le
  have hdM : ∀ s ∈ Icc 0 h, d s ≤ M * Real.exp (2 * L * s) := by
    intro s hs
    have h1 : d s * Real.exp (-(2 * L * s)) ≤ M := hmax hs
    have h2 := mul_le_mul_of_nonneg_right h1 (Real.exp_pos (2 * L * s)).le
    rwa [mul_assoc, ← Real.exp_add, neg_add_cancel, Real.exp_zero, mul_one] at h2
  have hψb : ∀ s ∈ Icc 0 h, ∀ i, |ψ (y s) i - ψ (Pj (y s)) i| ≤ L * (M * Real.exp (2 * L * s)) := by
    intro s hs i
    have h1 := hL (y s) (Pj (y s)) ((hR1 s hs).trans (le_max_left _ _)) ((hR2 s hs).trans (le_max_right _ _))
    have h2 := norm_le_pi_norm (ψ (y s) - ψ (Pj (y s))) i
    rw [Pi.sub_apply, Real.norm_eq_abs] at h2
    exact h2.trans (h1.trans (mul_le_mul_of_nonneg_left (hdM s hs) hL0.le))
  have key : ∀ s ∈ Icc 0 h, ∀ i, |y s i - Pj (y s) i| ≤ M / 2 * Real.exp (2 * L * s) := by
    intro s hs i
    rcases eq_or_lt_of_le hs.1 with hs' | hs'
    · rw [← hs']
      have : Pj (y 0) i = y 0 i := by
        obtain ⟨k1, k2, k3⟩ := clamp_spec (h0 i) (y 0 i)
        refine le_antisymm ?_ ?_
        · rcases k3 with k | k
          · exact k
          · exact k _ (h0 i)
        · rcases k2 with k | k
          · exact k
          · exact k _ (h0 i)
      rw [this, sub_self, abs_zero]
      exact mul_nonneg (by linarith) (Real.exp_pos _).le
    have hsub : Icc 0 s ⊆ Icc 0 h := Icc_subset_Icc le_rfl hs.2
    have hder : ∀ τ ∈ Ioo 0 s, HasDerivAt (fun τ => y τ i) (ψ (y τ) i) τ := by
      intro τ hτ
      have h1 := (hy τ ⟨hτ.1.le, hτ.2.le.trans hs.2⟩).hasDerivAt (Icc_mem_nhds hτ.1 (hτ.2.trans_le hs.2))
      exact hasDerivAt_pi.1 h1 i
    have hexp : ∀ τ, HasDerivAt (fun τ => M / 2 * (Real.exp (2 * L * τ) - 1)) (M * L * Real.exp (2 * L * τ)) τ := by
      intro τ
      have h1 : HasDerivAt (fun τ => 2 * L * τ) (2 * L) τ := by simpa using (hasDerivAt_id τ).const_mul (2 * L)
      have h2 := ((h1.exp).sub_const 1).const_mul (M / 2)
      refine h2.congr_deriv ?_
      ring
    have hci : ContinuousOn (fun τ => y τ i) (Icc 0 s) := (continuous_apply i).comp_continuousOn (hcy.mono hsub)
    have hce : ContinuousOn (fun τ => M / 2 * (Real.exp (2 * L * τ) - 1)) (Icc 0 s) := fun τ _ => (hexp τ).continuousAt.continuousWithinAt
    obtain ⟨c1, hc1, e1⟩ := exists_hasDerivAt_eq_slope (fun τ => y τ i - M / 2 * (Real.exp (2 * L * τ) - 1))
      (fun τ => ψ (y τ) i - M * L * Real.exp (2 * L * τ)) hs' (hci.sub hce) fun τ hτ => (hder τ hτ).sub (hexp τ)
    obtain ⟨c2, hc2, e2⟩ := exists_hasDerivAt_eq_slope (fun τ => y τ i + M / 2 * (Real.exp (2 * L * τ) - 1))
      (fun τ => ψ (y τ) i + M * L * Real.exp (2 * L * τ)) hs' (hci.add hce) fun τ hτ => (hder τ hτ).add (hexp τ)
    have b1 := abs_le.1 (hψb c1 ⟨hc1.1.le, hc1.2.le.trans hs.2⟩ i)
    have b2 := abs_le.1 (hψb c2 ⟨hc2.1.le, hc2.2.le.trans hs.2⟩ i)
    have m1 := hU (Pj (y c1)) (hPm _) s hs i
    have m2 := hU (Pj (y c2)) (hPm _) s hs i
    rw [sub_zero, eq_div_iff hs'.ne', mul_zero, Real.exp_zero, sub_self, mul_zero, sub_zero] at e1
    rw [sub_zero, eq_div_iff hs'.ne', mul_zero, Real.exp_zero, sub_self, mul_zero, add_zero] at e2
    have u1 : y s i ≤ y 0 i + s * ψ (Pj (y c1)) i + M / 2 * (Real.exp (2 * L * s) - 1) := by
      have : (ψ (y c1) i - M * L * Real.exp (2 * L * c1)) * s ≤ ψ (Pj (y c1)) i * s :=
        mul_le_mul_of_nonneg_right (by nlinarith [b1.2]) hs'.le
      linarith
    have u2 : y 0 i + s * ψ (Pj (y c2)) i - M / 2 * (Real.exp (2 * L * s) - 1) ≤ y s i := by
      have : ψ (Pj (y c2)) i * s ≤ (ψ (y c2) i + M * L * Real.exp (2 * L * c2)) * s :=
        mul_le_mul_of_nonneg_right (by nlinarith [b2.1]) hs'.le
      linarith
    have hE : 0 ≤ M / 2 * Real.exp (2 * L * s) := mul_nonneg (by linarith) (Real.exp_pos _).le
    obtain ⟨-, k2, k3⟩ := clamp_spec (h0 i) (y s i)
    rw [abs_le]
    constructor
    · rcases k3 with k | k
      · have : clamp (U i) (y s i) ≤ y s i := k
        change -(M / 2 * Real.exp (2 * L * s)) ≤ y s i - clamp (U i) (y s i)
        linarith
      · have := k _ m2
        change -(M / 2 * Real.exp (2 * L * s)) ≤ y s i - clamp (U i) (y s i)
        linarith
    · rcases k2 with k | k
      · have : y s i ≤ clamp (U i) (y s i) := k
        change y s i - clamp (U i) (y s i) ≤ M / 2 * Real.exp (2 * L * s)
        linarith
      · have := k _ m1
        change y s i - clamp (U i) (y s i) ≤ M / 2 * Real.exp (2 * L * s)
        linarith
  have hdk : ∀ s ∈ Icc 0 h, d s ≤ M / 2 * Real.exp (2 * L * s) := by
    intro s hs
    refine (pi_norm_le_iff_of_nonneg (mul_nonneg (by linarith) (Real.exp_pos _).le)).2 fun i => ?_
    rw [Pi.sub_apply, Real.norm_eq_abs]
    exact key s hs i
  have hM' : M ≤ M / 2 := by
    have h2 := mul_le_mul_of_nonneg_right (hdk s0 hs0) (Real.exp_pos (-(2 * L * s0))).le
    rwa [mul_assoc (M / 2), ← Real.exp_add, add_neg_cancel, Real.exp_zero, mul_one] at h2
  have hMz : M = 0 := by linarith
  intro s hs i
  have hd0 : d s ≤ 0 := by have := hdM s hs; rwa [hMz, zero_mul] at this
  have : y s - Pj (y s) = 0 := norm_le_zero_iff.1 hd0
  have e : y s i = Pj (y s) i := by
    have := congrFun this i
    rw [Pi.sub_apply, Pi.zero_apply] at this
    linarith
  rw [e]
  exact hPm _ i

/-- remainder of order 2 -/
theorem taylor2 {p q q' : ℝ → ℝ} {h : ℝ} (hh : 0 < h) (hp : ∀ s ∈ Icc 0 h, HasDerivWithinAt p (q s) (Icc 0 h) s)
    (hq : ∀ s ∈ Icc 0 h, HasDerivWithinAt q (q' s) (Icc 0 h) s) : ∃ c ∈ Ioo 0 h, p h = p 0 + h * q 0 + 1 / 2 * h * h * q' c := by
  have hpc : ContinuousOn p (Icc 0 h) := fun s hs => (hp s hs).continuousWithinAt
  have hqc : ContinuousOn q (Icc 0 h) := fun s hs => (hq s hs).continuousWithinAt
  have hp' : ∀ s ∈ Ioo 0 h, HasDerivAt p (q s) s := fun s hs => (hp s ⟨hs.1.le, hs.2.le⟩).hasDerivAt (Icc_mem_nhds hs.1 hs.2)
  have hq' : ∀ s ∈ Ioo 0 h, HasDerivAt q (q' s) s := fun s hs => (hq s ⟨hs.1.le, hs.2.le⟩).hasDerivAt (Icc_mem_nhds hs.1 hs.2)
  have hsq : ∀ s : ℝ, HasDerivAt (fun s => s * s / 2) s s := by
    intro s
    have := ((hasDerivAt_id s).mul (hasDerivAt_id s)).div_const 2
    refine this.congr_deriv ?_
    simp
  obtain ⟨c, hc, e⟩ := exists_ratio_hasDerivAt_eq_ratio_slope (fun s => p s - s * q 0) (fun s => q s - q 0) hh
    (hpc.sub (by fun_prop)) (fun s hs => by
      have := (hp' s hs).sub ((hasDerivAt_id s).mul_const (q 0))
      rw [one_mul] at this
      exact this) (fun s => s * s / 2) (fun s => s) (fun s _ => (hsq s).continuousAt.continuousWithinAt) (fun s _ => hsq s)
  obtain ⟨c', hc', e'⟩ := exists_hasDerivAt_eq_slope q q' hc.1 (hqc.mono (Icc_subset_Icc le_rfl hc.2.le))
    fun s hs => hq' s ⟨hs.1, hs.2.trans hc.2⟩
  refine ⟨c', ⟨hc'.1, hc'.2.trans hc.2⟩, ?_⟩
  rw [sub_zero, eq_div_iff hc.1.ne'] at e'
  rw [← e'] at e
  have hcne : c ≠ 0 := hc.1.ne'
  have : (h * h / 2 - 0 * 0 / 2) * q' c' * c = (p h - h * q 0 - (p 0 - 0 * q 0)) * c := by linarith
  have := mul_right_cancel₀ hcne this
  linarith

/-- mean value formula for a component -/
theorem mean_value {ψ : (Fin n → ℝ) → (Fin n → ℝ)} (hψ : ContDiff ℝ 1 ψ) (v w : Fin n → ℝ) (i : Fin n) :
    ∃ c, (∀ j, min (v j) (w j) ≤ c j ∧ c j ≤ max (v j) (w j)) ∧ ψ w i - ψ v i = ∑ j, fderiv ℝ ψ c (Pi.single j 1) i * (w j - v j) := by
  have hl : ∀ s : ℝ, HasDerivAt (fun s : ℝ => v + s • (w - v)) (w - v) s := by
    intro s
    have := ((hasDerivAt_id s).smul_const (w - v)).const_add v
    simpa using this
  have hd : ∀ s : ℝ, HasDerivAt (fun s : ℝ => ψ (v + s • (w - v)) i) (fderiv ℝ ψ (v + s • (w - v)) (w - v) i) s := by
    intro s
    have h1 := ((hψ.differentiable (by norm_num)) (v + s • (w - v))).hasFDerivAt.comp_hasDerivAt s (hl s)
    exact hasDerivAt_pi.1 h1 i
  obtain ⟨s, hs, e⟩ := exists_hasDerivAt_eq_slope (fun s : ℝ => ψ (v + s • (w - v)) i) (fun s => fderiv ℝ ψ (v + s • (w - v)) (w - v) i)
    zero_lt_one (fun s _ => (hd s).continuousAt.continuousWithinAt) fun s _ => hd s
  refine ⟨v + s • (w - v), fun j => ?_, ?_⟩
  · simp only [Pi.add_apply, Pi.smul_apply, Pi.sub_apply, smul_eq_mul]
    rcases le_total (v j) (w j) with h | h
    · rw [min_eq_left h, max_eq_right h]
      constructor <;> nlinarith [hs.1, hs.2]
    · rw [min_eq_right h, max_eq_left h]
      constructor <;> nlinarith [hs.1, hs.2]
  · simp only [one_smul, zero_smul, add_zero, sub_zero, div_one, add_sub_cancel] at e
    rw [← e]
    have hsum : w - v = ∑ j, (w j - v j) • (Pi.single j (1 : ℝ) : Fin n → ℝ) := by
      funext k
      simp [Finset.sum_apply, Pi.single_apply]
    generalize fderiv ℝ ψ (v + s • (w - v)) = D
    conv_lhs => rw [hsum, map_sum, Finset.sum_apply]
    refine Finset.sum_congr rfl fun j _ => ?_
    rw [map_smul, Pi.smul_apply, smul_eq_mul, mul_comm]

/-- the derivative of `ψ` along a solution -/
theorem second_deriv {ψ : (Fin n → ℝ) → (Fin n → ℝ)} (hψ : ContDiff ℝ 1 ψ) {y : ℝ → Fin n → ℝ} {S : Set ℝ} {s : ℝ} {y' : Fin n → ℝ}
    (hy : HasDerivWithinAt y y' S s) (i : Fin n) :
    HasDerivWithinAt (fun τ => ψ (y τ) i) (∑ j, fderiv ℝ ψ (y s) (Pi.single j 1) i * y' j) S s := by
  have h1 := ((hψ.differentiable (by norm_num)) (y s)).hasFDerivAt.comp_hasDerivWithinAt s hy
  have h2 := hasDerivWithinAt_pi.1 h1 i
  refine h2.congr_deriv ?_
  have hsum : y' = ∑ j, y' j • (Pi.single j (1 : ℝ) : Fin n → ℝ) := by
    funext k
    simp [Finset.sum_apply, Pi.single_apply]
  conv_lhs => rw [hsum, map_sum, Finset.sum_apply]
  refine Finset.sum_congr rfl fun j _ => ?_
  rw [map_smul, Pi.smul_apply, smul_eq_mul, mul_comm]

end Codac.Loh
