import Verif.Tube.IntegralExact
import Verif.Tube.Examples
import Mathlib.Analysis.Calculus.Deriv.MeanValue
import Mathlib.MeasureTheory.Integral.IntervalIntegral.Basic

/-!
# Property C13: integrals of tubes

`T.SlopeIn F`: on each slice, the mean slope of `F` between two instants is in the envelope. The primitives of the
signals of the tube satisfy it (`C13_integral_slope`, `C13_primitive_slope`, over the reals).
-/

namespace Codac.Props
open Codac

section
variable {K : Type*} [Field K] [LinearOrder K] [IsStrictOrderedRing K]

/-- **C13**: every primitive `F` null at `t0` of a signal of the tube is, at each instant of `[a,b]`, between the
lower bound of `partial_integral([a,b]).first` and the upper bound of `.second`; in `integral([a,b])`. -/
theorem C13_partial_integral {A : IArith K} {T : Tube K} (h : T.WF) {F : K → K} (hF : T.SlopeIn F)
    (h0 : F T.t0 = 0) {a b : K} (ha : T.t0 ≤ a) (hab : a ≤ b) (hb : b ≤ T.tf) {t : K} (h1 : a ≤ t) (h2 : t ≤ b) :
    (∀ l, (T.partialIntegral A a b).1.lb? = some l → l ≤ F t) ∧
    (∀ u, (T.partialIntegral A a b).2.ub? = some u → F t ≤ u) ∧
    (T.partialIntegral A a b).1 ≠ ⊥ ∧ (T.partialIntegral A a b).2 ≠ ⊥ ∧
    F t ∈ T.integral A a b := by
  obtain ⟨⟨v, hv, e⟩, ⟨w, hw, e'⟩⟩ := partialIntegral_encloses (A := A) h hF h0 ha hab hb h1 h2
  refine ⟨?_, ?_, Itv.ne_bot_of_mem hv, Itv.ne_bot_of_mem hw, integral_mem h hF h0 ha hab hb h1 h2⟩
  · intro l hl
    revert hl hv
    cases (T.partialIntegral A a b).1 with
    | empty => intro hv; exact absurd hv (Itv.not_mem_empty v)
    | mk lo hi p =>
      intro hv hl
      have : lo = some l := hl
      subst this
      exact le_trans hv.1 e
  · intro u hu
    revert hu hw
    cases (T.partialIntegral A a b).2 with
    | empty => intro hw; exact absurd hw (Itv.not_mem_empty w)
    | mk lo hi p =>
      intro hw hu
      have : hi = some u := hu
      subst this
      exact le_trans e' hw.2

/-- **C13**, tightness: with exact interval arithmetic and bounded envelopes, `partial_integral([a,b])` is the pair
of the smallest intervals containing the smallest, resp. the largest, primitive over `[a,b]`. -/
theorem C13_partial_integral_exact {T : Tube K} (h : T.WF) {a b : K} (ha : T.t0 ≤ a) (hab : a ≤ b) (hb : b ≤ T.tf)
    (hne : ∀ s ∈ T.slices, s.cod ≠ ⊥) (hbd : ∀ s ∈ T.slices, s.lb < b → s.cod.isUnbounded = false) (X : Itv K) :
    ((T.partialIntegral (IArith.exact K) a b).1 ≤ X ↔ ∀ t, a ≤ t → t ≤ b → lowerPrimitive T.slices t ∈ X) ∧
    ((T.partialIntegral (IArith.exact K) a b).2 ≤ X ↔ ∀ t, a ≤ t → t ≤ b → upperPrimitive T.slices t ∈ X) := by
  constructor
  · refine ⟨fun hX t h1 h2 => Itv.mem_of_le hX (partialIntegral_prim h hne ha hab hb h1 h2).1, fun hX => ?_⟩
    exact (partialIntegral_exact h ha hab hb hbd hX (Y := ⊤) (fun _ _ _ => Itv.mem_top _)).1
  · refine ⟨fun hX t h1 h2 => Itv.mem_of_le hX (partialIntegral_prim h hne ha hab hb h1 h2).2, fun hX => ?_⟩
    exact (partialIntegral_exact h ha hab hb hbd (X := ⊤) (fun _ _ _ => Itv.mem_top _) hX).2

/-- the extreme primitives are themselves primitives of the tube (bounded envelopes): the bounds above are reached -/
theorem C13_extreme_primitives {T : Tube K} (h : T.WF) (hne : ∀ s ∈ T.slices, s.cod ≠ ⊥)
    (hbd : ∀ s ∈ T.slices, s.cod.isUnbounded = false) :
    T.SlopeIn (lowerPrimitive T.slices) ∧ T.SlopeIn (upperPrimitive T.slices) ∧
    lowerPrimitive T.slices T.t0 = 0 ∧ upperPrimitive T.slices T.t0 = 0 := by
  refine ⟨?_, ?_, prim_start (σ := fun s => s.cod.lb?.getD 0) h.tiles,
    prim_start (σ := fun s => s.cod.ub?.getD 0) h.tiles⟩
  · intro s hs m t h1 h2 h3
    obtain ⟨l, u, p, hp⟩ := Itv.bounds_of_bounded (Itv.isEmpty_false_iff.mpr (hne s hs)) (hbd s hs)
    refine ⟨l, by rw [hp]; exact ⟨le_rfl, p⟩, ?_⟩
    have := prim_lower_step h s hs l (by rw [hp]; rfl) m t h1 h2.le h3
    linear_combination -this
  · intro s hs m t h1 h2 h3
    obtain ⟨l, u, p, hp⟩ := Itv.bounds_of_bounded (Itv.isEmpty_false_iff.mpr (hne s hs)) (hbd s hs)
    refine ⟨u, by rw [hp]; exact ⟨p, le_rfl⟩, ?_⟩
    have := prim_upper_step h s hs u (by rw [hp]; rfl) m t h1 h2.le h3
    linear_combination -this

/-- **C13**, part: `integral([t1],[t2])` encloses `F(t2) - F(t1)` for all `t1 ≤ t2` of the two intervals, which may overlap. The full
statement (any two instants of two intervals) is false, see `C13_integral2_fails`. -/
theorem C13_integral2_partial {A : IArith K} {T : Tube K} (h : T.WF) {F : K → K} (hF : T.SlopeIn F)
    {a1 b1 a2 b2 : K} (ha1 : T.t0 ≤ a1) (hab1 : a1 ≤ b1) (hb1 : b1 ≤ T.tf) (ha2 : T.t0 ≤ a2) (hab2 : a2 ≤ b2) (hb2 : b2 ≤ T.tf)
    {t1 t2 : K} (h1 : a1 ≤ t1) (h2 : t1 ≤ b1) (h3 : a2 ≤ t2) (h4 : t2 ≤ b2) (ht : t1 ≤ t2) :
    F t2 - F t1 ∈ T.integral2 A a1 b1 a2 b2 :=
  integral2_mem h hF ha1 hab1 hb1 ha2 hab2 hb2 h1 h2 h3 h4 ht

end

/-- one slice `[0,2]` of envelope `[0,1]` -/
def W : Tube ℚ := ⟨0, 2, Ex.I 0 1, [⟨0, 2, Ex.I 0 1, Ex.I 0 1⟩]⟩

theorem W_wf : W.WF := ⟨by simp [W], by simp [W, Tiles]⟩

theorem W_slope : W.SlopeIn (fun t => t) := by
  intro s hs m t h1 h2 h3
  have : s = ⟨0, 2, Ex.I 0 1, Ex.I 0 1, Ex.I 0 1⟩ := by simpa [W, Tube.slices, slicesFrom] using hs
  subst this
  exact ⟨1, by decide +kernel, by ring⟩

/-- **C13** fails for overlapping intervals: with `f = 1` in the tube `[0,1]` over `[0,2]`, `[t1] = [0,2]`,
`[t2] = [1,1]`: `F(1) - F(2) = -1` is not in `integral([0,2],[1,1])`, which is `[-0,1]`. -/
theorem C13_integral2_fails : ∃ (T : Tube ℚ) (F : ℚ → ℚ) (a1 b1 a2 b2 t1 t2 : ℚ), T.WF ∧ T.SlopeIn F ∧
    T.t0 ≤ a1 ∧ a1 ≤ b1 ∧ b1 ≤ T.tf ∧ T.t0 ≤ a2 ∧ a2 ≤ b2 ∧ b2 ≤ T.tf ∧ a1 ≤ t1 ∧ t1 ≤ b1 ∧ a2 ≤ t2 ∧ t2 ≤ b2 ∧
    F t2 - F t1 ∉ T.integral2 (IArith.exact ℚ) a1 b1 a2 b2 := by
  refine ⟨W, fun t => t, 0, 2, 1, 1, 2, 1, W_wf, W_slope, ?_⟩
  refine ⟨by decide, by decide, by decide +kernel, by decide, by decide, by decide +kernel, by decide, by decide, by decide, by decide, ?_⟩
  decide +kernel

/-! ### Examples: the hypotheses are met, with non trivial values -/

example : W.integral2 (IArith.exact ℚ) 0 1 1 2 = Ex.I 0 2 := by decide +kernel
example : (Ex.T.partialIntegral (IArith.exact ℚ) (1/2) 3) = (Ex.I 0 3, Ex.I 1 10) := by decide +kernel
example : (2 : ℚ) - (1/2 : ℚ) ∈ W.integral2 (IArith.exact ℚ) 0 (3/2) 1 2 :=
  C13_integral2_partial W_wf W_slope (by decide +kernel) (by norm_num) (by decide +kernel) (by decide +kernel) (by norm_num)
    (by decide +kernel) (by norm_num) (by norm_num) (by norm_num) (by norm_num) (by norm_num)

/-! ### Over the reals: primitives of the signals of the tube -/

theorem mem_of_slopes {X : Itv ℝ} (hne : X ≠ ⊥) {d D : ℝ} (hd : 0 < d) (hl : ∀ l, X.lb? = some l → l * d ≤ D)
    (hu : ∀ u, X.ub? = some u → D ≤ u * d) : ∃ y ∈ X, D = y * d := by
  refine ⟨D / d, ?_, (div_mul_cancel₀ D hd.ne').symm⟩
  revert hne hl hu
  cases X with
  | empty => intro h; exact absurd rfl h
  | mk lo hi p =>
    intro _ hl hu
    constructor
    · cases lo with
      | none => trivial
      | some l => exact (le_div_iff₀ hd).mpr (hl l rfl)
    · cases hi with
      | none => trivial
      | some u => exact (div_le_iff₀ hd).mpr (hu u rfl)

theorem lb_le_of_mem {X : Itv ℝ} {x l : ℝ} (h : x ∈ X) (e : X.lb? = some l) : l ≤ x := by
  revert h e
  cases X with
  | empty => intro h; exact absurd h (Itv.not_mem_empty x)
  | mk lo hi p =>
    intro h e
    have : lo = some l := e
    subst this; exact h.1

theorem le_ub_of_mem {X : Itv ℝ} {x u : ℝ} (h : x ∈ X) (e : X.ub? = some u) : x ≤ u := by
  revert h e
  cases X with
  | empty => intro h; exact absurd h (Itv.not_mem_empty x)
  | mk lo hi p =>
    intro h e
    have : hi = some u := e
    subst this; exact h.2

/-- the integral of every integrable signal of the tube satisfies the slope condition -/
theorem C13_integral_slope {T : Tube ℝ} (h : T.WF) (hgc : T.GatesInEnvelopes) {f : ℝ → ℝ} (hf : T.Encloses f)
    (hi : IntervalIntegrable f MeasureTheory.volume T.t0 T.tf) : T.SlopeIn (fun t => ∫ x in T.t0..t, f x) := by
  intro s hs m t h1 h2 h3
  have hb := h.tiles.mem_bounds hs
  have hsub : ∀ p q, T.t0 ≤ p → p ≤ q → q ≤ T.tf → IntervalIntegrable f MeasureTheory.volume p q := by
    intro p q hp hq hr
    refine hi.mono_set ?_
    rw [Set.uIcc_of_le hq, Set.uIcc_of_le (hp.trans (hq.trans hr))]
    exact Set.Icc_subset_Icc hp hr
  have hm0 : T.t0 ≤ m := hb.1.trans h1
  have htf : t ≤ T.tf := h3.trans hb.2.2
  have hdiff : (∫ x in T.t0..t, f x) - (∫ x in T.t0..m, f x) = ∫ x in m..t, f x :=
    intervalIntegral.integral_interval_sub_left (hsub _ _ le_rfl (hm0.trans h2.le) htf)
      (hsub _ _ le_rfl hm0 (h2.le.trans htf))
  have hmem : ∀ x, m ≤ x → x ≤ t → f x ∈ s.cod := fun x e1 e2 =>
    (hf s hs).mem_cod (hgc s hs) (h1.trans e1) (e2.trans h3)
  have hmt : IntervalIntegrable f MeasureTheory.volume m t := hsub m t hm0 h2.le htf
  simp only [hdiff]
  refine mem_of_slopes (Itv.ne_bot_of_mem (hmem m le_rfl h2.le)) (sub_pos.mpr h2) ?_ ?_
  · intro l hl
    have := intervalIntegral.integral_mono_on h2.le (intervalIntegrable_const (c := l)) hmt
      (fun x hx => lb_le_of_mem (hmem x hx.1 hx.2) hl)
    rw [intervalIntegral.integral_const, smul_eq_mul, mul_comm] at this
    exact this
  · intro u hu
    have := intervalIntegral.integral_mono_on h2.le hmt (intervalIntegrable_const (c := u))
      (fun x hx => le_ub_of_mem (hmem x hx.1 hx.2) hu)
    rw [intervalIntegral.integral_const, smul_eq_mul, mul_comm] at this
    exact this

/-- every continuous function differentiable inside the slices, with derivative in the tube, satisfies the slope
condition (mean value theorem) -/
theorem C13_primitive_slope {T : Tube ℝ} (h : T.WF) {f F : ℝ → ℝ} (hf : T.Encloses f)
    (hc : ContinuousOn F (Set.Icc T.t0 T.tf))
    (hd : ∀ s ∈ T.slices, ∀ t, s.lb < t → t < s.ub → HasDerivAt F (f t) t) : T.SlopeIn F := by
  intro s hs m t h1 h2 h3
  have hb := h.tiles.mem_bounds hs
  obtain ⟨c, ⟨hc1, hc2⟩, e⟩ := exists_hasDerivAt_eq_slope F f h2
    (hc.mono (Set.Icc_subset_Icc (hb.1.trans h1) (h3.trans hb.2.2)))
    (fun x hx => hd s hs x (lt_of_le_of_lt h1 hx.1) (lt_of_lt_of_le hx.2 h3))
  refine ⟨f c, (hf s hs).2.2 c (lt_of_le_of_lt h1 hc1) (lt_of_lt_of_le hc2 h3), ?_⟩
  rw [e, div_mul_cancel₀]
  exact (sub_pos.mpr h2).ne'

/-- **C13** over the reals: for every integrable signal of the tube and every `t` in `[a,b]`, the integral from `t0`
to `t` is in `integral([a,b])`. -/
theorem C13_integral_real {A : IArith ℝ} {T : Tube ℝ} (h : T.WF) (hgc : T.GatesInEnvelopes) {f : ℝ → ℝ}
    (hf : T.Encloses f) (hi : IntervalIntegrable f MeasureTheory.volume T.t0 T.tf)
    {a b : ℝ} (ha : T.t0 ≤ a) (hab : a ≤ b) (hb : b ≤ T.tf) {t : ℝ} (h1 : a ≤ t) (h2 : t ≤ b) :
    (∫ x in T.t0..t, f x) ∈ T.integral A a b :=
  integral_mem h (C13_integral_slope h hgc hf hi) (by simp) ha hab hb h1 h2

end Codac.Props
