import Verif.Paving.ZerosSum
import Mathlib.Analysis.Calculus.FDeriv.Prod
import Mathlib.Analysis.Calculus.FDeriv.Comp

/-!
# Around a zero where the Jacobian matrix is not singular
-/

namespace Codac.Deg

/-- the function is close to a linear one near `ζ` -/
def Approx (g₁ g₂ : ℝ × ℝ → ℝ) (ζ : ℝ × ℝ) (a b c e : ℝ) : Prop :=
  ∀ t > 0, ∃ r > 0, ∀ u v m, |u| ≤ m → |v| ≤ m → m ≤ r →
    |g₁ (ζ.1 + u, ζ.2 + v) - (a * u + b * v)| ≤ t * m ∧ |g₂ (ζ.1 + u, ζ.2 + v) - (c * u + e * v)| ≤ t * m

/-- the sign of a number, as 1 or -1 -/
noncomputable def sgnD (x : ℝ) : Int := if 0 < x then 1 else -1

theorem exists_locV {g₁ g₂ : ℝ × ℝ → ℝ} {ζ : ℝ × ℝ} {a b c e : ℝ} (h : Approx g₁ g₂ ζ a b c e) (hb : b ≠ 0) (hD : a * e - b * c ≠ 0)
    {ρ : ℝ} (hρ : 0 < ρ) :
    ∃ p q, 0 < p ∧ p < ρ ∧ 0 < q ∧ q < ρ ∧ LocV g₁ g₂ ⟨ζ.1 - p, ζ.1 + p, ζ.2 - q, ζ.2 + q⟩ (sgnD (a * e - b * c)) := by
  obtain ⟨κ, hκ0, hκ1, hκ2⟩ : ∃ κ, 0 < κ ∧ κ ≤ 1 ∧ |a| * κ ≤ |b| / 4 := by
    have hb' : 0 < |b| := abs_pos.2 hb
    have ha' : 0 < |a| + 1 := by positivity
    refine ⟨min 1 (|b| / (4 * (|a| + 1))), lt_min one_pos (by positivity), min_le_left _ _, ?_⟩
    calc |a| * min 1 (|b| / (4 * (|a| + 1))) ≤ (|a| + 1) * (|b| / (4 * (|a| + 1))) := by
          refine mul_le_mul (by linarith) (min_le_right _ _) (lt_min one_pos (by positivity)).le ha'.le
      _ = |b| / 4 := by field_simp
  set D := a * e - b * c with hDdef
  have hb' : 0 < |b| := abs_pos.2 hb
  have hD' : 0 < |D| := abs_pos.2 hD
  obtain ⟨t, ht0, ht1, ht2⟩ : ∃ t, 0 < t ∧ t ≤ |b| / 4 ∧ (|e| + |b|) * t < |D| * κ := by
    have hs : 0 < |e| + |b| := by positivity
    refine ⟨min (|b| / 4) (|D| * κ / (2 * (|e| + |b|))), lt_min (by positivity) (by positivity), min_le_left _ _, ?_⟩
    calc (|e| + |b|) * min (|b| / 4) (|D| * κ / (2 * (|e| + |b|))) ≤ (|e| + |b|) * (|D| * κ / (2 * (|e| + |b|))) :=
          mul_le_mul_of_nonneg_left (min_le_right _ _) hs.le
      _ = |D| * κ / 2 := by field_simp
      _ < |D| * κ := by have : 0 < |D| * κ := by positivity
                        linarith
  obtain ⟨r, hr, hap⟩ := h t ht0
  obtain ⟨q, hq0, hq1, hq2⟩ : ∃ q, 0 < q ∧ q ≤ r ∧ q < ρ := ⟨min r (ρ / 2), lt_min hr (by linarith), min_le_left _ _,
    (min_le_right _ _).trans_lt (by linarith)⟩
  have hp : κ * q ≤ q := by nlinarith
  have hp0 : 0 < κ * q := by positivity
  -- above and below
  have top : ∀ u v, |u| ≤ κ * q → |v| = q → 0 < (b * v) * g₁ (ζ.1 + u, ζ.2 + v) := by
    intro u v hu hv
    obtain ⟨k, _⟩ := hap u v q (hu.trans hp) hv.le hq1
    set G := g₁ (ζ.1 + u, ζ.2 + v)
    have e1 : (b * v) * G = (b * v) * (b * v) + (b * v) * (a * u) + (b * v) * (G - (a * u + b * v)) := by ring
    have e2 : (b * v) * (b * v) = (|b| * q) * (|b| * q) := by rw [← abs_mul_abs_self (b * v), abs_mul, hv]
    have e3 : -((|b| * q) * (|b| / 4 * q)) ≤ (b * v) * (a * u) := by
      have : |(b * v) * (a * u)| ≤ (|b| * q) * (|b| / 4 * q) := by
        rw [abs_mul, abs_mul, abs_mul, hv]
        refine mul_le_mul_of_nonneg_left ?_ (by positivity)
        calc |a| * |u| ≤ |a| * (κ * q) := mul_le_mul_of_nonneg_left hu (abs_nonneg _)
          _ = (|a| * κ) * q := by ring
          _ ≤ |b| / 4 * q := mul_le_mul_of_nonneg_right hκ2 hq0.le
      exact (abs_le.1 this).1
    have e4 : -((|b| * q) * (|b| / 4 * q)) ≤ (b * v) * (G - (a * u + b * v)) := by
      have : |(b * v) * (G - (a * u + b * v))| ≤ (|b| * q) * (|b| / 4 * q) := by
        rw [abs_mul, abs_mul, hv]
        refine mul_le_mul_of_nonneg_left ?_ (by positivity)
        exact k.trans (mul_le_mul_of_nonneg_right ht1 hq0.le)
      exact (abs_le.1 this).1
    have : 0 < (|b| * q) * (|b| * q) := by positivity
    rw [e1, e2]
    nlinarith
  -- left and right
  have side : ∀ u v, |u| = κ * q → |v| ≤ q → g₁ (ζ.1 + u, ζ.2 + v) = 0 → 0 < (-(D * u)) * (b * g₂ (ζ.1 + u, ζ.2 + v)) := by
    intro u v hu hv h0
    obtain ⟨k1, k2⟩ := hap u v q (hu.le.trans hp) hv hq1
    rw [h0, zero_sub, abs_neg] at k1
    set G := g₂ (ζ.1 + u, ζ.2 + v)
    have e1 : b * G = -(D * u) + (e * (a * u + b * v) + b * (G - (c * u + e * v))) := by rw [hDdef]; ring
    have e2 : |e * (a * u + b * v) + b * (G - (c * u + e * v))| < |D * u| := by
      calc |e * (a * u + b * v) + b * (G - (c * u + e * v))| ≤ |e * (a * u + b * v)| + |b * (G - (c * u + e * v))| := abs_add_le _ _
        _ ≤ |e| * (t * q) + |b| * (t * q) := by
            rw [abs_mul, abs_mul]
            exact add_le_add (mul_le_mul_of_nonneg_left k1 (abs_nonneg _)) (mul_le_mul_of_nonneg_left k2 (abs_nonneg _))
        _ = ((|e| + |b|) * t) * q := by ring
        _ < (|D| * κ) * q := mul_lt_mul_of_pos_right ht2 hq0
        _ = |D * u| := by rw [abs_mul, hu]; ring
    rw [e1]
    set w := e * (a * u + b * v) + b * (G - (c * u + e * v))
    have hDu : 0 < |D * u| := lt_of_le_of_lt (abs_nonneg _) e2
    have e3 : -(D * u) * (-(D * u) + w) = |D * u| * |D * u| - (D * u) * w := by rw [abs_mul_abs_self]; ring
    rw [e3]
    have e4 : (D * u) * w ≤ |D * u| * |w| := by rw [← abs_mul]; exact le_abs_self _
    have : |D * u| * |w| < |D * u| * |D * u| := mul_lt_mul_of_pos_left e2 hDu
    linarith
  have habs : ∀ {y : ℝ}, ζ.2 - q ≤ y → y ≤ ζ.2 + q → |y - ζ.2| ≤ q := fun h1 h2 => abs_le.2 ⟨by linarith, by linarith⟩
  have habs' : ∀ {x : ℝ}, ζ.1 - κ * q ≤ x → x ≤ ζ.1 + κ * q → |x - ζ.1| ≤ κ * q := fun h1 h2 => abs_le.2 ⟨by linarith, by linarith⟩
  have hL : ∀ y, ζ.2 - q ≤ y → y ≤ ζ.2 + q → g₁ (ζ.1 - κ * q, y) = 0 → 0 < D * (b * g₂ (ζ.1 - κ * q, y)) := by
    intro y h1 h2 h0
    have := side (-(κ * q)) (y - ζ.2) (by rw [abs_neg, abs_of_pos hp0]) (habs h1 h2) (by rw [← sub_eq_add_neg, add_sub_cancel]; exact h0)
    rw [← sub_eq_add_neg, add_sub_cancel] at this
    have e : -(D * -(κ * q)) * (b * g₂ (ζ.1 - κ * q, y)) = (κ * q) * (D * (b * g₂ (ζ.1 - κ * q, y))) := by ring
    rw [e] at this
    exact pos_of_mul_pos_right this hp0.le
  have hR : ∀ y, ζ.2 - q ≤ y → y ≤ ζ.2 + q → g₁ (ζ.1 + κ * q, y) = 0 → D * (b * g₂ (ζ.1 + κ * q, y)) < 0 := by
    intro y h1 h2 h0
    have := side (κ * q) (y - ζ.2) (by rw [abs_of_pos hp0]) (habs h1 h2) (by rw [add_sub_cancel]; exact h0)
    rw [add_sub_cancel] at this
    have e : -(D * (κ * q)) * (b * g₂ (ζ.1 + κ * q, y)) = (κ * q) * -(D * (b * g₂ (ζ.1 + κ * q, y))) := by ring
    rw [e] at this
    have := pos_of_mul_pos_right this hp0.le
    linarith
  have hT : ∀ x, ζ.1 - κ * q ≤ x → x ≤ ζ.1 + κ * q → 0 < b * g₁ (x, ζ.2 + q) ∧ b * g₁ (x, ζ.2 - q) < 0 := by
    intro x h1 h2
    have k1 := top (x - ζ.1) q (habs' h1 h2) (abs_of_pos hq0)
    have k2 := top (x - ζ.1) (-q) (habs' h1 h2) (by rw [abs_neg, abs_of_pos hq0])
    rw [add_sub_cancel] at k1 k2
    rw [← sub_eq_add_neg] at k2
    have e1 : b * q * g₁ (x, ζ.2 + q) = q * (b * g₁ (x, ζ.2 + q)) := by ring
    have e2 : b * -q * g₁ (x, ζ.2 - q) = q * -(b * g₁ (x, ζ.2 - q)) := by ring
    rw [e1] at k1
    rw [e2] at k2
    have := pos_of_mul_pos_right k1 hq0.le
    have := pos_of_mul_pos_right k2 hq0.le
    exact ⟨by assumption, by linarith⟩
  refine ⟨κ * q, q, hp0, hp.trans_lt hq2, hq0, hq2, ?_⟩
  have pos_of : ∀ {x y : ℝ}, 0 < x → 0 < x * y → 0 < y := fun h1 h2 => pos_of_mul_pos_right h2 h1.le
  have neg_of : ∀ {x y : ℝ}, 0 < x → x * y < 0 → y < 0 := fun {x y} h1 h2 => by
    by_contra h; exact absurd (mul_nonneg h1.le (not_lt.1 h)) (not_le.2 h2)
  have pos_of' : ∀ {x y : ℝ}, x < 0 → x * y < 0 → 0 < y := fun {x y} h1 h2 => by
    by_contra h; exact absurd (mul_nonneg_of_nonpos_of_nonpos h1.le (not_lt.1 h)) (not_le.2 h2)
  have neg_of' : ∀ {x y : ℝ}, x < 0 → 0 < x * y → y < 0 := fun {x y} h1 h2 => by
    by_contra h; exact absurd (mul_nonpos_of_nonpos_of_nonneg h1.le (not_lt.1 h)) (not_le.2 h2)
  rcases lt_or_gt_of_ne hD with hDn | hDp
  · have hs : sgnD D = -1 := if_neg (not_lt.2 hDn.le)
    rcases lt_or_gt_of_ne hb with hbn | hbp
    · exact ⟨1, 0, fun y h1 h2 e => gOf_pos (pos_of' hbn (neg_of' hDn (hL y h1 h2 e))), fun y h1 h2 e => gOf_neg (neg_of' hbn (pos_of' hDn (hR y h1 h2 e))),
        Or.inr ⟨fun x h1 h2 => ⟨neg_of' hbn (hT x h1 h2).1, pos_of' hbn (hT x h1 h2).2⟩, by rw [hs]; rfl⟩⟩
    · exact ⟨0, 1, fun y h1 h2 e => gOf_neg (neg_of hbp (neg_of' hDn (hL y h1 h2 e))), fun y h1 h2 e => gOf_pos (pos_of hbp (pos_of' hDn (hR y h1 h2 e))),
        Or.inl ⟨fun x h1 h2 => ⟨pos_of hbp (hT x h1 h2).1, neg_of hbp (hT x h1 h2).2⟩, by rw [hs]; rfl⟩⟩
  · have hs : sgnD D = 1 := if_pos hDp
    rcases lt_or_gt_of_ne hb with hbn | hbp
    · exact ⟨0, 1, fun y h1 h2 e => gOf_neg (neg_of' hbn (pos_of hDp (hL y h1 h2 e))), fun y h1 h2 e => gOf_pos (pos_of' hbn (neg_of hDp (hR y h1 h2 e))),
        Or.inr ⟨fun x h1 h2 => ⟨neg_of' hbn (hT x h1 h2).1, pos_of' hbn (hT x h1 h2).2⟩, by rw [hs]; rfl⟩⟩
    · exact ⟨1, 0, fun y h1 h2 e => gOf_pos (pos_of hbp (pos_of hDp (hL y h1 h2 e))), fun y h1 h2 e => gOf_neg (neg_of hbp (neg_of hDp (hR y h1 h2 e))),
        Or.inl ⟨fun x h1 h2 => ⟨pos_of hbp (hT x h1 h2).1, neg_of hbp (hT x h1 h2).2⟩, by rw [hs]; rfl⟩⟩

theorem sgnD_neg {x : ℝ} (h : x ≠ 0) : sgnD (-x) = -sgnD x := by
  unfold sgnD
  rcases lt_or_gt_of_ne h with h | h
  · rw [if_pos (by linarith), if_neg (not_lt.2 h.le)]; rfl
  · rw [if_neg (by linarith), if_pos h]

/-- a small rectangle around a zero with a regular Jacobian matrix -/
theorem exists_loc_of_approx {g₁ g₂ : ℝ × ℝ → ℝ} {ζ : ℝ × ℝ} {a b c e : ℝ} (h : Approx g₁ g₂ ζ a b c e) (hD : a * e - b * c ≠ 0)
    {ρ : ℝ} (hρ : 0 < ρ) :
    ∃ p q, 0 < p ∧ p < ρ ∧ 0 < q ∧ q < ρ ∧ Loc g₁ g₂ ⟨ζ.1 - p, ζ.1 + p, ζ.2 - q, ζ.2 + q⟩ (sgnD (a * e - b * c)) := by
  by_cases hb : b = 0
  · have ha : a ≠ 0 := by rintro rfl; exact hD (by rw [hb]; ring)
    have h' : Approx (fun z => g₁ (z.2, z.1)) (fun z => g₂ (z.2, z.1)) (ζ.2, ζ.1) b a e c := by
      intro t ht
      obtain ⟨r, hr, k⟩ := h t ht
      refine ⟨r, hr, fun u v m hu hv hm => ?_⟩
      have := k v u m hv hu hm
      rw [add_comm (a * v), add_comm (c * v)] at this
      exact this
    have hD' : b * c - a * e ≠ 0 := fun hc => hD (by linarith)
    obtain ⟨p, q, hp0, hp, hq0, hq, sl, sr, k1, k2, k3⟩ := exists_locV h' ha hD' hρ
    refine ⟨q, p, hq0, hq, hp0, hp, Or.inr ⟨sl, sr, k1, k2, ?_⟩⟩
    have hs : sgnD (b * c - a * e) = -sgnD (a * e - b * c) := by rw [← sgnD_neg hD]; congr 1; ring
    rw [hs] at k3
    rcases k3 with ⟨k, e1⟩ | ⟨k, e1⟩
    · exact Or.inl ⟨k, by linarith⟩
    · exact Or.inr ⟨k, by linarith⟩
  · obtain ⟨p, q, hp0, hp, hq0, hq, k⟩ := exists_locV h hb hD hρ
    exact ⟨p, q, hp0, hp, hq0, hq, Or.inl k⟩

/-- the determinant of the Jacobian matrix -/
noncomputable def jdet (J : ℝ × ℝ →L[ℝ] ℝ × ℝ) : ℝ := (J (1, 0)).1 * (J (0, 1)).2 - (J (0, 1)).1 * (J (1, 0)).2

theorem approx_of_deriv {f : ℝ × ℝ → ℝ × ℝ} {J : ℝ × ℝ →L[ℝ] ℝ × ℝ} {ζ : ℝ × ℝ} (h : HasFDerivAt f J ζ) (h0 : f ζ = (0, 0)) :
    Approx (fun z => (f z).1) (fun z => (f z).2) ζ (J (1, 0)).1 (J (0, 1)).1 (J (1, 0)).2 (J (0, 1)).2 := by
  intro t ht
  have := h.isLittleO.def ht
  obtain ⟨r, hr, k⟩ := Metric.eventually_nhds_iff.1 this
  refine ⟨r / 2, by linarith, fun u v m hu hv hm => ?_⟩
  have hn : ‖((ζ.1 + u, ζ.2 + v) : ℝ × ℝ) - ζ‖ ≤ m := by
    rw [Prod.norm_def]
    simp only [Prod.fst_sub, Prod.snd_sub, add_sub_cancel_left, Real.norm_eq_abs]
    exact max_le hu hv
  have hk := k (y := (ζ.1 + u, ζ.2 + v)) (by rw [dist_eq_norm]; linarith)
  have hJ : J (((ζ.1 + u, ζ.2 + v) : ℝ × ℝ) - ζ) = u • J (1, 0) + v • J (0, 1) := by
    rw [← map_smul, ← map_smul, ← map_add]
    congr 1
    ext <;> simp
  rw [h0, hJ, Prod.norm_def] at hk
  have hb : t * ‖((ζ.1 + u, ζ.2 + v) : ℝ × ℝ) - ζ‖ ≤ t * m := mul_le_mul_of_nonneg_left hn ht.le
  simp only [Prod.fst_sub, Prod.snd_sub, Prod.fst_add, Prod.snd_add, Prod.smul_fst, Prod.smul_snd, smul_eq_mul, sub_zero, Real.norm_eq_abs] at hk
  have h1 := ((le_max_left _ _).trans hk).trans hb
  have h2 := ((le_max_right _ _).trans hk).trans hb
  rw [mul_comm u, mul_comm v] at h1 h2
  exact ⟨h1, h2⟩

/-- zeros with a regular Jacobian matrix are isolated -/
theorem isolated {g₁ g₂ : ℝ × ℝ → ℝ} {ζ : ℝ × ℝ} {a b c e : ℝ} (h : Approx g₁ g₂ ζ a b c e) (hD : a * e - b * c ≠ 0) :
    ∃ r > 0, ∀ z, dist z ζ < r → g₁ z = 0 → g₂ z = 0 → z = ζ := by
  set D := a * e - b * c with hDdef
  have hD' : 0 < |D| := abs_pos.2 hD
  have hs : 0 < |a| + |b| + |c| + |e| + 1 := by positivity
  obtain ⟨r, hr, k⟩ := h (|D| / (2 * (|a| + |b| + |c| + |e| + 1))) (by positivity)
  set t := |D| / (2 * (|a| + |b| + |c| + |e| + 1)) with ht
  have hts : t * (|a| + |b| + |c| + |e| + 1) = |D| / 2 := by rw [ht]; field_simp
  have ht0 : 0 < t := by positivity
  refine ⟨r, hr, fun z hz e1 e2 => ?_⟩
  have hz' : dist z ζ = max |z.1 - ζ.1| |z.2 - ζ.2| := by rw [Prod.dist_eq, Real.dist_eq, Real.dist_eq]
  set m := max |z.1 - ζ.1| |z.2 - ζ.2| with hm
  obtain ⟨k1, k2⟩ := k (z.1 - ζ.1) (z.2 - ζ.2) m (le_max_left _ _) (le_max_right _ _) (by rw [hz'] at hz; exact hz.le)
  rw [add_sub_cancel, add_sub_cancel, show ((z.1, z.2) : ℝ × ℝ) = z from rfl] at k1 k2
  rw [e1, zero_sub, abs_neg] at k1
  rw [e2, zero_sub, abs_neg] at k2
  set u := z.1 - ζ.1
  set v := z.2 - ζ.2
  set A := a * u + b * v
  set B := c * u + e * v
  have hm0 : 0 ≤ m := (abs_nonneg _).trans (le_max_left _ _)
  have eu : D * u = e * A - b * B := by rw [hDdef]; ring
  have ev : D * v = a * B - c * A := by rw [hDdef]; ring
  have bu : |D| * |u| ≤ (|e| + |b|) * (t * m) := by
    rw [← abs_mul, eu]
    calc |e * A - b * B| ≤ |e * A| + |b * B| := abs_sub _ _
      _ = |e| * |A| + |b| * |B| := by rw [abs_mul, abs_mul]
      _ ≤ |e| * (t * m) + |b| * (t * m) := add_le_add (mul_le_mul_of_nonneg_left k1 (abs_nonneg _)) (mul_le_mul_of_nonneg_left k2 (abs_nonneg _))
      _ = _ := by ring
  have bv : |D| * |v| ≤ (|a| + |c|) * (t * m) := by
    rw [← abs_mul, ev]
    calc |a * B - c * A| ≤ |a * B| + |c * A| := abs_sub _ _
      _ = |a| * |B| + |c| * |A| := by rw [abs_mul, abs_mul]
      _ ≤ |a| * (t * m) + |c| * (t * m) := add_le_add (mul_le_mul_of_nonneg_left k2 (abs_nonneg _)) (mul_le_mul_of_nonneg_left k1 (abs_nonneg _))
      _ = _ := by ring
  have htm : 0 ≤ t * m := mul_nonneg ht0.le hm0
  have hall : (|a| + |b| + |c| + |e| + 1) * (t * m) = |D| / 2 * m := by rw [← hts]; ring
  have hmD : |D| * m ≤ |D| / 2 * m := by
    rw [← hall]
    rcases max_choice |u| |v| with h1 | h1
    · rw [show m = |u| from h1]; rw [show m = |u| from h1] at bu htm
      refine bu.trans (mul_le_mul_of_nonneg_right ?_ htm)
      have := abs_nonneg a; have := abs_nonneg c; linarith
    · rw [show m = |v| from h1]; rw [show m = |v| from h1] at bv htm
      refine bv.trans (mul_le_mul_of_nonneg_right ?_ htm)
      have := abs_nonneg b; have := abs_nonneg e; linarith
  have hm1 : m = 0 := by nlinarith
  have hu : |u| ≤ 0 := hm1 ▸ le_max_left _ _
  have hv : |v| ≤ 0 := hm1 ▸ le_max_right _ _
  have hu' := abs_nonpos_iff.1 hu
  have hv' := abs_nonpos_iff.1 hv
  exact Prod.ext (sub_eq_zero.1 hu') (sub_eq_zero.1 hv')

end Codac.Deg
