import Verif.Ctc.SepPolar
import Verif.Ctc.HullOps

/-!
# Property C100: the separator of a polar sector

`SepPolarXY(rho, theta)` separates the points with polar coordinates in `[rho]×[theta]` from the other ones: `x_out` keeps the former, `x_in` the
latter.
-/

namespace Codac.Props
open Codac Real

/-- the points whose polar coordinates are in `[rho]×[theta]` -/
def InSector (s : PolarSep) (x y : ℝ) : Prop := ∃ ρ t : ℝ, ρ ∈ s.rho ∧ s.thLb ≤ t ∧ t ≤ s.thUb ∧ x = ρ * cos t ∧ y = ρ * sin t

/-- the points of a box with two components -/
def InRect (b : Itv ℝ × Itv ℝ) (x y : ℝ) : Prop := x ∈ b.1 ∧ y ∈ b.2

/-- **C100**, inclusion: `separate` returns, with boxes that are included in the given ones. -/
theorem C100_subset (O : PolarOps) (fuel : Nat) (hf : 2 ≤ fuel) (s : PolarSep) (xin xout : Itv ℝ × Itv ℝ) :
    ∃ i o, s.separate O fuel xin xout = some (i, o) ∧ i.1 ≤ xin.1 ∧ i.2 ≤ xin.2 ∧ o.1 ≤ xout.1 ∧ o.2 ≤ xout.2 := by
  obtain ⟨n, rfl⟩ := Nat.exists_eq_add_of_le' hf
  unfold PolarSep.separate
  generalize ho : PolarSep.whole (xout.1 ⊓ xin.1, xout.2 ⊓ xin.2) = o
  have lo : o.1 ≤ xout.1 ∧ o.2 ≤ xout.2 := by
    have := PolarSep.whole_le (xout.1 ⊓ xin.1, xout.2 ⊓ xin.2)
    rw [ho] at this
    exact ⟨this.1.trans inf_le_left, this.2.trans inf_le_left⟩
  dsimp only
  generalize hi : PolarSep.whole (xin.1 ⊓ o.1, xin.2 ⊓ o.2) = i
  have li : i.1 ≤ xin.1 ∧ i.2 ≤ xin.2 := by
    have := PolarSep.whole_le (xin.1 ⊓ o.1, xin.2 ⊓ o.2)
    rw [hi] at this
    exact ⟨this.1.trans inf_le_left, this.2.trans inf_le_left⟩
  split
  · exact ⟨i, o, rfl, li.1, li.2, lo⟩
  · obtain ⟨r, e, h1, h2⟩ := s.contractOut_le O n o
    obtain ⟨r', e', h1', h2'⟩ := s.contractIn_le O n i
    exact ⟨r', r, by rw [e, e']; rfl, h1'.trans li.1, h2'.trans li.2, h1.trans lo.1, h2.trans lo.2⟩

theorem separate_cases {O : PolarOps} {n : Nat} {s : PolarSep} {xin xout i o : Itv ℝ × Itv ℝ} (h : s.separate O n xin xout = some (i, o)) {x y : ℝ}
    (h1 : InRect xin x y) (h2 : InRect xout x y) :
    ∃ i0 o0, InRect i0 x y ∧ InRect o0 x y ∧ s.contractOut O n o0 = some o ∧ s.contractIn O n i0 = some i := by
  unfold PolarSep.separate at h
  have ho : InRect (PolarSep.whole (xout.1 ⊓ xin.1, xout.2 ⊓ xin.2)) x y :=
    PolarSep.mem_whole (Itv.mem_inf.mpr ⟨h2.1, h1.1⟩) (Itv.mem_inf.mpr ⟨h2.2, h1.2⟩)
  generalize PolarSep.whole (xout.1 ⊓ xin.1, xout.2 ⊓ xin.2) = o0 at h ho
  dsimp only at h
  have hi : InRect (PolarSep.whole (xin.1 ⊓ o0.1, xin.2 ⊓ o0.2)) x y :=
    PolarSep.mem_whole (Itv.mem_inf.mpr ⟨h1.1, ho.1⟩) (Itv.mem_inf.mpr ⟨h1.2, ho.2⟩)
  generalize PolarSep.whole (xin.1 ⊓ o0.1, xin.2 ⊓ o0.2) = i0 at h hi
  rw [if_neg (by rw [Itv.isEmpty_iff]; exact Itv.ne_bot_of_mem hi.1), Option.bind_eq_some_iff] at h
  obtain ⟨o', e, h⟩ := h
  obtain ⟨i', e', h⟩ := Option.map_eq_some_iff.mp h
  obtain ⟨rfl, rfl⟩ := Prod.mk.injEq .. ▸ h
  exact ⟨i0, o0, hi, ho, e, e'⟩

/-- **C100**, outer part: a point of the sector (with a positive distance and `y ≠ 0`, or `0/0` taken as anything by the division) that is in the
boxes is in the new `x_out`. Missing: the origin, which is always lost (`C100_origin_fails`), and `y = 0` with the division of IBEX, as for
`CtcPolar`. -/
theorem C100_out_partial (O : PolarOps) (fuel : Nat) (hf : 2 ≤ fuel) (s : PolarSep) {xin xout i o : Itv ℝ × Itv ℝ}
    (h : s.separate O fuel xin xout = some (i, o)) {x y : ℝ} (h1 : InRect xin x y) (h2 : InRect xout x y) {ρ t : ℝ} (hpos : 0 < ρ) (hρ : ρ ∈ s.rho)
    (ht : s.thLb ≤ t ∧ t ≤ s.thUb) (ex : x = ρ * cos t) (ey : y = ρ * sin t) (hs : y ≠ 0 ∨ O.Relational) : InRect o x y := by
  obtain ⟨n, rfl⟩ := Nat.exists_eq_add_of_le' hf
  obtain ⟨i0, o0, _, ho, e, _⟩ := separate_cases h h1 h2
  subst ex ey
  exact s.contractOut_keeps O n e hpos ho.1 ho.2 hρ (Itv.mem_icc.mpr ht) (hs.imp_left fun c c' => c (by rw [c', mul_zero]))

/-- **C100**, inner part: a point out of the sector that is in the boxes is in the new `x_in`. It is given by its distance, positive, and by the angle
that is the closest to the middle of `[theta]`; the angles between `M_PI` and `π`, which the code does not reach, are left out. Missing as above: the
origin, and `y = 0` with the division of IBEX. -/
theorem C100_in_partial (O : PolarOps) (fuel : Nat) (hf : 2 ≤ fuel) (s : PolarSep) {xin xout i o : Itv ℝ × Itv ℝ}
    (h : s.separate O fuel xin xout = some (i, o)) {x y : ℝ} (h1 : InRect xin x y) (h2 : InRect xout x y) (hout : ¬ InSector s x y) (hne : s.rho ≠ ⊥)
    {ρ t : ℝ} (hpos : 0 < ρ) (ht : |t - s.mid s.thLb s.thUb| ≤ s.mPi) (ex : x = ρ * cos t) (ey : y = ρ * sin t) (hs : y ≠ 0 ∨ O.Relational) :
    InRect i x y := by
  obtain ⟨n, rfl⟩ := Nat.exists_eq_add_of_le' hf
  obtain ⟨i0, o0, hi, _, _, e⟩ := separate_cases h h1 h2
  obtain ⟨t1, t2⟩ := abs_le.mp ht
  have hs' : sin t ≠ 0 ∨ O.Relational := hs.imp_left fun c c' => c (by rw [ey, c', mul_zero])
  have hcase : (t ∈ s.thetaM ∨ t ∈ s.thetaP) ∨ ((ρ ∈ s.rhoM ∨ ρ ∈ s.rhoP) ∧ t ∈ s.theta) := by
    rcases le_or_gt t s.thLb with c1 | c1
    · exact .inl (.inl (Itv.mem_icc.mpr ⟨by unfold PolarSep.limit; linarith, c1⟩))
    rcases le_or_gt s.thUb t with c2 | c2
    · exact .inl (.inr (Itv.mem_icc.mpr ⟨c2, by unfold PolarSep.limit; linarith⟩))
    refine .inr ⟨?_, Itv.mem_icc.mpr ⟨c1.le, c2.le⟩⟩
    have hρ : ρ ∉ s.rho := fun c => hout ⟨ρ, t, c, c1.le, c2.le, ex, ey⟩
    unfold PolarSep.rhoM PolarSep.rhoP
    cases hr : s.rho with
    | empty => exact absurd hr hne
    | mk l u p =>
      rw [hr] at hρ
      have : ¬ loLe l ρ ∨ ¬ leHi ρ u := not_and_or.mp hρ
      rcases this with c | c
      · cases l with
        | none => exact absurd trivial c
        | some l => exact .inl (Itv.mem_icc.mpr ⟨hpos.le, (not_le.mp c).le⟩)
      · cases u with
        | none => exact absurd trivial c
        | some u => exact .inr ⟨(not_le.mp c).le, trivial⟩
  subst ex ey
  exact s.contractIn_keeps O n e hpos hi.1 hi.2 hcase hs'

/-- Every point but the origin has such a distance and such an angle, up to the difference between `M_PI` and `π`. -/
theorem C100_angle (m : ℝ) {x y : ℝ} (h : x ≠ 0 ∨ y ≠ 0) : ∃ ρ t : ℝ, 0 < ρ ∧ |t - m| ≤ π ∧ x = ρ * cos t ∧ y = ρ * sin t := by
  have hz : (⟨x, y⟩ : ℂ) ≠ 0 := by
    intro c
    have := Complex.ext_iff.mp c
    simp only [Complex.zero_re, Complex.zero_im] at this
    rcases h with h | h
    · exact h this.1
    · exact h this.2
  have hn : 0 < ‖(⟨x, y⟩ : ℂ)‖ := norm_pos_iff.mpr hz
  have e1 : x = ‖(⟨x, y⟩ : ℂ)‖ * cos (Complex.arg ⟨x, y⟩) := by rw [Complex.cos_arg hz]; field_simp
  have e2 : y = ‖(⟨x, y⟩ : ℂ)‖ * sin (Complex.arg ⟨x, y⟩) := by rw [Complex.sin_arg]; field_simp
  generalize Complex.arg ⟨x, y⟩ = a at e1 e2
  have hp := Real.two_pi_pos
  refine ⟨_, a + (round ((m - a) / (2 * π)) : ℤ) * (2 * π), hn, ?_, ?_, ?_⟩
  · have := abs_sub_round ((m - a) / (2 * π))
    rw [abs_le] at this ⊢
    obtain ⟨k1, k2⟩ := this
    have e : (m - a) / (2 * π) * (2 * π) = m - a := by field_simp
    constructor <;> nlinarith
  · rw [Real.cos_add_int_mul_two_pi]; exact e1
  · rw [Real.sin_add_int_mul_two_pi]; exact e2

/-- **C100**, defect: on the box reduced to the origin, `x_in` and `x_out` are both empty, whatever the sector and the interval operations: the origin
is lost on the two sides. -/
theorem C100_origin_fails (O : PolarOps) (fuel : Nat) (hf : 2 ≤ fuel) (s : PolarSep) :
    s.separate O fuel (Itv.point 0, Itv.point 0) (Itv.point 0, Itv.point 0) = some ((⊥, ⊥), (⊥, ⊥)) := by
  obtain ⟨n, rfl⟩ := Nat.exists_eq_add_of_le' hf
  have hne : (Itv.point (0 : ℝ)).isEmpty = false := rfl
  have hw : PolarSep.whole (Itv.point 0, Itv.point 0) = (Itv.point 0, Itv.point 0) := by simp [PolarSep.whole, hne]
  have hb : (⊥ : Itv ℝ).isEmpty = true := rfl
  unfold PolarSep.separate
  simp only [inf_idem, hw, hne, Bool.false_eq_true, if_false]
  simp only [PolarSep.contractOut, PolarSep.contractIn, PolarSep.polar_zero, Option.map_some, Option.bind_some]
  simp [PolarSep.whole, hb]

/-- the sector of the points at a distance in `[1,2]`, with an angle in `[-π/4, π/4]` -/
noncomputable def quarter : PolarSep := ⟨Itv.icc 1 2, -(π / 4), π / 4, π, fun a b => (a + b) / 2⟩

/-- a point of the sector is kept by `x_out`; a point out of it is kept by `x_in` -/
example : ∃ i o, quarter.separate hullPolar 2 (Itv.icc (-3) 3, Itv.icc (-3) 3) (Itv.icc (-3) 3, Itv.icc (-3) 3) = some (i, o) ∧
    InRect o (3 / 2 * cos (π / 6)) (3 / 2 * sin (π / 6)) ∧ InRect i (3 / 2 * cos (π / 2)) (3 / 2 * sin (π / 2)) := by
  obtain ⟨i, o, e, _⟩ := C100_subset hullPolar 2 le_rfl quarter (Itv.icc (-3) 3, Itv.icc (-3) 3) (Itv.icc (-3) 3, Itv.icc (-3) 3)
  have hp := pi_pos
  have hin : ∀ t : ℝ, InRect (Itv.icc (-3) 3, Itv.icc (-3) 3) (3 / 2 * cos t) (3 / 2 * sin t) := fun t =>
    ⟨Itv.mem_icc.mpr ⟨by linarith [neg_one_le_cos t], by linarith [cos_le_one t]⟩, Itv.mem_icc.mpr ⟨by linarith [neg_one_le_sin t], by linarith [sin_le_one t]⟩⟩
  refine ⟨i, o, e, ?_, ?_⟩
  · refine C100_out_partial hullPolar 2 le_rfl quarter e (hin _) (hin _) (ρ := 3 / 2) (t := π / 6) (by norm_num) (Itv.mem_icc.mpr ⟨by norm_num, by norm_num⟩)
      ⟨by unfold quarter; dsimp only; linarith, by unfold quarter; dsimp only; linarith⟩ rfl rfl (.inl ?_)
    rw [sin_pi_div_six]; norm_num
  · refine C100_in_partial hullPolar 2 le_rfl quarter e (hin _) (hin _) ?_ (Itv.ne_bot_of_mem (Itv.mem_icc.mpr ⟨le_refl (1 : ℝ), by norm_num⟩))
      (ρ := 3 / 2) (t := π / 2) (by norm_num) ?_ rfl rfl (.inl ?_)
    · rintro ⟨ρ, t, hρ, t1, t2, ex, _⟩
      have hρ1 := (Itv.mem_icc.mp hρ).1
      have t1 : -(π / 4) ≤ t := t1
      have t2 : t ≤ π / 4 := t2
      have hc := cos_pos_of_mem_Ioo (x := t) ⟨by linarith, by linarith⟩
      rw [cos_pi_div_two, mul_zero] at ex
      nlinarith
    · unfold quarter
      dsimp only
      rw [show (-(π / 4) + π / 4) / 2 = (0 : ℝ) by ring, sub_zero, abs_of_pos (by positivity)]
      linarith
    · rw [sin_pi_div_two]; norm_num

end Codac.Props
