import Verif.Ctc.SepPolarXYT
import Verif.Props.SepPolar
import Mathlib.Analysis.Real.Pi.Bounds

/-!
# Property C104: the separator of the poses that see a landmark

`SepPolarXYT(rho, theta, mx, my)` separates the poses `(x, y, θ)` from which the landmark `(mx, my)` is seen at a distance in `[rho]` with a bearing in
`[theta]` from the other poses: `x_out` keeps the former, `x_in` the latter.
-/

namespace Codac.Props
open Codac Codac.XYT Real

/-- from the pose `(x, y, th)`, the landmark `(mx, my)` is at the distance `ρ`, with the bearing `φ` -/
def SeesAt (mx my x y th ρ φ : ℝ) : Prop := mx - x = ρ * cos (th + φ) ∧ my - y = ρ * sin (th + φ)

/-- the set: the landmark is seen at a distance in `[rho]`, with a bearing in `[theta]` -/
def InView (s : XYT.Sep) (x y th : ℝ) : Prop := ∃ ρ φ : ℝ, ρ ∈ s.rho ∧ s.thLb ≤ φ ∧ φ ≤ s.thUb ∧ SeesAt s.mx s.my x y th ρ φ

/-- **C104**, inclusion: `separate` returns boxes that are included in the given ones (`contractIn` assigns the third component, which could have
enlarged it). -/
theorem C104_subset (O : XYT.Ops) (s : XYT.Sep) (xin xout : Pose) : (s.separate O xin xout).1.Le xin ∧ (s.separate O xin xout).2.Le xout := by
  obtain ⟨i, o, e, hi, ho, _⟩ := s.separate_start O xin xout
  rw [e]
  exact ⟨(s.contractIn_le O i).trans hi, (s.contractOut_le O o).trans ho⟩

/-- **C104**, outer part: a pose of the boxes that sees the landmark as asked, at a positive distance, is in the new `x_out`. The period given to
`bwd_imod` is the double `2*M_PI`: IBEX has to cover its difference with `2π`, but for the poses whose angle plus bearing is between `-π` and `π`.
Missing: the poses at the landmark, which are lost (`C104_landmark_fails`). -/
theorem C104_out_partial (O : XYT.Ops) (s : XYT.Sep) {xin xout : Pose} {x y th ρ φ : ℝ} (h1 : xin.Mem x y th) (h2 : xout.Mem x y th) (hρ : ρ ∈ s.rho)
    (hpos : 0 < ρ) (hφ : s.thLb ≤ φ ∧ φ ≤ s.thUb) (h : SeesAt s.mx s.my x y th ρ φ)
    (hp : O.Covers (2 * s.mPi) ∨ (-π < th + φ ∧ th + φ ≤ π)) : (s.separate O xin xout).2.Mem x y th := by
  obtain ⟨i, o, e, _, _, hm⟩ := s.separate_start O xin xout
  rw [e]
  refine XYT.mem_whole (s.contract_keeps O (hm x y th h1 h2).2 hpos hρ (Itv.mem_icc.mpr hφ) h.1 h.2 (hp.imp_right fun c => ?_))
  rw [h.1, h.2]
  obtain ⟨k, hk⟩ := argOf_polar (t := th + φ) hpos
  have a1 : -π < argOf (ρ * cos (th + φ)) (ρ * sin (th + φ)) := Complex.neg_pi_lt_arg _
  have a2 : argOf (ρ * cos (th + φ)) (ρ * sin (th + φ)) ≤ π := Complex.arg_le_pi _
  have hp := Real.two_pi_pos
  have k1 : (k : ℝ) < 1 := by by_contra c; push Not at c; nlinarith
  have k2 : (-1 : ℝ) < k := by by_contra c; push Not at c; nlinarith
  have : k = 0 := by
    have : k < 1 := by exact_mod_cast k1
    have : -1 < k := by exact_mod_cast k2
    omega
  rw [this] at hk
  push_cast at hk
  linarith

/-- **C104**, inner part: a pose of the boxes, not at the landmark, that does not see it as asked is in the new `x_in`. Its bearing is given twice: as
the angle `φ` that is the closest to the middle of `[theta]`, and as an angle `ψ` of `[0, 2*M_PI]`; every pose has them, up to the difference between
`M_PI` and `π` (`C104_bearings`). Missing: the poses at the landmark. -/
theorem C104_in_partial (O : XYT.Ops) (s : XYT.Sep) {xin xout : Pose} {x y th ρ φ ψ : ℝ} (h1 : xin.Mem x y th) (h2 : xout.Mem x y th)
    (hout : ¬ InView s x y th) (hne : s.rho ≠ ⊥) (hpos : 0 < ρ) (h : SeesAt s.mx s.my x y th ρ φ) (hφ : |φ - s.mid s.thLb s.thUb| ≤ s.mPi)
    (h' : SeesAt s.mx s.my x y th ρ ψ) (hψ : 0 ≤ ψ ∧ ψ ≤ 2 * s.mPi) (hp : O.Covers (2 * s.mPi)) : (s.separate O xin xout).1.Mem x y th := by
  obtain ⟨i, o, e, _, _, hm⟩ := s.separate_start O xin xout
  rw [e]
  have hi := (hm x y th h1 h2).1
  obtain ⟨t1, t2⟩ := abs_le.mp hφ
  refine s.contractIn_keeps O hi ?_
  have hpr : ρ ∈ posReals := mem_posReals.mpr hpos.le
  rcases le_or_gt φ s.thLb with c1 | c1
  · refine .inl (s.contract_keeps O hi hpos hpr (Itv.mem_icc.mpr ⟨?_, c1⟩) h.1 h.2 (.inl hp))
    unfold XYT.Sep.limit; linarith
  rcases le_or_gt s.thUb φ with c2 | c2
  · refine .inr (.inl (s.contract_keeps O hi hpos hpr (Itv.mem_icc.mpr ⟨c2, ?_⟩) h.1 h.2 (.inl hp)))
    unfold XYT.Sep.limit; linarith
  have hρ : ρ ∉ s.rho := fun c => hout ⟨ρ, φ, c, c1.le, c2.le, h⟩
  have hcase : ρ ∈ s.rhoM ∨ ρ ∈ s.rhoP := by
    unfold XYT.Sep.rhoM XYT.Sep.rhoP
    cases hr : s.rho with
    | empty => exact absurd hr hne
    | mk l u p =>
      rw [hr] at hρ
      have : ¬ loLe l ρ ∨ ¬ leHi ρ u := not_and_or.mp hρ
      rcases this with c | c
      · cases l with
        | none => exact absurd trivial c
        | some l => exact .inl (Itv.mem_icc.mpr ⟨hpos.le, (not_le.mp c).le⟩)
      · cases u with
        | none => exact absurd trivial c
        | some u => exact .inr ⟨(not_le.mp c).le, trivial⟩
  rcases hcase with c | c
  · exact .inr (.inr (.inl (s.contract_keeps O hi hpos c (Itv.mem_icc.mpr hψ) h'.1 h'.2 (.inl hp))))
  · exact .inr (.inr (.inr (s.contract_keeps O hi hpos c (Itv.mem_icc.mpr hψ) h'.1 h'.2 (.inl hp))))

/-- every pose that is not at the landmark has a distance and the two bearings of `C104_in_partial`, with `π` in place of `M_PI` -/
theorem C104_bearings (mx my m : ℝ) {x y : ℝ} (th : ℝ) (h : x ≠ mx ∨ y ≠ my) :
    ∃ ρ φ ψ : ℝ, 0 < ρ ∧ SeesAt mx my x y th ρ φ ∧ |φ - m| ≤ π ∧ SeesAt mx my x y th ρ ψ ∧ 0 ≤ ψ ∧ ψ ≤ 2 * π := by
  have hn : mx - x ≠ 0 ∨ my - y ≠ 0 := h.imp (fun c e => c (by linarith)) (fun c e => c (by linarith))
  obtain ⟨ρ, t, h0, ht, ex, ey⟩ := C100_angle (m + th) hn
  obtain ⟨ρ', t', h0', ht', ex', ey'⟩ := C100_angle (π + th) hn
  have e : ρ = ρ' := by
    have e1 : ρ ^ 2 = ρ' ^ 2 := by
      have h1 := sin_sq_add_cos_sq t
      have h2 := sin_sq_add_cos_sq t'
      have e1 : (mx - x) ^ 2 + (my - y) ^ 2 = ρ ^ 2 := by rw [ex, ey]; linear_combination ρ ^ 2 * h1
      have e2 : (mx - x) ^ 2 + (my - y) ^ 2 = ρ' ^ 2 := by rw [ex', ey']; linear_combination ρ' ^ 2 * h2
      rw [← e1, e2]
    nlinarith
  subst e
  rw [abs_le] at ht'
  refine ⟨ρ, t - th, t' - th, h0, ⟨?_, ?_⟩, ?_, ⟨?_, ?_⟩, by linarith, by linarith⟩
  · rw [add_sub_cancel]; exact ex
  · rw [add_sub_cancel]; exact ey
  · rw [sub_sub, add_comm th m]; exact ht
  · rw [add_sub_cancel]; exact ex'
  · rw [add_sub_cancel]; exact ey'

/-- **C104**, defect: the poses at the landmark are lost on both sides, as the angle of the origin is undefined (`atan2` of IBEX is then empty): even
with the exact operations, on the boxes reduced to such a pose, `x_in` and `x_out` are both empty, although the pose is in the set or out of it. -/
theorem C104_landmark_fails (s : XYT.Sep) (th : ℝ) :
    s.separate hullOps ⟨Itv.point s.mx, Itv.point s.my, Itv.point th⟩ ⟨Itv.point s.mx, Itv.point s.my, Itv.point th⟩ = (⟨⊥, ⊥, ⊥⟩, ⟨⊥, ⊥, ⊥⟩) := by
  have hw : whole ⟨Itv.point s.mx, Itv.point s.my, Itv.point th⟩ = ⟨Itv.point s.mx, Itv.point s.my, Itv.point th⟩ := by
    unfold whole; rw [if_neg]; simp [Itv.isEmpty_iff, Itv.point]
  have hsub0 : ∀ m : ℝ, hullOps.S.A.sub (Itv.point m) (Itv.point m) ≤ Itv.point 0 := fun m => Itv.hullOf_le (by
    rintro z ⟨a, b, ha, hb, rfl⟩
    rw [Itv.mem_point.mp ha, Itv.mem_point.mp hb, sub_self, Itv.mem_point])
  have hsubb : ∀ X : Itv ℝ, hullOps.S.A.sub ⊥ X = ⊥ := fun X => le_bot_iff.mp (Itv.hullOf_le (by
    rintro z ⟨a, b, ha, _⟩
    exact ha.elim))
  have hat : ∀ Y X : Itv ℝ, Y ≤ Itv.point 0 → X ≤ Itv.point 0 → hullOps.atan2 Y X = ⊥ := fun Y X hY hX => le_bot_iff.mp (Itv.hullOf_le (by
    rintro z ⟨a, b, ha, hb, hn, _⟩
    have e1 := Itv.mem_point.mp (Itv.mem_of_le hY ha)
    have e2 := Itv.mem_point.mp (Itv.mem_of_le hX hb)
    exact (hn.elim (· e2) (· e1)).elim))
  have hc : ∀ R P : Itv ℝ, s.contract hullOps ⟨Itv.point s.mx, Itv.point s.my, Itv.point th⟩ R P = ⟨⊥, ⊥, ⊥⟩ := by
    intro R P
    unfold XYT.Sep.contract
    extract_lets A dx0 dy0 dx1 dy1 a3 a4 a3' q dx2 dy2 a1 a2 a1' th' d
    have l1 : dx2 ≤ Itv.point 0 := (hullOps.S.bwdSqr_le _ _).trans (inf_le_left.trans (hsub0 _))
    have l2 : dy2 ≤ Itv.point 0 := (hullOps.S.bwdSqr_le _ _).trans (inf_le_left.trans (hsub0 _))
    have e1 : a1 = ⊥ := hat _ _ l2 l1
    have e1' : a1' = ⊥ := by show a1 ⊓ _ = ⊥; rw [e1, bot_inf_eq]
    have e3 : th' = ⊥ := by show _ ⊓ A.sub a1' a2 = ⊥; rw [e1', hsubb, inf_bot_eq]
    rw [e3]
    unfold whole
    rw [if_pos]
    simp [Itv.isEmpty_iff]
  have hb : whole ⟨⊥, ⊥, ⊥⟩ = ⟨⊥, ⊥, ⊥⟩ := by unfold whole; split <;> rfl
  unfold XYT.Sep.separate
  simp only [inf_idem, hw]
  unfold XYT.Sep.contractIn XYT.Sep.contractOut
  simp only [hc, sup_idem, inf_bot_eq, hb]

/-- the landmark is the origin, seen at a distance in `[1,2]` with a bearing in `[-1, 1]` -/
noncomputable def viewSep : XYT.Sep := ⟨Itv.icc 1 2, -1, 1, 0, 0, π, fun a b => (a + b) / 2⟩

/-- the hypotheses of the outer part are met, with and without a turn: at `(-1, 0)`, with the heading `0`, then `2π`, the landmark is right ahead -/
example : SeesAt viewSep.mx viewSep.my (-1) 0 0 1 0 ∧ SeesAt viewSep.mx viewSep.my (-1) 0 (2 * π) 1 0 ∧ (1 : ℝ) ∈ viewSep.rho ∧
    viewSep.thLb ≤ 0 ∧ 0 ≤ viewSep.thUb ∧ hullOps.Covers (2 * viewSep.mPi) := by
  refine ⟨⟨?_, ?_⟩, ⟨?_, ?_⟩, Itv.mem_icc.mpr ⟨le_rfl, by norm_num⟩, by simp [viewSep], by simp [viewSep], hullOps_covers⟩ <;> simp [viewSep]

/-- the hypotheses of the inner part are met: at `(1, 0)` with the heading `0`, the landmark is right behind -/
example : SeesAt viewSep.mx viewSep.my 1 0 0 1 π ∧ |π - viewSep.mid viewSep.thLb viewSep.thUb| ≤ viewSep.mPi ∧ 0 ≤ π ∧ π ≤ 2 * viewSep.mPi ∧
    viewSep.rho ≠ ⊥ ∧ ¬ InView viewSep 1 0 0 := by
  refine ⟨⟨by simp [viewSep], by simp [viewSep]⟩, ?_, pi_pos.le, ?_, ?_, ?_⟩
  · simp [viewSep, abs_of_pos pi_pos]
  · show π ≤ 2 * π
    linarith [pi_pos]
  · exact Itv.ne_bot_of_mem (x := 1) (Itv.mem_icc.mpr ⟨le_rfl, by norm_num⟩)
  · rintro ⟨ρ, φ, hρ, l, u, e1, _⟩
    have hρ' := Itv.mem_icc.mp hρ
    have l' : -1 ≤ φ := l
    have u' : φ ≤ 1 := u
    have hc : 0 < cos (0 + φ) := cos_pos_of_mem_Ioo ⟨by linarith [pi_gt_three], by linarith [pi_gt_three]⟩
    have e1' : (0 : ℝ) - 1 = ρ * cos (0 + φ) := e1
    nlinarith [hρ'.1]

/-- a pose at the landmark can be in the set: the defect concerns it -/
example : InView ⟨Itv.icc 0 2, -1, 1, 3, 4, π, fun a b => (a + b) / 2⟩ 3 4 0 :=
  ⟨0, 0, Itv.mem_icc.mpr ⟨le_rfl, by norm_num⟩, by norm_num, by norm_num, by simp [SeesAt]⟩

end Codac.Props
