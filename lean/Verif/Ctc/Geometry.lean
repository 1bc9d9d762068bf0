import Verif.Ctc.Boxes
import Verif.Arith
import Mathlib.Analysis.SpecialFunctions.Pow.Real

/-!
# `CtcDist` and `CtcSegment`

Models `/repo/src/core/contractors/static/codac_CtcDist.cpp` and `codac_CtcSegment.cpp`.
-/

set_option linter.unusedSectionVars false

namespace Codac

/-! ### `CtcDist` -/

/-- what is assumed of the IBEX functions `sqr`, `sqrt`, `bwd_sqr` on intervals of real numbers -/
structure SqrOps where
  A : IArith ℝ
  sqr : Itv ℝ → Itv ℝ
  sqrt : Itv ℝ → Itv ℝ
  /-- `bwd_sqr(y, x)`: the new `x` -/
  bwdSqr : Itv ℝ → Itv ℝ → Itv ℝ
  sqr_mem : ∀ {X : Itv ℝ} {x : ℝ}, x ∈ X → x ^ 2 ∈ sqr X
  sqrt_mem : ∀ {X : Itv ℝ} {x : ℝ}, x ∈ X → 0 ≤ x → √x ∈ sqrt X
  bwdSqr_mem : ∀ {Y X : Itv ℝ} {x : ℝ}, x ∈ X → x ^ 2 ∈ Y → x ∈ bwdSqr Y X
  bwdSqr_le : ∀ Y X : Itv ℝ, bwdSqr Y X ≤ X

/-- the five domains of `CtcDist` -/
structure DistDom where
  ax : Itv ℝ
  ay : Itv ℝ
  bx : Itv ℝ
  by_ : Itv ℝ
  d : Itv ℝ

/-- `CtcDist::contract(ax, ay, bx, by, d)`, codac_CtcDist.cpp:36-60; unary minus is exact -/
noncomputable def distContract (O : SqrOps) (X : DistDom) : DistDom :=
  let i1 := Itv.neg X.bx
  let i2 := O.A.add X.ax i1
  let i3 := O.sqr i2
  let i4 := Itv.neg X.by_
  let i5 := O.A.add X.ay i4
  let i6 := O.sqr i5
  let i7 := O.A.add i3 i6
  let d := X.d ⊓ O.sqrt i7
  let i7 := i7 ⊓ O.sqr d
  let i3 := i3 ⊓ O.A.sub i7 i6
  let i6 := i6 ⊓ O.A.sub i7 i3
  let i5 := O.bwdSqr i6 i5
  let ay := X.ay ⊓ O.A.sub i5 i4
  let i4 := i4 ⊓ O.A.sub i5 ay
  let by_ := X.by_ ⊓ Itv.neg i4
  let i2 := O.bwdSqr i3 i2
  let ax := X.ax ⊓ O.A.sub i2 i1
  let i1 := i1 ⊓ O.A.sub i2 ax
  let bx := X.bx ⊓ Itv.neg i1
  ⟨ax, ay, bx, by_, d⟩

theorem distContract_keeps (O : SqrOps) {X : DistDom} {ax ay bx by_ d : ℝ} (h1 : ax ∈ X.ax) (h2 : ay ∈ X.ay) (h3 : bx ∈ X.bx) (h4 : by_ ∈ X.by_) (h5 : d ∈ X.d)
    (hd : d = √((ax - bx) ^ 2 + (ay - by_) ^ 2)) :
    ax ∈ (distContract O X).ax ∧ ay ∈ (distContract O X).ay ∧ bx ∈ (distContract O X).bx ∧ by_ ∈ (distContract O X).by_ ∧ d ∈ (distContract O X).d := by
  have p0 : 0 ≤ (ax - bx) ^ 2 + (ay - by_) ^ 2 := by positivity
  have e : d ^ 2 = (ax - bx) ^ 2 + (ay - by_) ^ 2 := by rw [hd, Real.sq_sqrt p0]
  have i1 := Itv.mem_neg h3
  have i2 : ax - bx ∈ O.A.add X.ax (Itv.neg X.bx) := by have := O.A.add_mem h1 i1; rwa [← sub_eq_add_neg] at this
  have i3 := O.sqr_mem i2
  have i4 := Itv.mem_neg h4
  have i5 : ay - by_ ∈ O.A.add X.ay (Itv.neg X.by_) := by have := O.A.add_mem h2 i4; rwa [← sub_eq_add_neg] at this
  have i6 := O.sqr_mem i5
  have i7 := O.A.add_mem i3 i6
  have d' : d ∈ X.d ⊓ O.sqrt _ := Itv.mem_inf.mpr ⟨h5, by have := O.sqrt_mem i7 p0; rwa [← hd] at this⟩
  have i7' := Itv.mem_inf.mpr ⟨i7, by have := O.sqr_mem d'; rwa [e] at this⟩
  have i3' := Itv.mem_inf.mpr ⟨i3, by have := O.A.sub_mem i7' i6; rwa [add_sub_cancel_right] at this⟩
  have i6' := Itv.mem_inf.mpr ⟨i6, by have := O.A.sub_mem i7' i3'; rwa [add_sub_cancel_left] at this⟩
  have i5' := O.bwdSqr_mem i5 i6'
  have ay' := Itv.mem_inf.mpr ⟨h2, by have := O.A.sub_mem i5' i4; rwa [sub_neg_eq_add, sub_add_cancel] at this⟩
  have i4' := Itv.mem_inf.mpr ⟨i4, by have := O.A.sub_mem i5' ay'; rwa [sub_sub_cancel_left] at this⟩
  have by' := Itv.mem_inf.mpr ⟨h4, by have := Itv.mem_neg i4'; rwa [neg_neg] at this⟩
  have i2' := O.bwdSqr_mem i2 i3'
  have ax' := Itv.mem_inf.mpr ⟨h1, by have := O.A.sub_mem i2' i1; rwa [sub_neg_eq_add, sub_add_cancel] at this⟩
  have i1' := Itv.mem_inf.mpr ⟨i1, by have := O.A.sub_mem i2' ax'; rwa [sub_sub_cancel_left] at this⟩
  have bx' := Itv.mem_inf.mpr ⟨h3, by have := Itv.mem_neg i1'; rwa [neg_neg] at this⟩
  exact ⟨ax', ay', bx', by', d'⟩

theorem distContract_le (O : SqrOps) (X : DistDom) :
    (distContract O X).ax ≤ X.ax ∧ (distContract O X).ay ≤ X.ay ∧ (distContract O X).bx ≤ X.bx ∧ (distContract O X).by_ ≤ X.by_ ∧ (distContract O X).d ≤ X.d :=
  ⟨inf_le_left, inf_le_left, inf_le_left, inf_le_left, inf_le_left⟩

/-! ### `CtcSegment` -/

section
variable {K : Type*} [Field K] [LinearOrder K] [IsStrictOrderedRing K]

/-- the function `f` of `CtcSegment::init`, codac_CtcSegment.cpp:41 -/
def segF (x y ax ay bx by_ : K) : K := (bx - ax) * (ay - y) - (by_ - ay) * (ax - x)

/-- the four components of `g`, codac_CtcSegment.cpp:43-47 -/
def segG (x y ax ay bx by_ : K) : List K := [min ax bx - x, min ay by_ - y, x - max ax bx, y - max ay by_]

/-- solutions of `f = 0`, points given as lists of six numbers -/
def SegSolF (v : List K) : Prop := ∃ x y ax ay bx by_, v = [x, y, ax, ay, bx, by_] ∧ segF x y ax ay bx by_ = 0

/-- solutions of `g ≤ 0` -/
def SegSolG (v : List K) : Prop := ∃ x y ax ay bx by_, v = [x, y, ax, ay, bx, by_] ∧ ∀ w ∈ segG x y ax ay bx by_, w ≤ 0

/-- `CtcSegment::contract` with six variables, codac_CtcSegment.cpp:64-68. `ctcF`, `ctcG`: the forward-backward contractors of IBEX for `f = 0` and `g ≤ 0`. -/
def segContract6 (ctcF ctcG : Box K → Box K) (box : Box K) : Box K :=
  let X := ctcF box
  if X.isEmpty then X else ctcG X

/-- `CtcSegment::contract` with two variables, codac_CtcSegment.cpp:69-84 -/
def segContract2 (ctcF ctcG : Box K → Box K) (ax ay bx by_ : K) (box : Box K) : Box K :=
  match box with
  | [b0, b1] =>
    let X := ctcF [b0, b1, Itv.point ax, Itv.point ay, Itv.point bx, Itv.point by_]
    if X.isEmpty then [⊥, ⊥]
    else
      let X := ctcG X
      if X.isEmpty then [⊥, ⊥] else X.take 2
  | _ => box  -- not reachable: boxes of dimension two

/-- the point is on the segment -/
def OnSegment (x y ax ay bx by_ : K) : Prop := ∃ s, 0 ≤ s ∧ s ≤ 1 ∧ x = ax + s * (bx - ax) ∧ y = ay + s * (by_ - ay)

theorem between_of_seg {a b s : K} (h0 : 0 ≤ s) (h1 : s ≤ 1) : min a b ≤ a + s * (b - a) ∧ a + s * (b - a) ≤ max a b := by
  rcases le_total a b with h | h
  · rw [min_eq_left h, max_eq_right h]; constructor <;> nlinarith
  · rw [min_eq_right h, max_eq_left h]; constructor <;> nlinarith

/-- `f = 0` and `g ≤ 0` characterise the points of the segment -/
theorem onSegment_iff (x y ax ay bx by_ : K) : OnSegment x y ax ay bx by_ ↔ segF x y ax ay bx by_ = 0 ∧ ∀ w ∈ segG x y ax ay bx by_, w ≤ 0 := by
  constructor
  · rintro ⟨s, h0, h1, rfl, rfl⟩
    obtain ⟨k1, k2⟩ := between_of_seg (a := ax) (b := bx) h0 h1
    obtain ⟨k3, k4⟩ := between_of_seg (a := ay) (b := by_) h0 h1
    refine ⟨by unfold segF; ring, fun w hw => ?_⟩
    simp only [segG, List.mem_cons, List.not_mem_nil, or_false] at hw
    rcases hw with rfl | rfl | rfl | rfl <;> linarith
  · rintro ⟨hf, hg⟩
    unfold segF at hf
    have g1 := hg (min ax bx - x) (by simp [segG])
    have g2 := hg (min ay by_ - y) (by simp [segG])
    have g3 := hg (x - max ax bx) (by simp [segG])
    have g4 := hg (y - max ay by_) (by simp [segG])
    by_cases hx : bx - ax = 0
    · have hbx : bx = ax := by linarith
      subst hbx
      have ex : x = bx := le_antisymm (by rw [max_self] at g3; linarith) (by rw [min_self] at g1; linarith)
      subst ex
      by_cases hy : by_ - ay = 0
      · have hby : by_ = ay := by linarith
        subst hby
        have ey : y = by_ := le_antisymm (by rw [max_self] at g4; linarith) (by rw [min_self] at g2; linarith)
        exact ⟨0, le_rfl, zero_le_one, by ring, by rw [ey]; ring⟩
      · refine ⟨(y - ay) / (by_ - ay), ?_, ?_, by ring, by field_simp; ring⟩
        · rcases lt_or_gt_of_ne hy with h | h
          · exact div_nonneg_of_nonpos (by rw [max_eq_left (by linarith)] at g4; linarith) h.le
          · exact div_nonneg (by rw [min_eq_left (by linarith)] at g2; linarith) h.le
        · rcases lt_or_gt_of_ne hy with h | h
          · rw [div_le_one_of_neg h]; rw [min_eq_right (by linarith)] at g2; linarith
          · rw [div_le_one h]; rw [max_eq_right (by linarith)] at g4; linarith
    · refine ⟨(x - ax) / (bx - ax), ?_, ?_, by field_simp; ring, ?_⟩
      · rcases lt_or_gt_of_ne hx with h | h
        · exact div_nonneg_of_nonpos (by rw [max_eq_left (by linarith)] at g3; linarith) h.le
        · exact div_nonneg (by rw [min_eq_left (by linarith)] at g1; linarith) h.le
      · rcases lt_or_gt_of_ne hx with h | h
        · rw [div_le_one_of_neg h]; rw [min_eq_right (by linarith)] at g1; linarith
        · rw [div_le_one h]; rw [max_eq_right (by linarith)] at g3; linarith
      · have : (x - ax) / (bx - ax) * (by_ - ay) = (x - ax) * (by_ - ay) / (bx - ax) := by ring
        rw [this]
        field_simp
        linarith

theorem SegSolF_of {x y ax ay bx by_ : K} (h : OnSegment x y ax ay bx by_) : SegSolF [x, y, ax, ay, bx, by_] :=
  ⟨x, y, ax, ay, bx, by_, rfl, ((onSegment_iff ..).mp h).1⟩

theorem SegSolG_of {x y ax ay bx by_ : K} (h : OnSegment x y ax ay bx by_) : SegSolG [x, y, ax, ay, bx, by_] :=
  ⟨x, y, ax, ay, bx, by_, rfl, ((onSegment_iff ..).mp h).2⟩

theorem segContract6_keeps {ctcF ctcG : Box K → Box K} (hF : IsCtc 6 SegSolF ctcF) (hG : IsCtc 6 SegSolG ctcG) {X : Box K}
    (hX : X.length = 6) {x y ax ay bx by_ : K} (hv : InBox [x, y, ax, ay, bx, by_] X) (h : OnSegment x y ax ay bx by_) :
    InBox [x, y, ax, ay, bx, by_] (segContract6 ctcF ctcG X) := by
  have h1 := hF.keeps X _ hX hv (SegSolF_of h)
  unfold segContract6
  by_cases he : (ctcF X).isEmpty
  · simpa only [he, if_true] using h1
  · simp only [he, Bool.false_eq_true, if_false]
    exact hG.keeps _ _ (hF.length hX) h1 (SegSolG_of h)

theorem segContract6_le {ctcF ctcG : Box K → Box K} (hF : IsCtc 6 SegSolF ctcF) (hG : IsCtc 6 SegSolG ctcG) {X : Box K}
    (hX : X.length = 6) : BoxLe (segContract6 ctcF ctcG X) X := by
  unfold segContract6
  by_cases he : (ctcF X).isEmpty
  · simpa only [he, if_true] using hF.le X hX
  · simp only [he, Bool.false_eq_true, if_false]
    exact (hG.le _ (hF.length hX)).trans (hF.le X hX)

theorem InBox.isEmpty_false {v : List K} {X : Box K} (h : InBox v X) : X.isEmpty = false := by
  cases h with
  | nil => rfl
  | cons h1 _ => exact Itv.isEmpty_false_iff.mpr (Itv.ne_bot_of_mem h1)

theorem segContract2_keeps {ctcF ctcG : Box K → Box K} (hF : IsCtc 6 SegSolF ctcF) (hG : IsCtc 6 SegSolG ctcG) {X : Box K}
    (hX : X.length = 2) {x y ax ay bx by_ : K} (hv : InBox [x, y] X) (h : OnSegment x y ax ay bx by_) :
    InBox [x, y] (segContract2 ctcF ctcG ax ay bx by_ X) := by
  match X, hX with
  | [b0, b1], _ =>
    have h0 : InBox [x, y, ax, ay, bx, by_] [b0, b1, Itv.point ax, Itv.point ay, Itv.point bx, Itv.point by_] := by
      have e : InBox [ax, ay, bx, by_] [Itv.point ax, Itv.point ay, Itv.point bx, Itv.point by_] :=
        .cons (Itv.mem_point.mpr rfl) (.cons (Itv.mem_point.mpr rfl) (.cons (Itv.mem_point.mpr rfl) (.cons (Itv.mem_point.mpr rfl) .nil)))
      exact hv.append e
    have h1 := hF.keeps _ _ rfl h0 (SegSolF_of h)
    have h2 := hG.keeps _ _ (hF.length rfl) h1 (SegSolG_of h)
    simp only [segContract2, h1.isEmpty_false, h2.isEmpty_false, Bool.false_eq_true, if_false]
    exact List.forall₂_take 2 h2

theorem segContract2_le {ctcF ctcG : Box K → Box K} (hF : IsCtc 6 SegSolF ctcF) (hG : IsCtc 6 SegSolG ctcG) {X : Box K}
    (hX : X.length = 2) (ax ay bx by_ : K) : BoxLe (segContract2 ctcF ctcG ax ay bx by_ X) X := by
  match X, hX with
  | [b0, b1], _ =>
    have hb : BoxLe [⊥, ⊥] [b0, b1] := .cons bot_le (.cons bot_le .nil)
    simp only [segContract2]
    split
    · exact hb
    · split
      · exact hb
      · exact List.forall₂_take 2 ((hG.le _ (hF.length rfl)).trans (hF.le _ rfl))
end

end Codac
