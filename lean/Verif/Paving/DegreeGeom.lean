import Verif.Paving.Winding
import Verif.Paving.Degree
import Verif.Paving.Subsets

/-!
# Boxes of a paving as rectangles

The functions of `Verif/Paving/Degree.lean` on two rectangles that share a side.
-/

set_option linter.unusedSectionVars false

namespace Codac
namespace Deg

/-- the box of a rectangle -/
noncomputable def RR.box (R : RR) : Box ℝ := [Itv.icc R.x0 R.x1, Itv.icc R.y0 R.y1]

/-- the rectangle has a width and a height -/
def RR.Pos (R : RR) : Prop := R.x0 < R.x1 ∧ R.y0 < R.y1

/-- intersection of two rectangles -/
noncomputable def RR.inter (U C : RR) : RR := ⟨max U.x0 C.x0, min U.x1 C.x1, max U.y0 C.y0, min U.y1 C.y1⟩

/-- the rectangle of a box -/
noncomputable def rectOf (b : Box ℝ) : RR :=
  ⟨((b.getD 0 ⊥).lb?).getD 0, ((b.getD 0 ⊥).ub?).getD 0, ((b.getD 1 ⊥).lb?).getD 0, ((b.getD 1 ⊥).ub?).getD 0⟩

theorem rectOf_box {R : RR} (h1 : R.x0 ≤ R.x1) (h2 : R.y0 ≤ R.y1) : rectOf R.box = R := by
  unfold rectOf RR.box
  simp only [List.getD_cons_zero, List.getD_cons_succ, Itv.icc_eq_mk h1, Itv.icc_eq_mk h2, Itv.lb?, Itv.ub?, Option.getD_some]

theorem inf_icc (a b c d : ℝ) : Itv.icc a b ⊓ Itv.icc c d = Itv.icc (max a c) (min b d) := by
  refine Itv.ext_mem fun x => ?_
  simp only [Itv.mem_inf, Itv.mem_icc, max_le_iff, le_min_iff]
  tauto

theorem isDegenerated_icc (a b : ℝ) : (Itv.icc a b).isDegenerated = decide (b ≤ a) := by
  rcases lt_or_ge b a with h | h
  · rw [Itv.icc_eq_empty h]; simp [Itv.isDegenerated, h.le]
  · rw [Itv.icc_eq_mk h]
    simp only [Itv.isDegenerated]
    exact decide_eq_decide.2 ⟨fun e => e ▸ le_rfl, fun h' => le_antisymm h h'⟩

theorem isEmpty_icc (a b : ℝ) : (Itv.icc a b).isEmpty = decide (b < a) := by
  rcases lt_or_ge b a with h | h
  · rw [Itv.icc_eq_empty h]; simp [Itv.isEmpty, h]
  · rw [Itv.icc_eq_mk h]; simp [Itv.isEmpty, h]

/-- the two rectangles meet -/
def RR.Meet (U C : RR) : Prop := (U.inter C).x0 ≤ (U.inter C).x1 ∧ (U.inter C).y0 ≤ (U.inter C).y1

theorem isEmpty_box {R : RR} : Box.isEmpty R.box = decide (R.x1 < R.x0) := isEmpty_icc _ _

theorem inter_box_of_meet {U C : RR} (hU : U.x0 ≤ U.x1) (hC : C.x0 ≤ C.x1) (h : U.Meet C) : Box.inter U.box C.box = (U.inter C).box := by
  unfold Box.inter
  rw [isEmpty_box, isEmpty_box]
  have h1 := h.1
  have h2 := h.2
  simp only [RR.inter] at h1 h2
  rw [if_neg (by simp [hU, hC]), if_neg]
  · simp only [RR.box, List.zipWith_cons_cons, List.zipWith_nil_left, inf_icc]
    rfl
  · simp only [RR.box, List.zipWith_cons_cons, List.zipWith_nil_left, inf_icc, List.any_cons, List.any_nil, isEmpty_icc, Bool.or_false,
      Bool.or_eq_true, decide_eq_true_eq, not_or, not_lt]
    exact ⟨h1, h2⟩

theorem inter_box_of_not_meet {U C : RR} (h : ¬ U.Meet C) : Box.inter U.box C.box = [⊥, ⊥] := by
  have he : Box.setEmpty U.box = [⊥, ⊥] := rfl
  unfold Box.inter
  by_cases h1 : (Box.isEmpty U.box || Box.isEmpty C.box) = true
  · rw [if_pos h1, he]
  · rw [if_neg h1, if_pos, he]
    simp only [RR.box, List.zipWith_cons_cons, List.zipWith_nil_left, inf_icc, List.any_cons, List.any_nil, isEmpty_icc, Bool.or_false,
      Bool.or_eq_true, decide_eq_true_eq]
    unfold RR.Meet RR.inter at h
    by_contra hc
    push Not at hc
    exact h hc

theorem meet_iff {U C : RR} : U.Meet C ↔ ∃ z, U.Mem z ∧ C.Mem z := by
  unfold RR.Meet RR.inter RR.Mem
  simp only [max_le_iff, le_min_iff]
  constructor
  · rintro ⟨⟨⟨h1, h2⟩, h3, h4⟩, ⟨h5, h6⟩, h7, h8⟩
    exact ⟨(max U.x0 C.x0, max U.y0 C.y0), ⟨le_max_left _ _, max_le h1 h2, le_max_left _ _, max_le h5 h6⟩,
      ⟨le_max_right _ _, max_le h3 h4, le_max_right _ _, max_le h7 h8⟩⟩
  · rintro ⟨z, ⟨h1, h2, h3, h4⟩, h5, h6, h7, h8⟩
    exact ⟨⟨⟨h1.trans h2, h5.trans h2⟩, h1.trans h6, h5.trans h6⟩, ⟨h3.trans h4, h7.trans h4⟩, h3.trans h8, h7.trans h8⟩

theorem mem_inter {U C : RR} {z : ℝ × ℝ} : (U.inter C).Mem z ↔ U.Mem z ∧ C.Mem z := by
  unfold RR.inter RR.Mem
  simp only [max_le_iff, le_min_iff]
  tauto

theorem deg_bot : (⊥ : Itv ℝ).isDegenerated = true := rfl

/-- the intersection is neither empty nor a point -/
def RR.Wide (U C : RR) : Prop := U.Meet C ∧ ((U.inter C).x0 < (U.inter C).x1 ∨ (U.inter C).y0 < (U.inter C).y1)

theorem all_deg_box (R : RR) : R.box.all Itv.isDegenerated = decide (R.x1 ≤ R.x0 ∧ R.y1 ≤ R.y0) := by
  simp [RR.box, isDegenerated_icc]

theorem wide_iff {U C : RR} (hU : U.x0 ≤ U.x1) (hC : C.x0 ≤ C.x1) :
    (Box.inter U.box C.box).all Itv.isDegenerated = false ↔ U.Wide C := by
  by_cases h : U.Meet C
  · rw [inter_box_of_meet hU hC h, all_deg_box, decide_eq_false_iff_not, RR.Wide]
    constructor
    · intro h'
      refine ⟨h, ?_⟩
      by_contra hc
      push Not at hc
      exact h' hc
    · rintro ⟨_, h' | h'⟩ hc
      · exact absurd hc.1 (not_le.2 h')
      · exact absurd hc.2 (not_le.2 h')
  · rw [inter_box_of_not_meet h]
    constructor
    · intro h'
      simp [deg_bot] at h'
    · intro h'
      exact absurd h'.1 h

theorem isEmpty_inter {U C : RR} (hU : U.x0 ≤ U.x1) (hC : C.x0 ≤ C.x1) : (Box.inter U.box C.box).isEmpty = false ↔ U.Meet C := by
  by_cases h : U.Meet C
  · rw [inter_box_of_meet hU hC h, isEmpty_box]
    simp [h, h.1]
  · rw [inter_box_of_not_meet h]
    simp [h, Box.isEmpty, Itv.isEmpty]

/-- the interiors are disjoint -/
def RR.Disj (U C : RR) : Prop := U.x1 ≤ C.x0 ∨ C.x1 ≤ U.x0 ∨ U.y1 ≤ C.y0 ∨ C.y1 ≤ U.y0

/-- the sides of `C`: bottom, top, left, right -/
inductive Side (U C : RR) : Int → Prop
  | bottom (h : C.y0 = U.y1) (hx : max U.x0 C.x0 < min U.x1 C.x1) : Side U C 1
  | top (h : C.y1 = U.y0) (hx : max U.x0 C.x0 < min U.x1 C.x1) : Side U C (-1)
  | left (h : C.x0 = U.x1) (hy : max U.y0 C.y0 < min U.y1 C.y1) : Side U C (-1)
  | right (h : C.x1 = U.x0) (hy : max U.y0 C.y0 < min U.y1 C.y1) : Side U C 1

theorem Side.of_wide {U C : RR} (hd : U.Disj C) (hw : U.Wide C) : ∃ o, Side U C o := by
  obtain ⟨⟨h1, h2⟩, h3⟩ := hw
  simp only [RR.inter, max_le_iff, le_min_iff] at h1 h2 h3
  rcases hd with h | h | h | h
  · refine ⟨-1, .left (le_antisymm h1.1.2 h) (h3.resolve_left fun h' => ?_)⟩
    rw [max_lt_iff, lt_min_iff, lt_min_iff] at h'
    linarith [h'.2.1]
  · refine ⟨1, .right (le_antisymm h h1.2.1) (h3.resolve_left fun h' => ?_)⟩
    rw [max_lt_iff, lt_min_iff, lt_min_iff] at h'
    linarith [h'.1.2]
  · refine ⟨1, .bottom (le_antisymm h2.1.2 h) (h3.resolve_right fun h' => ?_)⟩
    rw [max_lt_iff, lt_min_iff, lt_min_iff] at h'
    linarith [h'.2.1]
  · refine ⟨-1, .top (le_antisymm h h2.2.1) (h3.resolve_right fun h' => ?_)⟩
    rw [max_lt_iff, lt_min_iff, lt_min_iff] at h'
    linarith [h'.1.2]

/-- lower and upper ends of the common side -/
noncomputable def lo (U C : RR) : ℝ × ℝ := ((U.inter C).x0, (U.inter C).y0)
noncomputable def hi (U C : RR) : ℝ × ℝ := ((U.inter C).x1, (U.inter C).y1)

/-- the box of a point -/
noncomputable def vbox (z : ℝ × ℝ) : Box ℝ := [Itv.icc z.1 z.1, Itv.icc z.2 z.2]

theorem point_eq (a : ℝ) : Itv.point a = Itv.icc a a := (Itv.icc_eq_mk le_rfl).symm

/-- the common side of two rectangles -/
structure SideFacts (U C : RR) (o : Int) : Prop where
  dim : boxDim (U.inter C).box = 1
  ori : orientation (U.inter C).box C.box = o
  fac : faces (U.inter C).box = some (vbox (lo U C), vbox (hi U C))
  diff : ∀ g, dEdge g U C = o * (g (hi U C) - g (lo U C))

theorem Side.y_of {U C : RR} (hU : U.Pos) (hC : C.Pos) (h : C.y0 = U.y1) : (U.inter C).y0 = C.y0 ∧ (U.inter C).y1 = C.y0 := by
  simp only [RR.inter]
  constructor
  · exact max_eq_right (by rw [h]; exact hU.2.le)
  · rw [← h]; exact min_eq_left hC.2.le

theorem Side.y_of' {U C : RR} (hU : U.Pos) (hC : C.Pos) (h : C.y1 = U.y0) : (U.inter C).y0 = C.y1 ∧ (U.inter C).y1 = C.y1 := by
  simp only [RR.inter]
  constructor
  · rw [← h]; exact max_eq_left hC.2.le
  · exact min_eq_right (by rw [h]; exact hU.2.le)

theorem Side.x_of {U C : RR} (hU : U.Pos) (hC : C.Pos) (h : C.x0 = U.x1) : (U.inter C).x0 = C.x0 ∧ (U.inter C).x1 = C.x0 := by
  simp only [RR.inter]
  constructor
  · exact max_eq_right (by rw [h]; exact hU.1.le)
  · rw [← h]; exact min_eq_left hC.1.le

theorem Side.x_of' {U C : RR} (hU : U.Pos) (hC : C.Pos) (h : C.x1 = U.x0) : (U.inter C).x0 = C.x1 ∧ (U.inter C).x1 = C.x1 := by
  simp only [RR.inter]
  constructor
  · rw [← h]; exact max_eq_left hC.1.le
  · exact min_eq_right (by rw [h]; exact hU.1.le)

/-- facts shared by the horizontal sides -/
theorem horiz {I C : RR} {y : ℝ} (hx : I.x0 < I.x1) (hy0 : I.y0 = y) (hy1 : I.y1 = y) (hC : C.Pos) :
    boxDim I.box = 1 ∧ faces I.box = some (vbox (I.x0, I.y0), vbox (I.x1, I.y1)) ∧ (y = C.y0 → orientation I.box C.box = 1) ∧
      (y = C.y1 → orientation I.box C.box = -1) := by
  subst hy0
  have d1 : (Itv.icc I.x0 I.x1).isDegenerated = false := by rw [isDegenerated_icc]; simp [hx]
  have d2 : (Itv.icc I.y0 I.y1).isDegenerated = true := by rw [isDegenerated_icc]; simp [hy1]
  have d3 : (Itv.icc C.x0 C.x1).isDegenerated = false := by rw [isDegenerated_icc]; simp [hC.1]
  have d4 : (Itv.icc C.y0 C.y1).isDegenerated = false := by rw [isDegenerated_icc]; simp [hC.2]
  refine ⟨?_, ?_, ?_, ?_⟩
  · simp [boxDim, RR.box, d1, d2]
  · simp only [faces, RR.box, d1, Bool.false_eq_true, if_false]
    rw [Itv.icc_eq_mk hx.le]
    simp only [Itv.lb?, Itv.ub?, point_eq, vbox, hy1]
  · intro h
    simp only [orientation, RR.box, d1, d2, d3, d4, Bool.not_false, Bool.true_and, Bool.false_and, Bool.false_eq_true, if_false]
    rw [Itv.icc_eq_mk hy1.ge, Itv.icc_eq_mk hC.2.le]
    simp [Itv.lb?, h]
  · intro h
    simp only [orientation, RR.box, d1, d2, d3, d4, Bool.not_false, Bool.true_and, Bool.false_and, Bool.false_eq_true, if_false]
    rw [Itv.icc_eq_mk hy1.ge, Itv.icc_eq_mk hC.2.le]
    have : C.y1 ≠ C.y0 := hC.2.ne'
    simp [Itv.lb?, Itv.ub?, h, this]

/-- facts shared by the vertical sides -/
theorem vert {I C : RR} {x : ℝ} (hy : I.y0 < I.y1) (hx0 : I.x0 = x) (hx1 : I.x1 = x) (hC : C.Pos) :
    boxDim I.box = 1 ∧ faces I.box = some (vbox (I.x0, I.y0), vbox (I.x1, I.y1)) ∧ (x = C.x0 → orientation I.box C.box = -1) ∧
      (x = C.x1 → orientation I.box C.box = 1) := by
  subst hx0
  have d1 : (Itv.icc I.x0 I.x1).isDegenerated = true := by rw [isDegenerated_icc]; simp [hx1]
  have d2 : (Itv.icc I.y0 I.y1).isDegenerated = false := by rw [isDegenerated_icc]; simp [hy]
  have d3 : (Itv.icc C.x0 C.x1).isDegenerated = false := by rw [isDegenerated_icc]; simp [hC.1]
  have d4 : (Itv.icc C.y0 C.y1).isDegenerated = false := by rw [isDegenerated_icc]; simp [hC.2]
  refine ⟨?_, ?_, ?_, ?_⟩
  · simp [boxDim, RR.box, d1, d2]
  · simp only [faces, RR.box, d1, if_true]
    rw [Itv.icc_eq_mk hy.le]
    simp only [Itv.lb?, Itv.ub?, point_eq, vbox, hx1]
  · intro h
    simp only [orientation, RR.box, d1, d2, d3, d4, Bool.not_false, Bool.true_and]
    rw [Itv.icc_eq_mk hx1.ge, Itv.icc_eq_mk hC.1.le]
    simp [Itv.lb?, h]
  · intro h
    simp only [orientation, RR.box, d1, d2, d3, d4, Bool.not_false, Bool.true_and]
    rw [Itv.icc_eq_mk hx1.ge, Itv.icc_eq_mk hC.1.le]
    have : C.x1 ≠ C.x0 := hC.1.ne'
    simp [Itv.lb?, Itv.ub?, h, this]

theorem dEdge_not_wide {U C : RR} (hU : U.Pos) (hC : C.Pos) (h : ¬ U.Wide C) (g : ℝ × ℝ → Int) : dEdge g U C = 0 := by
  have key : ∀ {a b : ℝ}, (U.inter C).x0 = a → (U.inter C).x1 = a → ¬ (U.inter C).y0 < (U.inter C).y1 := fun ha hb hlt =>
    h ⟨⟨(ha.trans hb.symm).le, hlt.le⟩, Or.inr hlt⟩
  have key' : ∀ {a b : ℝ}, (U.inter C).y0 = a → (U.inter C).y1 = a → ¬ (U.inter C).x0 < (U.inter C).x1 := fun ha hb hlt =>
    h ⟨⟨hlt.le, (ha.trans hb.symm).le⟩, Or.inl hlt⟩
  unfold dEdge
  rw [if_neg, if_neg, if_neg, if_neg]
  · rfl
  · rintro ⟨h1, h2⟩
    exact key (b := 0) (Side.x_of' hU hC h1).1 (Side.x_of' hU hC h1).2 h2
  · rintro ⟨h1, h2⟩
    exact key (b := 0) (Side.x_of hU hC h1).1 (Side.x_of hU hC h1).2 h2
  · rintro ⟨h1, h2⟩
    exact key' (b := 0) (Side.y_of' hU hC h1).1 (Side.y_of' hU hC h1).2 h2
  · rintro ⟨h1, h2⟩
    exact key' (b := 0) (Side.y_of hU hC h1).1 (Side.y_of hU hC h1).2 h2

theorem Side.facts {U C : RR} {o : Int} (hU : U.Pos) (hC : C.Pos) (h : Side U C o) : SideFacts U C o := by
  cases h with
  | bottom h hx =>
    obtain ⟨y0, y1⟩ := Side.y_of hU hC h
    obtain ⟨f1, f2, f3, -⟩ := horiz (C := C) (I := U.inter C) hx y0 y1 hC
    refine ⟨f1, f3 rfl, f2, fun g => ?_⟩
    have n2 : ¬ (C.y1 = U.y0 ∧ max U.x0 C.x0 < min U.x1 C.x1) := fun hc => by have := hU.2; have := hC.2; linarith [hc.1]
    have n3 : ¬ (C.x0 = U.x1 ∧ max U.y0 C.y0 < min U.y1 C.y1) := fun hc => by
      have := (max_lt_iff.1 hx).2
      rw [lt_min_iff] at this
      linarith [this.1, hc.1]
    have n4 : ¬ (C.x1 = U.x0 ∧ max U.y0 C.y0 < min U.y1 C.y1) := fun hc => by
      have := (max_lt_iff.1 hx).1
      rw [lt_min_iff] at this
      linarith [this.2, hc.1]
    unfold dEdge
    rw [if_pos ⟨h, hx⟩, if_neg n2, if_neg n3, if_neg n4, hi, lo, y0, y1, h, one_mul]
    simp [RR.inter]
  | top h hx =>
    obtain ⟨y0, y1⟩ := Side.y_of' hU hC h
    obtain ⟨f1, f2, -, f4⟩ := horiz (C := C) (I := U.inter C) hx y0 y1 hC
    refine ⟨f1, f4 rfl, f2, fun g => ?_⟩
    have n2 : ¬ (C.y0 = U.y1 ∧ max U.x0 C.x0 < min U.x1 C.x1) := fun hc => by have := hU.2; have := hC.2; linarith [hc.1]
    have n3 : ¬ (C.x0 = U.x1 ∧ max U.y0 C.y0 < min U.y1 C.y1) := fun hc => by
      have := (max_lt_iff.1 hx).2
      rw [lt_min_iff] at this
      linarith [this.1, hc.1]
    have n4 : ¬ (C.x1 = U.x0 ∧ max U.y0 C.y0 < min U.y1 C.y1) := fun hc => by
      have := (max_lt_iff.1 hx).1
      rw [lt_min_iff] at this
      linarith [this.2, hc.1]
    unfold dEdge
    rw [if_pos (show C.y1 = U.y0 ∧ _ from ⟨h, hx⟩), if_neg n2, if_neg n3, if_neg n4, hi, lo, y0, y1, h]
    simp [RR.inter]
  | left h hy =>
    obtain ⟨x0, x1⟩ := Side.x_of hU hC h
    obtain ⟨f1, f2, f3, -⟩ := vert (C := C) (I := U.inter C) hy x0 x1 hC
    refine ⟨f1, f3 rfl, f2, fun g => ?_⟩
    have n2 : ¬ (C.x1 = U.x0 ∧ max U.y0 C.y0 < min U.y1 C.y1) := fun hc => by have := hU.1; have := hC.1; linarith [hc.1]
    have n3 : ¬ (C.y0 = U.y1 ∧ max U.x0 C.x0 < min U.x1 C.x1) := fun hc => by
      have := (max_lt_iff.1 hy).2
      rw [lt_min_iff] at this
      linarith [this.1, hc.1]
    have n4 : ¬ (C.y1 = U.y0 ∧ max U.x0 C.x0 < min U.x1 C.x1) := fun hc => by
      have := (max_lt_iff.1 hy).1
      rw [lt_min_iff] at this
      linarith [this.2, hc.1]
    unfold dEdge
    rw [if_pos (show C.x0 = U.x1 ∧ _ from ⟨h, hy⟩), if_neg n2, if_neg n3, if_neg n4, hi, lo, x0, x1, h]
    simp [RR.inter]
  | right h hy =>
    obtain ⟨x0, x1⟩ := Side.x_of' hU hC h
    obtain ⟨f1, f2, -, f4⟩ := vert (C := C) (I := U.inter C) hy x0 x1 hC
    refine ⟨f1, f4 rfl, f2, fun g => ?_⟩
    have n2 : ¬ (C.x0 = U.x1 ∧ max U.y0 C.y0 < min U.y1 C.y1) := fun hc => by have := hU.1; have := hC.1; linarith [hc.1]
    have n3 : ¬ (C.y0 = U.y1 ∧ max U.x0 C.x0 < min U.x1 C.x1) := fun hc => by
      have := (max_lt_iff.1 hy).2
      rw [lt_min_iff] at this
      linarith [this.1, hc.1]
    have n4 : ¬ (C.y1 = U.y0 ∧ max U.x0 C.x0 < min U.x1 C.x1) := fun hc => by
      have := (max_lt_iff.1 hy).1
      rw [lt_min_iff] at this
      linarith [this.2, hc.1]
    unfold dEdge
    rw [if_pos (show C.x1 = U.x0 ∧ _ from ⟨h, hy⟩), if_neg n2, if_neg n3, if_neg n4, hi, lo, x0, x1, h, one_mul]
    simp [RR.inter]

/-- the end of a side at a point, with its sign -/
noncomputable def eps (U C : RR) (o : Int) (v : ℝ × ℝ) : Int := o * ((if hi U C = v then 1 else 0) - (if lo U C = v then 1 else 0))

theorem eps_bottom {U C : RR} (hU : U.Pos) (hC : C.Pos) (h : C.y0 = U.y1) (hx : max U.x0 C.x0 < min U.x1 C.x1) {v : ℝ × ℝ}
    (hv : (U.inter C).Mem v) (o : Int) : v.2 = C.y0 ∧ (v.1 = min U.x1 C.x1 → eps U C o v = o) ∧ (v.1 = max U.x0 C.x0 → eps U C o v = -o) := by
  obtain ⟨y0, y1⟩ := Side.y_of hU hC h
  have e : v.2 = C.y0 := le_antisymm (hv.2.2.2.trans y1.le) (y0.ge.trans hv.2.2.1)
  refine ⟨e, fun e1 => ?_, fun e1 => ?_⟩
  · unfold eps
    rw [if_pos (Prod.ext e1.symm (y1.trans e.symm)), if_neg, sub_zero, mul_one]
    intro hc
    exact absurd ((congrArg Prod.fst hc).trans e1) hx.ne
  · unfold eps
    rw [if_pos (show lo U C = v from Prod.ext e1.symm (y0.trans e.symm)), if_neg]
    · ring
    · intro hc
      exact absurd ((congrArg Prod.fst hc).trans e1) hx.ne'

theorem eps_top {U C : RR} (hU : U.Pos) (hC : C.Pos) (h : C.y1 = U.y0) (hx : max U.x0 C.x0 < min U.x1 C.x1) {v : ℝ × ℝ}
    (hv : (U.inter C).Mem v) (o : Int) : v.2 = C.y1 ∧ (v.1 = min U.x1 C.x1 → eps U C o v = o) ∧ (v.1 = max U.x0 C.x0 → eps U C o v = -o) := by
  obtain ⟨y0, y1⟩ := Side.y_of' hU hC h
  have e : v.2 = C.y1 := le_antisymm (hv.2.2.2.trans y1.le) (y0.ge.trans hv.2.2.1)
  refine ⟨e, fun e1 => ?_, fun e1 => ?_⟩
  · unfold eps
    rw [if_pos (Prod.ext e1.symm (y1.trans e.symm)), if_neg, sub_zero, mul_one]
    intro hc
    exact absurd ((congrArg Prod.fst hc).trans e1) hx.ne
  · unfold eps
    rw [if_pos (show lo U C = v from Prod.ext e1.symm (y0.trans e.symm)), if_neg]
    · ring
    · intro hc
      exact absurd ((congrArg Prod.fst hc).trans e1) hx.ne'

theorem eps_left {U C : RR} (hU : U.Pos) (hC : C.Pos) (h : C.x0 = U.x1) (hy : max U.y0 C.y0 < min U.y1 C.y1) {v : ℝ × ℝ}
    (hv : (U.inter C).Mem v) (o : Int) : v.1 = C.x0 ∧ (v.2 = min U.y1 C.y1 → eps U C o v = o) ∧ (v.2 = max U.y0 C.y0 → eps U C o v = -o) := by
  obtain ⟨x0, x1⟩ := Side.x_of hU hC h
  have e : v.1 = C.x0 := le_antisymm (hv.2.1.trans x1.le) (x0.ge.trans hv.1)
  refine ⟨e, fun e1 => ?_, fun e1 => ?_⟩
  · unfold eps
    rw [if_pos (Prod.ext (x1.trans e.symm) e1.symm), if_neg, sub_zero, mul_one]
    intro hc
    exact absurd ((congrArg Prod.snd hc).trans e1) hy.ne
  · unfold eps
    rw [if_pos (show lo U C = v from Prod.ext (x0.trans e.symm) e1.symm), if_neg]
    · ring
    · intro hc
      exact absurd ((congrArg Prod.snd hc).trans e1) hy.ne'

theorem eps_right {U C : RR} (hU : U.Pos) (hC : C.Pos) (h : C.x1 = U.x0) (hy : max U.y0 C.y0 < min U.y1 C.y1) {v : ℝ × ℝ}
    (hv : (U.inter C).Mem v) (o : Int) : v.1 = C.x1 ∧ (v.2 = min U.y1 C.y1 → eps U C o v = o) ∧ (v.2 = max U.y0 C.y0 → eps U C o v = -o) := by
  obtain ⟨x0, x1⟩ := Side.x_of' hU hC h
  have e : v.1 = C.x1 := le_antisymm (hv.2.1.trans x1.le) (x0.ge.trans hv.1)
  refine ⟨e, fun e1 => ?_, fun e1 => ?_⟩
  · unfold eps
    rw [if_pos (Prod.ext (x1.trans e.symm) e1.symm), if_neg, sub_zero, mul_one]
    intro hc
    exact absurd ((congrArg Prod.snd hc).trans e1) hy.ne
  · unfold eps
    rw [if_pos (show lo U C = v from Prod.ext (x0.trans e.symm) e1.symm), if_neg]
    · ring
    · intro hc
      exact absurd ((congrArg Prod.snd hc).trans e1) hy.ne'

/-- two sides of the same rectangle with a common point: one ends there, the other one starts there -/
theorem eps_cancel {U U' C : RR} {o o' : Int} (hU : U.Pos) (hU' : U'.Pos) (hC : C.Pos) (hd : U.Disj U') (h : Side U C o) (h' : Side U' C o')
    {v : ℝ × ℝ} (hv : (U.inter C).Mem v) (hv' : (U'.inter C).Mem v) : eps U C o v + eps U' C o' v = 0 := by
  have m1 := mem_inter.1 hv
  have m2 := mem_inter.1 hv'
  obtain ⟨⟨a1, a2, a3, a4⟩, c1, c2, c3, c4⟩ := m1
  obtain ⟨b1, b2, b3, b4⟩ := m2.1
  -- two parts of the same horizontal or vertical side
  have xx : max U.x0 C.x0 < min U.x1 C.x1 → max U'.x0 C.x0 < min U'.x1 C.x1 → (U.x1 ≤ U'.x0 ∨ U'.x1 ≤ U.x0) →
      (v.1 = min U.x1 C.x1 ∧ v.1 = max U'.x0 C.x0) ∨ (v.1 = max U.x0 C.x0 ∧ v.1 = min U'.x1 C.x1) := by
    rintro _ _ (hh | hh)
    · exact Or.inl ⟨le_antisymm (le_min a2 c2) ((min_le_left _ _).trans (hh.trans b1)), le_antisymm (a2.trans (hh.trans (le_max_left _ _))) (max_le b1 c1)⟩
    · exact Or.inr ⟨le_antisymm (b2.trans (hh.trans (le_max_left _ _))) (max_le a1 c1), le_antisymm (le_min b2 c2) ((min_le_left _ _).trans (hh.trans a1))⟩
  have yy : max U.y0 C.y0 < min U.y1 C.y1 → max U'.y0 C.y0 < min U'.y1 C.y1 → (U.y1 ≤ U'.y0 ∨ U'.y1 ≤ U.y0) →
      (v.2 = min U.y1 C.y1 ∧ v.2 = max U'.y0 C.y0) ∨ (v.2 = max U.y0 C.y0 ∧ v.2 = min U'.y1 C.y1) := by
    rintro _ _ (hh | hh)
    · exact Or.inl ⟨le_antisymm (le_min a4 c4) ((min_le_left _ _).trans (hh.trans b3)), le_antisymm (a4.trans (hh.trans (le_max_left _ _))) (max_le b3 c3)⟩
    · exact Or.inr ⟨le_antisymm (b4.trans (hh.trans (le_max_left _ _))) (max_le a3 c3), le_antisymm (le_min b4 c4) ((min_le_left _ _).trans (hh.trans a3))⟩
  have p := hU.2
  have p' := hU'.2
  have q := hU.1
  have q' := hU'.1
  have pc := hC.1
  have pc' := hC.2
  cases h with
  | bottom h hx =>
    obtain ⟨e, s1, s2⟩ := eps_bottom hU hC h hx hv 1
    cases h' with
    | bottom h' hx' =>
      obtain ⟨e', t1, t2⟩ := eps_bottom hU' hC h' hx' hv' 1
      have hdx : U.x1 ≤ U'.x0 ∨ U'.x1 ≤ U.x0 := by
        rcases hd with k | k | k | k
        · exact Or.inl k
        · exact Or.inr k
        · exfalso; linarith
        · exfalso; linarith
      rcases xx hx hx' hdx with ⟨k1, k2⟩ | ⟨k1, k2⟩
      · rw [s1 k1, t2 k2]; rfl
      · rw [s2 k1, t1 k2]; rfl
    | top h' hx' =>
      obtain ⟨e', t1, t2⟩ := eps_top hU' hC h' hx' hv' (-1)
      exfalso; linarith
    | left h' hy' =>
      obtain ⟨e', t1, t2⟩ := eps_left hU' hC h' hy' hv' (-1)
      rw [s2 (le_antisymm (by rw [e']; exact le_max_right _ _) (max_le a1 c1)), t2 (le_antisymm (by rw [e]; exact le_max_right _ _) (max_le b3 c3))]
      rfl
    | right h' hy' =>
      obtain ⟨e', t1, t2⟩ := eps_right hU' hC h' hy' hv' 1
      rw [s1 (le_antisymm (le_min a2 c2) (by rw [e']; exact min_le_right _ _)), t2 (le_antisymm (by rw [e]; exact le_max_right _ _) (max_le b3 c3))]
      rfl
  | top h hx =>
    obtain ⟨e, s1, s2⟩ := eps_top hU hC h hx hv (-1)
    cases h' with
    | bottom h' hx' =>
      obtain ⟨e', t1, t2⟩ := eps_bottom hU' hC h' hx' hv' 1
      exfalso; linarith
    | top h' hx' =>
      obtain ⟨e', t1, t2⟩ := eps_top hU' hC h' hx' hv' (-1)
      have hdx : U.x1 ≤ U'.x0 ∨ U'.x1 ≤ U.x0 := by
        rcases hd with k | k | k | k
        · exact Or.inl k
        · exact Or.inr k
        · exfalso; linarith
        · exfalso; linarith
      rcases xx hx hx' hdx with ⟨k1, k2⟩ | ⟨k1, k2⟩
      · rw [s1 k1, t2 k2]; rfl
      · rw [s2 k1, t1 k2]; rfl
    | left h' hy' =>
      obtain ⟨e', t1, t2⟩ := eps_left hU' hC h' hy' hv' (-1)
      rw [s2 (le_antisymm (by rw [e']; exact le_max_right _ _) (max_le a1 c1)), t1 (le_antisymm (le_min b4 c4) (by rw [e]; exact min_le_right _ _))]
      rfl
    | right h' hy' =>
      obtain ⟨e', t1, t2⟩ := eps_right hU' hC h' hy' hv' 1
      rw [s1 (le_antisymm (le_min a2 c2) (by rw [e']; exact min_le_right _ _)), t1 (le_antisymm (le_min b4 c4) (by rw [e]; exact min_le_right _ _))]
      rfl
  | left h hy =>
    obtain ⟨e, s1, s2⟩ := eps_left hU hC h hy hv (-1)
    cases h' with
    | bottom h' hx' =>
      obtain ⟨e', t1, t2⟩ := eps_bottom hU' hC h' hx' hv' 1
      rw [s2 (le_antisymm (by rw [e']; exact le_max_right _ _) (max_le a3 c3)), t2 (le_antisymm (by rw [e]; exact le_max_right _ _) (max_le b1 c1))]
      rfl
    | top h' hx' =>
      obtain ⟨e', t1, t2⟩ := eps_top hU' hC h' hx' hv' (-1)
      rw [s1 (le_antisymm (le_min a4 c4) (by rw [e']; exact min_le_right _ _)), t2 (le_antisymm (by rw [e]; exact le_max_right _ _) (max_le b1 c1))]
      rfl
    | left h' hy' =>
      obtain ⟨e', t1, t2⟩ := eps_left hU' hC h' hy' hv' (-1)
      have hdy : U.y1 ≤ U'.y0 ∨ U'.y1 ≤ U.y0 := by
        rcases hd with k | k | k | k
        · exfalso; linarith
        · exfalso; linarith
        · exact Or.inl k
        · exact Or.inr k
      rcases yy hy hy' hdy with ⟨k1, k2⟩ | ⟨k1, k2⟩
      · rw [s1 k1, t2 k2]; rfl
      · rw [s2 k1, t1 k2]; rfl
    | right h' hy' =>
      obtain ⟨e', t1, t2⟩ := eps_right hU' hC h' hy' hv' 1
      exfalso; linarith
  | right h hy =>
    obtain ⟨e, s1, s2⟩ := eps_right hU hC h hy hv 1
    cases h' with
    | bottom h' hx' =>
      obtain ⟨e', t1, t2⟩ := eps_bottom hU' hC h' hx' hv' 1
      rw [s2 (le_antisymm (by rw [e']; exact le_max_right _ _) (max_le a3 c3)), t1 (le_antisymm (le_min b2 c2) (by rw [e]; exact min_le_right _ _))]
      rfl
    | top h' hx' =>
      obtain ⟨e', t1, t2⟩ := eps_top hU' hC h' hx' hv' (-1)
      rw [s1 (le_antisymm (le_min a4 c4) (by rw [e']; exact min_le_right _ _)), t1 (le_antisymm (le_min b2 c2) (by rw [e]; exact min_le_right _ _))]
      rfl
    | left h' hy' =>
      obtain ⟨e', t1, t2⟩ := eps_left hU' hC h' hy' hv' (-1)
      exfalso; linarith
    | right h' hy' =>
      obtain ⟨e', t1, t2⟩ := eps_right hU' hC h' hy' hv' 1
      have hdy : U.y1 ≤ U'.y0 ∨ U'.y1 ≤ U.y0 := by
        rcases hd with k | k | k | k
        · exfalso; linarith
        · exfalso; linarith
        · exact Or.inl k
        · exact Or.inr k
      rcases yy hy hy' hdy with ⟨k1, k2⟩ | ⟨k1, k2⟩
      · rw [s1 k1, t2 k2]; rfl
      · rw [s2 k1, t1 k2]; rfl

theorem intersects_vbox {I : RR} {v : ℝ × ℝ} : Box.intersects I.box (vbox v) = true ↔ I.Mem v := by
  unfold Box.intersects
  simp only [vbox, RR.box, Box.isEmpty, isEmpty_icc, lt_irrefl, decide_false, Bool.not_false, Bool.and_true, List.zipWith_cons_cons,
    List.zipWith_nil_left, List.all_cons, List.all_nil, id, Bool.and_eq_true, Itv.intersects_iff, Itv.mem_icc, RR.Mem, Bool.not_eq_true',
    decide_eq_false_iff_not, not_lt]
  constructor
  · rintro ⟨_, ⟨x, ⟨h1, h2⟩, h3, h4⟩, y, ⟨h5, h6⟩, h7, h8⟩
    obtain rfl := le_antisymm h3 h4
    obtain rfl := le_antisymm h7 h8
    exact ⟨h1, h2, h5, h6⟩
  · rintro ⟨h1, h2, h3, h4⟩
    exact ⟨h1.trans h2, ⟨v.1, ⟨h1, h2⟩, le_rfl, le_rfl⟩, v.2, ⟨h3, h4⟩, le_rfl, le_rfl⟩

end Deg
end Codac
