import Verif.Paving.SepPavingProofs

/-!
# `CtcHull` and `SepUnionBbox`

Models `/repo/src/unsupported/separators/codac_CtcHull.cpp` and `codac_SepUnionBbox.cpp`. The separators, the bisector and the
difference of boxes (IBEX) are parameters.
-/

set_option linter.unusedSectionVars false

namespace Codac
namespace HullCtc

open SPav

variable {K : Type*} [Field K] [LinearOrder K] [IsStrictOrderedRing K]

/-- the parts of the box that are proven to be inside are added to `x_inside`, codac_CtcHull.cpp:36-43 -/
def addInside (diff : Box K → Box K → List (Box K)) (X xin xi : Box K) : Box K :=
  if xin.isEmpty = true ∨ xin ≠ X then (diff X xin).foldl (fun a b => a.hull b) xi else xi

/-- the loop of `CtcHull::contract`, codac_CtcHull.cpp:29-52, with the list of boxes and `x_inside`; `fuel` bounds the number of
iterations -/
def loop (sep : Box K → Box K → Box K × Box K) (diff : Box K → Box K → List (Box K)) (bis : Box K → Box K × Box K) (eps : K) :
    Nat → List (Box K) → Box K → Option (Box K)
  | _, [], xi => some xi
  | 0, _ :: _, _ => none
  | fuel + 1, X :: q, xi =>
    if Box.isSubset X xi = true then loop sep diff bis eps fuel q xi
    else
      let xi1 := addInside diff X (sep X X).1 xi
      let Z := X.inter ((sep X X).1.inter (sep X X).2)
      if Z.isEmpty = true then loop sep diff bis eps fuel q xi1
      else if maxDiamGt eps Z = true then loop sep diff bis eps fuel (q ++ [(bis Z).1, (bis Z).2]) xi1
      else loop sep diff bis eps fuel q (xi1.hull Z)

/-- `CtcHull::contract`, codac_CtcHull.cpp:26-55 -/
def contract (sep : Box K → Box K → Box K × Box K) (diff : Box K → Box K → List (Box K)) (bis : Box K → Box K × Box K) (eps : K)
    (fuel : Nat) (B : Box K) : Option (Box K) :=
  (loop sep diff bis eps fuel [B] (Box.empty B.length)).map fun xi => B.inter xi

/-- one separator of the list in `SepUnionBbox::separate`, codac_SepUnionBbox.cpp:31-37: the state is `x_in` and `result_x_out` -/
def bboxStep (x savebox : Box K) (st : Box K × Box K) (e : (Box K → Box K → Box K × Box K) × Box K) : Box K × Box K :=
  if (x.inter e.2).isEmpty = true then st
  else
    let r := e.1 st.1 (savebox.inter st.1)
    (r.1, st.2.hull r.2)

/-- `SepUnionBbox::separate`, codac_SepUnionBbox.cpp:25-40, for the list of the separators and of their bounding boxes; `none` if the
assertion of line 26 fails -/
def unionBbox (L : List ((Box K → Box K → Box K × Box K) × Box K)) (xin xout : Box K) : Option (Box K × Box K) :=
  if xin = xout then some (L.foldl (bboxStep (xin.inter xout) xout) (xin, Box.empty xout.length)) else none

/-! ### Proofs -/

section Sound
variable {n : Nat} {S : List K → Prop} {s : Box K → Box K → Box K × Box K} {diff : Box K → Box K → List (Box K)}
  {bis : Box K → Box K × Box K} {eps : K}

theorem addInside_spec (hs : IsSep n S s) (hd : DiffOk n diff) {B X xi : Box K} (hX : X.length = n) (hXB : BoxLe X B) (hxi : BoxLe xi B) :
    BoxLe (addInside diff X (s X X).1 xi) B ∧ (∀ p, InBox p xi → InBox p (addInside diff X (s X X).1 xi)) ∧
      ∀ p, InBox p X → ¬ InBox p (s X X).1 → InBox p (addInside diff X (s X X).1 xi) := by
  have hle := hs.le_in X X hX hX
  unfold addInside
  by_cases hc : (s X X).1.isEmpty = true ∨ (s X X).1 ≠ X
  · rw [if_pos hc]
    obtain ⟨h1, h2, h3⟩ := foldl_hull (n := n) (diff X (s X X).1) (a := xi) (B := B) (by rw [hxi.length, ← hXB.length, hX]) hxi
      fun D hD => (hd.le X _ hX (.inl hle) D hD).trans hXB
    refine ⟨h1, h2, fun p hp hn => ?_⟩
    obtain ⟨D, hD, hpD⟩ := hd.cover X _ hX (.inl hle) p hp hn
    exact h3 D hD p hpD
  · rw [if_neg hc]
    push Not at hc
    exact ⟨hxi, fun p hp => hp, fun p hp hn => absurd (hc.2.symm ▸ hp) hn⟩

theorem rest_le (hs : IsSep n S s) {X : Box K} (hX : X.length = n) :
    BoxLe (X.inter ((s X X).1.inter (s X X).2)) X ∧ BoxLe (X.inter ((s X X).1.inter (s X X).2)) ((s X X).1.inter (s X X).2) := by
  have e1 := (hs.le_in X X hX hX).length
  have e2 := (hs.le_out X X hX hX).length
  have ll : (s X X).1.length = (s X X).2.length := e1.trans e2.symm
  have l3 : X.length = ((s X X).1.inter (s X X).2).length := by rw [Box.length_inter ll, e1]
  exact ⟨inter_le_left l3, inter_le_right l3⟩

theorem mem_rest (hs : IsSep n S s) {X : Box K} (hX : X.length = n) {p : List K} (hp : InBox p X) (h1 : InBox p (s X X).1) (h2 : InBox p (s X X).2) :
    InBox p (X.inter ((s X X).1.inter (s X X).2)) := by
  have e1 := (hs.le_in X X hX hX).length
  have e2 := (hs.le_out X X hX hX).length
  have ll : (s X X).1.length = (s X X).2.length := e1.trans e2.symm
  have l3 : X.length = ((s X X).1.inter (s X X).2).length := by rw [Box.length_inter ll, e1]
  exact (inBox_inter l3).2 ⟨hp, (inBox_inter ll).2 ⟨h1, h2⟩⟩

theorem loop_sound (hn : 0 < n) (hs : IsSep n S s) (hd : DiffOk n diff) (hb : IsBis bis) {B : Box K} (hB : B.length = n) {fuel : Nat}
    {q : List (Box K)} {xi R : Box K} (hq : ∀ X ∈ q, BoxLe X B) (hxi : BoxLe xi B) (h : loop s diff bis eps fuel q xi = some R) :
    BoxLe R B ∧ ∀ p, S p → (InBox p xi ∨ ∃ X ∈ q, InBox p X) → InBox p R := by
  induction fuel generalizing q xi with
  | zero =>
    cases q with
    | nil => simp only [loop, Option.some.injEq] at h; subst h; exact ⟨hxi, fun p _ hp => hp.elim id (by rintro ⟨_, h, _⟩; simp at h)⟩
    | cons X q => simp [loop] at h
  | succ fuel ih =>
    cases q with
    | nil => simp only [loop, Option.some.injEq] at h; subst h; exact ⟨hxi, fun p _ hp => hp.elim id (by rintro ⟨_, h, _⟩; simp at h)⟩
    | cons X q =>
      have hXB := hq X (by simp)
      have hq' : ∀ Y ∈ q, BoxLe Y B := fun Y hY => hq Y (List.mem_cons_of_mem _ hY)
      have hX : X.length = n := hXB.length.trans hB
      simp only [loop] at h
      by_cases hsub : Box.isSubset X xi = true
      · rw [if_pos hsub] at h
        obtain ⟨r1, r2⟩ := ih hq' hxi h
        refine ⟨r1, fun p hS hp => r2 p hS ?_⟩
        rcases hp with hp | ⟨Y, hY, hp⟩
        · exact .inl hp
        · rcases List.mem_cons.1 hY with rfl | hY
          · exact .inl (mem_of_isSubset (hXB.length.trans hxi.length.symm) hsub hp)
          · exact .inr ⟨Y, hY, hp⟩
      · rw [if_neg hsub] at h
        obtain ⟨a1, a2, a3⟩ := addInside_spec hs hd hX hXB hxi
        obtain ⟨z1, z2⟩ := rest_le hs hX
        have hZB := z1.trans hXB
        have key : ∀ p, S p → InBox p X → InBox p (addInside diff X (s X X).1 xi) ∨ InBox p (X.inter ((s X X).1.inter (s X X).2)) := by
          intro p hS hp
          by_cases hin : InBox p (s X X).1
          · exact .inr (mem_rest hs hX hp hin (hs.keeps_out X X p hX hX hp hp hS))
          · exact .inl (a3 p hp hin)
        by_cases hz : (X.inter ((s X X).1.inter (s X X).2)).isEmpty = true
        · rw [if_pos hz] at h
          obtain ⟨r1, r2⟩ := ih hq' a1 h
          refine ⟨r1, fun p hS hp => r2 p hS ?_⟩
          rcases hp with hp | ⟨Y, hY, hp⟩
          · exact .inl (a2 p hp)
          · rcases List.mem_cons.1 hY with rfl | hY
            · exact .inl ((key p hS hp).resolve_right (not_inBox_of_isEmpty hz))
            · exact .inr ⟨Y, hY, hp⟩
        · rw [if_neg hz] at h
          by_cases hw : maxDiamGt eps (X.inter ((s X X).1.inter (s X X).2)) = true
          · rw [if_pos hw] at h
            have hne := ne_nil_of_pos hn (hZB.length.trans hB)
            obtain ⟨r1, r2⟩ := ih (q := q ++ [(bis (X.inter ((s X X).1.inter (s X X).2))).1, (bis (X.inter ((s X X).1.inter (s X X).2))).2])
              (by
                intro Y hY
                simp only [List.mem_append, List.mem_cons, List.not_mem_nil, or_false] at hY
                rcases hY with hY | rfl | rfl
                · exact hq' Y hY
                · exact (hb.le₁ _ hne).trans hZB
                · exact (hb.le₂ _ hne).trans hZB) a1 h
            refine ⟨r1, fun p hS hp => r2 p hS ?_⟩
            rcases hp with hp | ⟨Y, hY, hp⟩
            · exact .inl (a2 p hp)
            · rcases List.mem_cons.1 hY with rfl | hY
              · rcases key p hS hp with hk | hk
                · exact .inl hk
                · rcases hb.cover _ p hne hk with hk | hk
                  · exact .inr ⟨_, by simp, hk⟩
                  · exact .inr ⟨_, by simp, hk⟩
              · exact .inr ⟨Y, by simp [hY], hp⟩
          · rw [if_neg hw] at h
            have hl := a1.length.trans hZB.length.symm
            obtain ⟨r1, r2⟩ := ih hq' (hull_le a1 hZB) h
            refine ⟨r1, fun p hS hp => r2 p hS ?_⟩
            rcases hp with hp | ⟨Y, hY, hp⟩
            · exact .inl (InBox.hull_left hl (a2 p hp))
            · rcases List.mem_cons.1 hY with rfl | hY
              · rcases key p hS hp with hk | hk
                · exact .inl (InBox.hull_left hl hk)
                · exact .inl (InBox.hull_right hl hk)
              · exact .inr ⟨Y, hY, hp⟩

/-! ### Termination -/

open Sivia in
theorem loop_some [Archimedean K] (hn : 0 < n) (hs : IsSep n S s) (hb : IsBis bis) {c : K} (hl : IsLargestFirst c bis) (hc0 : 0 ≤ c)
    (hc1 : c < 1) (he : 0 < eps) {B : Box K} (hB : B.length = n) (hbB : ∀ I ∈ B, I.isUnbounded = false) {fuel : Nat} {q : List (Box K)}
    {xi : Box K} (hq : ∀ X ∈ q, BoxLe X B) (hf : (q.map fun X => 2 ^ (boxRank c eps X + 1) - 1).sum ≤ fuel) :
    ∃ R, loop s diff bis eps fuel q xi = some R := by
  induction fuel generalizing q xi with
  | zero =>
    cases q with
    | nil => exact ⟨xi, by simp [loop]⟩
    | cons X q =>
      exfalso
      simp only [List.map_cons, List.sum_cons] at hf
      have : 2 ^ 1 ≤ 2 ^ (boxRank c eps X + 1) := Nat.pow_le_pow_right (by norm_num) (by omega)
      omega
  | succ fuel ih =>
    cases q with
    | nil => exact ⟨xi, by simp [loop]⟩
    | cons X q =>
      have hXB := hq X (by simp)
      have hq' : ∀ Y ∈ q, BoxLe Y B := fun Y hY => hq Y (List.mem_cons_of_mem _ hY)
      have hX : X.length = n := hXB.length.trans hB
      obtain ⟨z1, _⟩ := rest_le hs hX
      simp only [List.map_cons, List.sum_cons] at hf
      have h2 : 2 ^ 1 ≤ 2 ^ (boxRank c eps X + 1) := Nat.pow_le_pow_right (by norm_num) (by omega)
      have hf' : (q.map fun X => 2 ^ (boxRank c eps X + 1) - 1).sum ≤ fuel := by omega
      simp only [loop]
      split
      · exact ih hq' hf'
      · split
        · exact ih hq' hf'
        · split
          · rename_i hw
            have hm := maxDiamLt_false hw
            obtain ⟨m1, m2⟩ := boxRank_mono hc0 hc1 he z1 (boxRank_mono hc0 hc1 he hXB hbB).2
            obtain ⟨r1, r2⟩ := boxRank_bis hb hl hc0 hc1 he m2 hm
            have hZB := z1.trans hXB
            have hne := ne_nil_of_pos hn (hZB.length.trans hB)
            refine ih ?_ ?_
            · intro Y hY
              simp only [List.mem_append, List.mem_cons, List.not_mem_nil, or_false] at hY
              rcases hY with hY | rfl | rfl
              · exact hq' Y hY
              · exact (hb.le₁ _ hne).trans hZB
              · exact (hb.le₂ _ hne).trans hZB
            · generalize X.inter ((s X X).1.inter (s X X).2) = Z at *
              simp only [List.map_append, List.map_cons, List.map_nil, List.sum_append, List.sum_cons, List.sum_nil]
              have p1 : 2 ^ (boxRank c eps (bis Z).1 + 1) ≤ 2 ^ boxRank c eps X := Nat.pow_le_pow_right (by norm_num) (by omega)
              have p2 : 2 ^ (boxRank c eps (bis Z).2 + 1) ≤ 2 ^ boxRank c eps X := Nat.pow_le_pow_right (by norm_num) (by omega)
              rw [pow_succ] at hf h2
              omega
          · exact ih hq' hf'

end Sound

/-! ### Tightness -/

/-- two points are close -/
def Close (e : K) (v w : List K) : Prop := List.Forall₂ (fun a b => |a - b| ≤ e) v w

/-- what is used of `IntervalVector::diff` for a box that is not flat: the points of the pieces are limits of points of the difference -/
def DenseDiff (n : Nat) (diff : Box K → Box K → List (Box K)) : Prop :=
  ∀ X Y : Box K, X.length = n → Solid X → BoxLe Y X → (Y.isEmpty = true ∨ ∃ v, InBox v Y) → ∀ D ∈ diff X Y,
    (∃ v, InBox v D) ∧ ∀ v, InBox v D → ∀ e, 0 < e → ∃ w, InBox w X ∧ ¬ InBox w Y ∧ Close e v w

theorem mem_of_close {I : Itv K} {a : K} (h : ∀ e, 0 < e → ∃ b ∈ I, |a - b| ≤ e) : a ∈ I := by
  cases I with
  | empty => obtain ⟨b, hb, _⟩ := h 1 one_pos; exact hb.elim
  | mk lo hi p =>
    refine ⟨?_, ?_⟩
    · cases lo with
      | none => trivial
      | some l =>
        show l ≤ a
        refine le_of_forall_pos_le_add fun e he => ?_
        obtain ⟨b, hb, hab⟩ := h e he
        have h1 : l ≤ b := hb.1
        rw [abs_le] at hab
        linarith
    · cases hi with
      | none => trivial
      | some u =>
        show a ≤ u
        refine le_of_forall_pos_le_add fun e he => ?_
        obtain ⟨b, hb, hab⟩ := h e he
        have h1 : b ≤ u := hb.2
        rw [abs_le] at hab
        linarith

theorem inBox_of_close {Y : Box K} {v : List K} (h : ∀ e, 0 < e → ∃ w, InBox w Y ∧ Close e v w) : InBox v Y := by
  induction Y generalizing v with
  | nil =>
    obtain ⟨w, hw, hc⟩ := h 1 one_pos
    cases hw
    cases hc
    exact .nil
  | cons J Y ih =>
    cases v with
    | nil =>
      obtain ⟨w, hw, hc⟩ := h 1 one_pos
      cases hw
      cases hc
    | cons a v =>
      refine .cons (mem_of_close fun e he => ?_) (ih fun e he => ?_)
      · obtain ⟨w, hw, hc⟩ := h e he
        cases hw with
        | cons h1 h2 => cases hc with | cons c1 c2 => exact ⟨_, h1, c1⟩
      · obtain ⟨w, hw, hc⟩ := h e he
        cases hw with
        | cons h1 h2 => cases hc with | cons c1 c2 => exact ⟨_, h2, c2⟩

theorem boxLe_of_mem {D Y : Box K} (hl : D.length = Y.length) (hne : ∃ v, InBox v D) (h : ∀ v, InBox v D → InBox v Y) : BoxLe D Y := by
  have : Nonempty K := ⟨0⟩
  induction D generalizing Y with
  | nil =>
    cases Y with
    | nil => exact .nil
    | cons J Y => simp at hl
  | cons I D ih =>
    cases Y with
    | nil => simp at hl
    | cons J Y =>
      obtain ⟨v, hv⟩ := hne
      cases hv with
      | @cons a _ v _ h1 h2 =>
        refine .cons (Itv.le_iff.mpr fun b hb => ?_) (ih (by simpa using hl) ⟨v, h2⟩ fun w hw => ?_)
        · have := h (b :: v) (.cons hb h2)
          cases this with | cons g _ => exact g
        · have := h (a :: w) (.cons h1 hw)
          cases this with | cons _ g => exact g

theorem close_refl {e : K} (he : 0 < e) (v : List K) : Close e v v := List.forall₂_same.mpr fun _ _ => by simpa using he.le

/-- in an interval that is not a single point, near each of its points there is another one -/
theorem exists_near {I : Itv K} (hI : I.isDegenerated = false) {a : K} (ha : a ∈ I) {e : K} (he : 0 < e) : ∃ b ∈ I, b ≠ a ∧ |a - b| ≤ e := by
  have two : ∃ c ∈ I, c ≠ a := by
    cases I with
    | empty => exact ha.elim
    | mk lo hi p =>
      cases lo with
      | none =>
        refine ⟨a - 1, ⟨trivial, ?_⟩, by simp⟩
        cases hi with
        | none => trivial
        | some u => have h1 : a ≤ u := ha.2; show a - 1 ≤ u; linarith
      | some l =>
        cases hi with
        | none => have h1 : l ≤ a := ha.1; exact ⟨a + 1, ⟨(by show l ≤ a + 1; linarith), trivial⟩, by simp⟩
        | some u =>
          have p' : l ≤ u := p
          simp only [Itv.isDegenerated, decide_eq_false_iff_not] at hI
          by_cases h : a = l
          · exact ⟨u, ⟨p', le_refl u⟩, fun h' => hI (h.symm.trans h'.symm)⟩
          · exact ⟨l, ⟨le_refl l, p'⟩, fun h' => h h'.symm⟩
  obtain ⟨c, hc, hca⟩ := two
  have hpos : 0 < |c - a| := abs_pos.2 (sub_ne_zero.2 hca)
  -- the point at the fraction `t` of the segment from `a` to `c`
  set t := min 1 (e / |c - a|) with ht
  have ht0 : 0 < t := lt_min one_pos (div_pos he hpos)
  have ht1 : t ≤ 1 := min_le_left _ _
  refine ⟨a + t * (c - a), ?_, ?_, ?_⟩
  · rcases lt_or_gt_of_ne hca with h | h
    · exact Itv.mem_of_between hc ha (by nlinarith) (by nlinarith)
    · exact Itv.mem_of_between ha hc (by nlinarith) (by nlinarith)
  · intro h
    have : t * (c - a) = 0 := by linarith
    rcases mul_eq_zero.1 this with h | h
    · exact ht0.ne' h
    · exact hca (by linarith)
  · have : |a - (a + t * (c - a))| = t * |c - a| := by
      rw [show a - (a + t * (c - a)) = -(t * (c - a)) by ring, abs_neg, abs_mul, abs_of_pos ht0]
    rw [this]
    calc t * |c - a| ≤ e / |c - a| * |c - a| := mul_le_mul_of_nonneg_right (min_le_right _ _) hpos.le
      _ = e := div_mul_cancel₀ _ hpos.ne'

theorem diffItv_dense {I J D : Itv K} (hI : I.isDegenerated = false) (hD : D ∈ I.diffItv J) :
    D.isDegenerated = false ∧ ∀ a ∈ D, ∀ e, 0 < e → ∃ b ∈ I, ¬ b ∈ J ∧ |a - b| ≤ e := by
  by_cases hJ : J.isDegenerated = true
  · unfold Itv.diffItv at hD
    rw [if_pos hJ] at hD
    simp only [List.mem_cons, List.not_mem_nil, or_false] at hD
    subst hD
    refine ⟨hI, fun a ha e he => ?_⟩
    by_cases haJ : a ∈ J
    · obtain ⟨b, hb, hba, hc⟩ := exists_near hI ha he
      refine ⟨b, hb, fun hbJ => ?_, hc⟩
      rcases lt_or_gt_of_ne hba with h | h
      · rw [not_degenerated_of_two hbJ haJ h] at hJ; simp at hJ
      · rw [not_degenerated_of_two haJ hbJ h] at hJ; simp at hJ
    · exact ⟨a, ha, haJ, by simpa using he.le⟩
  · have hle := diffItv_le hD
    have hDd : D.isDegenerated = false := by
      unfold Itv.diffItv at hD
      rw [if_neg hJ, List.mem_filter] at hD
      simpa using hD.2
    refine ⟨hDd, fun a ha e he => ?_⟩
    by_cases haJ : a ∈ J
    · obtain ⟨b, hb, hba, hc⟩ := exists_near hDd ha he
      refine ⟨b, Itv.mem_of_le hle hb, fun hbJ => ?_, hc⟩
      unfold Itv.diffItv at hD
      rw [if_neg hJ, List.mem_filter] at hD
      have hD := hD.1
      simp only [List.mem_cons, List.not_mem_nil, or_false] at hD
      cases J with
      | empty => exact haJ.elim
      | mk lo hi p =>
        rcases hD with rfl | rfl
        · cases lo with
          | none => exact (Itv.mem_inf.1 ha).2.elim
          | some l =>
            have e1 : a ≤ l := mem_ofBounds_below.1 (Itv.mem_inf.1 ha).2
            have e2 : b ≤ l := mem_ofBounds_below.1 (Itv.mem_inf.1 hb).2
            have e3 : l ≤ a := haJ.1
            have e4 : l ≤ b := hbJ.1
            exact hba (le_antisymm (e2.trans e3) (e1.trans e4))
        · cases hi with
          | none => exact (Itv.mem_inf.1 ha).2.elim
          | some l =>
            have e1 : l ≤ a := mem_ofBounds_above.1 (Itv.mem_inf.1 ha).2
            have e2 : l ≤ b := mem_ofBounds_above.1 (Itv.mem_inf.1 hb).2
            have e3 : a ≤ l := haJ.2
            have e4 : b ≤ l := hbJ.2
            exact hba (le_antisymm (e4.trans e1) (e3.trans e2))
    · exact ⟨a, Itv.mem_of_le hle ha, haJ, by simpa using he.le⟩

theorem exists_of_solid {X : Box K} (h : Solid X) : ∃ v, InBox v X := ⟨_, (midBox_interior h).inBox⟩

theorem diffPieces_dense {X Y : Box K} (hX : Solid X) (hY : ∃ v, InBox v Y) (hle : BoxLe Y X) {D : Box K} (hD : D ∈ diffPieces X Y) :
    (∃ v, InBox v D) ∧ ∀ v, InBox v D → ∀ e, 0 < e → ∃ w, InBox w X ∧ ¬ InBox w Y ∧ Close e v w := by
  induction X generalizing Y D with
  | nil => simp [diffPieces] at hD
  | cons I X ih =>
    cases Y with
    | nil => simp [diffPieces] at hD
    | cons J Y =>
      cases hle with
      | cons hl1 hl2 =>
      obtain ⟨y, hy⟩ := hY
      cases hy with
      | @cons y0 _ y _ hy1 hy2 =>
      simp only [diffPieces, List.mem_append, List.mem_map] at hD
      rcases hD with ⟨E, hE, rfl⟩ | ⟨E, hE, rfl⟩
      · obtain ⟨d1, d2⟩ := diffItv_dense hX.tail.1 hE
        refine ⟨exists_of_solid (X := E :: X) ?_, fun v hv e he => ?_⟩
        · have h2 := hX.tail.2
          unfold Solid at h2 ⊢
          simp [d1, h2]
        · cases hv with
          | cons h1 h2 =>
            obtain ⟨b, hb, hbJ, hc⟩ := d2 _ h1 e he
            refine ⟨b :: _, .cons hb h2, fun h => ?_, .cons hc (close_refl he _)⟩
            cases h with | cons g _ => exact hbJ g
      · obtain ⟨⟨v0, hv0⟩, d⟩ := ih hX.tail.2 ⟨y, hy2⟩ hl2 hE
        refine ⟨⟨y0 :: v0, .cons hy1 hv0⟩, fun v hv e he => ?_⟩
        cases hv with
        | @cons a _ v _ h1 h2 =>
          obtain ⟨w, hw, hwY, hc⟩ := d v h2 e he
          refine ⟨a :: w, .cons (Itv.mem_of_le hl1 h1) hw, fun h => ?_, .cons (by simpa using he.le) hc⟩
          cases h with | cons _ g => exact hwY g

theorem boxDiff_dense (n : Nat) : DenseDiff n (boxDiff (K := K)) := by
  intro X Y _ hX hle hY D hD
  unfold boxDiff at hD
  by_cases he : Y.isEmpty = true
  · rw [if_pos he] at hD
    simp only [List.mem_cons, List.not_mem_nil, or_false] at hD
    subst hD
    exact ⟨exists_of_solid hX, fun v hv e he' => ⟨v, hv, not_inBox_of_isEmpty he, close_refl he' v⟩⟩
  · rw [if_neg he] at hD
    exact diffPieces_dense hX (hY.resolve_left he) hle hD

theorem inter_point {X Y : Box K} (hl : X.length = Y.length) (h : (X.inter Y).isEmpty ≠ true) : ∃ v, InBox v (X.inter Y) := by
  apply exists_inBox
  unfold Box.inter at h ⊢
  by_cases h1 : (X.isEmpty || Y.isEmpty) = true
  · rw [if_pos h1] at h ⊢
    cases X with
    | nil => simp [Box.setEmpty, Box.empty]
    | cons I X => exact absurd rfl h
  · rw [if_neg h1] at h ⊢
    by_cases h2 : (List.zipWith (· ⊓ ·) X Y).any Itv.isEmpty = true
    · rw [if_pos h2] at h ⊢
      cases X with
      | nil => simp [Box.setEmpty, Box.empty]
      | cons I X => exact absurd rfl h
    · rw [if_neg h2] at h ⊢
      intro I hI hb
      exact h2 (List.any_eq_true.2 ⟨I, hI, by rw [hb]; rfl⟩)

section Tight
variable {n : Nat} {S : List K → Prop} {s : Box K → Box K → Box K × Box K} {diff : Box K → Box K → List (Box K)}
  {bis : Box K → Box K × Box K} {eps : K}

theorem foldl_leOr {Y : Box K} (L : List (Box K)) {a : Box K} (ha : LeOr a Y) (hL : ∀ D ∈ L, LeOr D Y) :
    LeOr (L.foldl (fun a b : Box K => a.hull b) a) Y := by
  induction L generalizing a with
  | nil => exact ha
  | cons D L ih => exact ih (ha.hull (hL D (by simp))) fun E hE => hL E (List.mem_cons_of_mem _ hE)

/-- what remains of a box after the separator -/
def rest (s : Box K → Box K → Box K × Box K) (X : Box K) : Box K := X.inter ((s X X).1.inter (s X X).2)

theorem loop_tight (hn : 0 < n) (hs : IsSep n S s) (hdd : DenseDiff n diff) (hd : DiffOk n diff) (hb : IsBis bis)
    (hbs : ∀ X, Solid X → Solid (bis X).1 ∧ Solid (bis X).2) (hnorm : ∀ X, X.length = n → (s X X).1.isEmpty = true ∨ ∃ v, InBox v (s X X).1)
    {B : Box K} (hB : B.length = n) (hflat : ∀ X, BoxLe X B → Solid X → (rest s X).isEmpty ≠ true → maxDiamGt eps (rest s X) = true → Solid (rest s X))
    {Y : Box K} (hY : Y.length = n) (hS : ∀ v, InBox v B → S v → InBox v Y)
    (hU : ∀ X, BoxLe X B → maxDiamGt eps (rest s X) = false → ∀ v, InBox v (rest s X) → InBox v Y) {fuel : Nat} {q : List (Box K)}
    {xi R : Box K} (hq : ∀ X ∈ q, BoxLe X B ∧ Solid X) (hxi : LeOr xi Y) (h : loop s diff bis eps fuel q xi = some R) : LeOr R Y := by
  induction fuel generalizing q xi with
  | zero =>
    cases q with
    | nil => simp only [loop, Option.some.injEq] at h; subst h; exact hxi
    | cons X q => simp [loop] at h
  | succ fuel ih =>
    cases q with
    | nil => simp only [loop, Option.some.injEq] at h; subst h; exact hxi
    | cons X q =>
      obtain ⟨hXB, hXs⟩ := hq X (by simp)
      have hq' : ∀ Y ∈ q, BoxLe Y B ∧ Solid Y := fun Y hY => hq Y (List.mem_cons_of_mem _ hY)
      have hX : X.length = n := hXB.length.trans hB
      have hle := hs.le_in X X hX hX
      have hlen := hle.length
      have hlen2 := (hs.le_out X X hX hX).length
      have ha : LeOr (addInside diff X (s X X).1 xi) Y := by
        unfold addInside
        by_cases hc : (s X X).1.isEmpty = true ∨ (s X X).1 ≠ X
        · rw [if_pos hc]
          refine foldl_leOr _ hxi fun D hD => .inl ?_
          obtain ⟨g1, g2⟩ := hdd X _ hX hXs hle (hnorm X hX) D hD
          refine boxLe_of_mem ?_ g1 fun v hv => inBox_of_close fun e he => ?_
          · rw [(hd.le X _ hX (.inl hle) D hD).length, hX, hY]
          · obtain ⟨w, w1, w2, w3⟩ := g2 v hv e he
            refine ⟨w, hS w (w1.of_le hXB) ?_, w3⟩
            by_contra hw
            exact w2 (hs.keeps_in X X w hX hX w1 w1 hw)
        · rw [if_neg hc]; exact hxi
      have ll : (s X X).1.length = (s X X).2.length := hlen.trans hlen2.symm
      have l3 : X.length = ((s X X).1.inter (s X X).2).length := by rw [Box.length_inter ll, hlen]
      simp only [loop] at h
      by_cases hsub : Box.isSubset X xi = true
      · rw [if_pos hsub] at h; exact ih hq' hxi h
      · rw [if_neg hsub] at h
        by_cases hz : (X.inter ((s X X).1.inter (s X X).2)).isEmpty = true
        · rw [if_pos hz] at h; exact ih hq' ha h
        · rw [if_neg hz] at h
          by_cases hw : maxDiamGt eps (X.inter ((s X X).1.inter (s X X).2)) = true
          · rw [if_pos hw] at h
            have hZs := hflat X hXB hXs hz hw
            obtain ⟨b1, b2⟩ := hbs _ hZs
            have hZB := (rest_le hs hX).1.trans hXB
            have hne := ne_nil_of_pos hn (hZB.length.trans hB)
            refine ih (fun E hE => ?_) ha h
            simp only [List.mem_append, List.mem_cons, List.not_mem_nil, or_false] at hE
            rcases hE with hE | rfl | rfl
            · exact hq' E hE
            · exact ⟨(hb.le₁ _ hne).trans hZB, b1⟩
            · exact ⟨(hb.le₂ _ hne).trans hZB, b2⟩
          · rw [if_neg hw] at h
            refine ih hq' (ha.hull (.inl (boxLe_of_mem ?_ (inter_point l3 hz) (hU X hXB (by unfold rest; simpa using hw))))) h
            rw [(rest_le hs hX).1.length, hX, hY]

end Tight

theorem below_solid {ratio : K} (h0 : 0 < ratio) (h1 : ratio < 1) {I : Itv K} (hI : I.isDegenerated = false) :
    (I.below (I.cut ratio)).isDegenerated = false ∧ (I.above (I.cut ratio)).isDegenerated = false := by
  have mk : ∀ (a b : K) (m : K), a ∈ I → b ∈ I → a < m → m < b → m ∈ I →
      (I.below m).isDegenerated = false ∧ (I.above m).isDegenerated = false := fun a b m ha hb h1 h2 hm =>
    ⟨not_degenerated_of_two (Itv.mem_inf.2 ⟨ha, mem_ofBounds_below.2 h1.le⟩) (Itv.mem_inf.2 ⟨hm, mem_ofBounds_below.2 le_rfl⟩) h1,
      not_degenerated_of_two (Itv.mem_inf.2 ⟨hm, mem_ofBounds_above.2 le_rfl⟩) (Itv.mem_inf.2 ⟨hb, mem_ofBounds_above.2 h2.le⟩) h2⟩
  cases I with
  | empty => simp [Itv.isDegenerated] at hI
  | mk lo hi p =>
    cases lo with
    | none =>
      cases hi with
      | none => exact mk (-1) 1 0 ⟨trivial, trivial⟩ ⟨trivial, trivial⟩ (by linarith) (by linarith) ⟨trivial, trivial⟩
      | some u =>
        refine mk (u - 2) u (u - 1) ⟨trivial, ?_⟩ ⟨trivial, le_refl u⟩ (by linarith) (by linarith) ⟨trivial, ?_⟩
        · show u - 2 ≤ u; linarith
        · show u - 1 ≤ u; linarith
    | some l =>
      cases hi with
      | none =>
        refine mk l (l + 2) (l + 1) ⟨le_refl l, trivial⟩ ⟨?_, trivial⟩ (by linarith) (by linarith) ⟨?_, trivial⟩
        · show l ≤ l + 2; linarith
        · show l ≤ l + 1; linarith
      | some u =>
        simp only [Itv.isDegenerated, decide_eq_false_iff_not] at hI
        have p' : l ≤ u := p
        have hlt : l < u := lt_of_le_of_ne p' hI
        refine mk l u (l + ratio * (u - l)) ⟨le_refl l, p'⟩ ⟨p', le_refl u⟩ (by nlinarith) (by nlinarith) ⟨?_, ?_⟩
        · show l ≤ l + ratio * (u - l); nlinarith
        · show l + ratio * (u - l) ≤ u; nlinarith

theorem solid_set {X : Box K} (h : Solid X) (i : Nat) {I : Itv K} (hI : I.isDegenerated = false) : Solid (X.set i I) := by
  induction X generalizing i with
  | nil => exact h
  | cons J X ih =>
    cases i with
    | zero => have := h.tail.2; unfold Solid at *; simp [hI, this]
    | succ i => have h1 := h.tail.1; have := ih h.tail.2 i; unfold Solid at *; simp [h1, this]

theorem largestFirst_solid {ratio : K} (h0 : 0 < ratio) (h1 : ratio < 1) (X : Box K) (hX : Solid X) :
    Solid (largestFirst ratio X).1 ∧ Solid (largestFirst ratio X).2 := by
  by_cases hne : X = []
  · subst hne; exact ⟨hX, hX⟩
  · have hi := largestIdx_lt hne
    have hI : (X.getD (largestIdx X) ⊥).isDegenerated = false := by
      unfold Solid at hX
      rw [List.any_eq_false] at hX
      have := hX (X.getD (largestIdx X) ⊥) (by
        rw [List.getD_eq_getElem?_getD, List.getElem?_eq_getElem hi]; exact List.getElem_mem hi)
      simpa using this
    obtain ⟨a, b⟩ := below_solid h0 h1 hI
    exact ⟨solid_set hX _ a, solid_set hX _ b⟩

/-! ### Inflation -/

/-- an interval and the numbers at most at `e` from it -/
def inflate (e : K) (he : 0 ≤ e) : Itv K → Itv K
  | .empty => ⊥
  | .mk lo hi p => .mk (lo.map (· - e)) (hi.map (· + e)) (by
      cases lo with
      | none => trivial
      | some l => cases hi with
        | none => trivial
        | some u => have p' : l ≤ u := p; show l - e ≤ u + e; linarith)

theorem mem_inflate {e : K} (he : 0 ≤ e) {I : Itv K} {a : K} : a ∈ inflate e he I ↔ ∃ b ∈ I, |a - b| ≤ e := by
  cases I with
  | empty => exact ⟨fun h => h.elim, fun ⟨b, hb, _⟩ => hb.elim⟩
  | mk lo hi p =>
    constructor
    · rintro ⟨h1, h2⟩
      cases lo with
      | none =>
        cases hi with
        | none => exact ⟨a, ⟨trivial, trivial⟩, by simpa using he⟩
        | some u =>
          have h2 : a ≤ u + e := h2
          refine ⟨min a u, ⟨trivial, min_le_right a u⟩, ?_⟩
          rcases le_total a u with h | h
          · rw [min_eq_left h]; simpa using he
          · rw [min_eq_right h, abs_le]; constructor <;> linarith
      | some l =>
        have h1 : l - e ≤ a := h1
        cases hi with
        | none =>
          refine ⟨max a l, ⟨le_max_right a l, trivial⟩, ?_⟩
          rcases le_total a l with h | h
          · rw [max_eq_right h, abs_le]; constructor <;> linarith
          · rw [max_eq_left h]; simpa using he
        | some u =>
          have h2 : a ≤ u + e := h2
          have p' : l ≤ u := p
          rcases le_total a l with h | h
          · exact ⟨l, ⟨le_refl l, p'⟩, by rw [abs_le]; constructor <;> linarith⟩
          · rcases le_total a u with h' | h'
            · exact ⟨a, ⟨h, h'⟩, by simpa using he⟩
            · exact ⟨u, ⟨p', le_refl u⟩, by rw [abs_le]; constructor <;> linarith⟩
    · rintro ⟨b, hb, hab⟩
      rw [abs_le] at hab
      refine ⟨?_, ?_⟩
      · cases lo with
        | none => trivial
        | some l => have h1 : l ≤ b := hb.1; show l - e ≤ a; linarith
      · cases hi with
        | none => trivial
        | some u => have h1 : b ≤ u := hb.2; show a ≤ u + e; linarith

theorem inBox_inflate {e : K} (he : 0 ≤ e) {Y : Box K} {v : List K} : InBox v (Y.map (inflate e he)) ↔ ∃ w, InBox w Y ∧ Close e v w := by
  induction Y generalizing v with
  | nil =>
    constructor
    · intro h; cases h; exact ⟨[], .nil, .nil⟩
    · rintro ⟨w, hw, hc⟩; cases hw; cases hc; exact .nil
  | cons J Y ih =>
    constructor
    · intro h
      cases h with
      | cons h1 h2 =>
        obtain ⟨b, hb, hab⟩ := (mem_inflate he).1 h1
        obtain ⟨w, hw, hc⟩ := ih.1 h2
        exact ⟨b :: w, .cons hb hw, .cons hab hc⟩
    · rintro ⟨w, hw, hc⟩
      cases hw with
      | cons h1 h2 =>
        cases hc with
        | cons c1 c2 => exact .cons ((mem_inflate he).2 ⟨_, h1, c1⟩) (ih.2 ⟨_, h2, c2⟩)

/-! ### Unions -/

theorem bboxFold {n : Nat} {X x : Box K} (hX : X.length = n) (hx : x.length = n) (hXx : ∀ v, InBox v X → InBox v x)
    {L : List ((Box K → Box K → Box K × Box K) × Box K)} {T : List (List K → Prop)}
    (hL : List.Forall₂ (fun e S => IsSep n S e.1 ∧ e.2.length = n ∧ ∀ v, v.length = n → S v → InBox v e.2) L T) {st : Box K × Box K}
    (h1 : BoxLe st.1 X) (h2 : BoxLe st.2 X) :
    let r := L.foldl (bboxStep x X) st
    BoxLe r.1 X ∧ BoxLe r.2 X ∧ (∀ v, InBox v st.1 → (∀ S ∈ T, ¬ S v) → InBox v r.1) ∧
      (∀ v, InBox v st.2 ∨ (InBox v st.1 ∧ ∃ S ∈ T, S v) → InBox v r.2) := by
  induction hL generalizing st with
  | nil =>
    refine ⟨h1, h2, fun v hv _ => hv, fun v hv => hv.elim id ?_⟩
    rintro ⟨_, S, hS, _⟩; simp at hS
  | @cons e S L T he _ ih =>
    obtain ⟨hs, hel, hbb⟩ := he
    simp only [List.foldl_cons]
    by_cases hdis : (x.inter e.2).isEmpty = true
    · have est : bboxStep x X st e = st := by unfold bboxStep; rw [if_pos hdis]
      rw [est]
      obtain ⟨r1, r2, r3, r4⟩ := ih h1 h2
      refine ⟨r1, r2, fun v hv hn => r3 v hv fun S' hS' => hn S' (List.mem_cons_of_mem _ hS'), fun v hv => r4 v ?_⟩
      rcases hv with hv | ⟨hv, S', hS', hSv⟩
      · exact .inl hv
      · rcases List.mem_cons.1 hS' with rfl | hS'
        · exact absurd ((inBox_inter (hx.trans hel.symm)).2 ⟨hXx v (hv.of_le h1), hbb v ((hv.of_le h1).length.trans hX) hSv⟩) (not_inBox_of_isEmpty hdis)
        · exact .inr ⟨hv, S', hS', hSv⟩
    · have est : bboxStep x X st e = ((e.1 st.1 (X.inter st.1)).1, st.2.hull (e.1 st.1 (X.inter st.1)).2) := by
        unfold bboxStep; rw [if_neg hdis]
      rw [est]
      have l1 : st.1.length = n := h1.length.trans hX
      have l2 : (X.inter st.1).length = n := by rw [Box.length_inter (hX.trans l1.symm), hX]
      have e1 := hs.le_in st.1 _ l1 l2
      have e2 := (hs.le_out st.1 _ l1 l2).trans (inter_le_left (hX.trans l1.symm))
      have lh : st.2.length = (e.1 st.1 (X.inter st.1)).2.length := by rw [h2.length, e2.length]
      obtain ⟨r1, r2, r3, r4⟩ := ih (st := ((e.1 st.1 (X.inter st.1)).1, st.2.hull (e.1 st.1 (X.inter st.1)).2)) (e1.trans h1) (hull_le h2 e2)
      have hin : ∀ v, InBox v st.1 → InBox v (X.inter st.1) := fun v hv => (inBox_inter (hX.trans l1.symm)).2 ⟨hv.of_le h1, hv⟩
      refine ⟨r1, r2, fun v hv hn => r3 v (hs.keeps_in _ _ v l1 l2 hv (hin v hv) (hn S (by simp))) fun S' hS' => hn S' (List.mem_cons_of_mem _ hS'),
        fun v hv => r4 v ?_⟩
      rcases hv with hv | ⟨hv, S', hS', hSv⟩
      · exact .inl (InBox.hull_left lh hv)
      · by_cases hSv' : S v
        · exact .inl (InBox.hull_right lh (hs.keeps_out _ _ v l1 l2 hv (hin v hv) hSv'))
        · rcases List.mem_cons.1 hS' with rfl | hS'
          · exact absurd hSv hSv'
          · exact .inr ⟨hs.keeps_in _ _ v l1 l2 hv (hin v hv) hSv', S', hS', hSv⟩

end HullCtc
end Codac
