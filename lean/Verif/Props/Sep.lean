import Verif.Ctc.Sep
import Mathlib.Algebra.Order.Field.Rat

/-!
# Separators: C35

`IsSep n S s`: a point in the two boxes is removed from `x_in` only when it is in `S`, from `x_out` only when it is not in `S` (so that no
point is removed from both), and the results are inside the boxes.
-/

set_option linter.unusedSectionVars false

namespace Codac.Props

variable {K : Type*} [LinearOrder K]

/-- C35: with a sound separator no point of the two boxes is lost -/
theorem C35_complementary (n : Nat) (S : List K → Prop) (s : Box K → Box K → Box K × Box K) (hs : IsSep n S s) (X : Box K)
    (hX : X.length = n) (v : List K) (hv : InBox v X) : InBox v (s X X).1 ∨ InBox v (s X X).2 := by
  by_cases h : S v
  · exact .inr (hs.keeps_out X X v hX hX hv hv h)
  · exact .inl (hs.keeps_in X X v hX hX hv hv h)

/-- C35, `SepBox`: a separator for the box -/
theorem C35_sep_box (b : Box K) (hb : ∀ c ∈ b, c ≠ ⊥) : IsSep b.length (fun v => InBox v b) (sepBox b) where
  le_in := fun X Y hX _ => inter_le_left (by rw [sepBox_fold_length _ (by simp)])
  le_out := fun X Y _ hY => inter_le_left hY
  keeps_in := by
    intro X Y v hX hY hv hv' hS
    refine (inBox_inter (by rw [sepBox_fold_length _ (by simp)])).mpr ⟨hv, ?_⟩
    refine sepBox_fold_keeps hX.symm hb hv _ (by simp) (.inr ?_)
    obtain ⟨k, h1, h2⟩ := exists_not_mem (by rw [hv.length, hX]) hS
    exact ⟨k, by simpa [hX] using h1, h2⟩
  keeps_out := fun X Y v _ hY _ hv' hS => (inBox_inter hY).mpr ⟨hv', hS⟩

/-- C35, `SepBox` is exact on the outer side: the points of `x_out` which are kept are those of the box -/
theorem C35_sep_box_out_exact (b X Y : Box K) (hY : Y.length = b.length) (v : List K) :
    InBox v (sepBox b X Y).2 ↔ InBox v Y ∧ InBox v b := inBox_inter hY

/-- C35, `SepTransform`: a separator for the points sent in the set by `f`, when `ffwd` and `fbwd` enclose `f` and an inverse `g` of `f`,
and the backward operator of IBEX keeps the points of a box which are sent in the other -/
theorem C35_sep_transform (n m : Nat) (S : List K → Prop) (s : Box K → Box K → Box K × Box K) (hs : IsSep m S s)
    (f g : List K → List K) (hgf : ∀ v, v.length = n → g (f v) = v) (ffwd fbwd : Box K → Box K) (bwd : Box K → Box K → Box K)
    (hf : ∀ X v, InBox v X → InBox (f v) (ffwd X)) (hfl : ∀ X, X.length = n → (ffwd X).length = m)
    (hg : ∀ Y w, InBox w Y → InBox (g w) (fbwd Y)) (hgl : ∀ Y, Y.length = m → (fbwd Y).length = n)
    (hbl : ∀ Y X, BoxLe (bwd Y X) X) (hbk : ∀ Y X v, InBox v X → InBox (f v) Y → InBox v (bwd Y X)) :
    IsSep n (fun v => S (f v)) (sepTransform s ffwd fbwd bwd) := by
  have hlen : ∀ X Y : Box K, X.length = n → Y.length = n → (X.inter Y).length = n :=
    fun X Y hX hY => by rw [Box.length_inter (by omega), hX]
  constructor
  · intro X Y hX hY
    have hl := hlen X Y hX hY
    have h1 := (hs.length (hfl _ hl) (hfl _ hl)).1
    have h0 : BoxLe (X.inter Y) X := inter_le_left (by omega)
    unfold sepTransform
    dsimp only
    split
    · exact (setEmpty_le _).trans h0
    · exact ((hbl _ _).trans (inter_le_left (by rw [hl, hgl _ h1]))).trans h0
  · intro X Y hX hY
    have hl := hlen X Y hX hY
    have h1 := (hs.length (hfl _ hl) (hfl _ hl)).2
    unfold sepTransform
    dsimp only
    split
    · exact setEmpty_le _
    · exact (hbl _ _).trans (inter_le_left (by rw [hY, hgl _ h1]))
  · intro X Y v hX hY hv hv' hS
    have hl := hlen X Y hX hY
    have h1 := (hs.length (hfl _ hl) (hfl _ hl)).1
    have hvx : InBox v (Box.inter X Y) := (inBox_inter (by omega)).mpr ⟨hv, hv'⟩
    have hy := hs.keeps_in _ _ _ (hfl _ hl) (hfl _ hl) (hf _ _ hvx) (hf _ _ hvx) hS
    have hback : InBox v (fbwd (s (ffwd (Box.inter X Y)) (ffwd (Box.inter X Y))).1) := by
      have := hg _ _ hy
      rwa [hgf v (by rw [hv.length, hX])] at this
    unfold sepTransform
    dsimp only
    rw [hy.not_isEmpty]
    simp only [Bool.false_eq_true, if_false]
    exact hbk _ _ _ ((inBox_inter (by rw [hl, hgl _ h1])).mpr ⟨hvx, hback⟩) hy
  · intro X Y v hX hY hv hv' hS
    have hl := hlen X Y hX hY
    have h1 := (hs.length (hfl _ hl) (hfl _ hl)).2
    have hvx : InBox v (Box.inter X Y) := (inBox_inter (by omega)).mpr ⟨hv, hv'⟩
    have hy := hs.keeps_out _ _ _ (hfl _ hl) (hfl _ hl) (hf _ _ hvx) (hf _ _ hvx) hS
    have hback : InBox v (fbwd (s (ffwd (Box.inter X Y)) (ffwd (Box.inter X Y))).2) := by
      have := hg _ _ hy
      rwa [hgf v (by rw [hv.length, hX])] at this
    unfold sepTransform
    dsimp only
    rw [hy.not_isEmpty]
    simp only [Bool.false_eq_true, if_false]
    exact hbk _ _ _ ((inBox_inter (by rw [hY, hgl _ h1])).mpr ⟨hv', hback⟩) hy

/-- at most `q` of the sets do not contain the point -/
def RelaxedInter (q : Nat) (ops : List ((List K → Prop) × (Box K → Box K → Box K × Box K))) (v : List K) : Prop :=
  ∀ L : List ((List K → Prop) × (Box K → Box K → Box K × Box K)), L.Sublist ops → (∀ p ∈ L, ¬ p.1 v) → L.length ≤ q

/-- C35 and C47, `SepQInterProjF`: a separator for the points which are in all the sets except at most `q`, for `q` smaller than the number
of sets -/
theorem C35_sep_qinter (n q : Nat) (ops : List ((List K → Prop) × (Box K → Box K → Box K × Box K)))
    (h : ∀ p ∈ ops, IsSep n p.1 p.2) (X Y : Box K) (hX : X.length = n) (hY : Y.length = n) (a b : Box K)
    (hr : sepQInter q (ops.map Prod.snd) X Y = some (a, b)) :
    BoxLe a X ∧ BoxLe b Y ∧
    ∀ v, InBox v X → InBox v Y → (¬ RelaxedInter q ops v → InBox v a) ∧ (RelaxedInter q ops v → InBox v b) := by
  classical
  unfold sepQInter at hr
  simp only [List.map_map, List.length_map, Option.bind_eq_some_iff, Option.map_eq_some_iff, Prod.mk.injEq] at hr
  obtain ⟨A, hA, B, hB, rfl, rfl⟩ := hr
  have hAX : BoxLe A X := by
    refine qinter_le ?_ hA
    intro C hC
    obtain ⟨p, hp, rfl⟩ := List.mem_map.mp hC
    exact (h p hp).le_in X Y hX hY
  have hBY : BoxLe B Y := by
    refine qinter_le ?_ hB
    intro C hC
    obtain ⟨p, hp, rfl⟩ := List.mem_map.mp hC
    exact (h p hp).le_out X Y hX hY
  refine ⟨inter_le_left hAX.length.symm, inter_le_left hBY.length.symm, fun v hv hv' => ⟨fun hS => ?_, fun hS => ?_⟩⟩
  · refine (inBox_inter hAX.length.symm).mpr ⟨hv, ?_⟩
    unfold RelaxedInter at hS
    push Not at hS
    obtain ⟨L, h1, h2, h3⟩ := hS
    refine qinter_keeps (n := n) (by omega) ?_ (h1.map _) (by simp; omega) ?_ hA
    · intro C hC
      obtain ⟨p, hp, rfl⟩ := List.mem_map.mp hC
      exact ((h p hp).length hX hY).1
    · intro C hC
      obtain ⟨p, hp, rfl⟩ := List.mem_map.mp hC
      exact (h p (h1.subset hp)).keeps_in X Y v hX hY hv hv' (h2 p hp)
  · refine (inBox_inter hBY.length.symm).mpr ⟨hv', ?_⟩
    have hq : (0 : Int) < (ops.length : Int) - q := by
      by_contra hc
      unfold qinter at hB
      split at hB
      · cases hB
      · rw [if_neg hc] at hB; cases hB
    have h1 := hS (ops.filter fun p => decide (¬ p.1 v)) List.filter_sublist
      (fun p hp => by simpa using (List.mem_filter.mp hp).2)
    have h2 : (ops.filter fun p => decide (p.1 v)).length + (ops.filter fun p => decide (¬ p.1 v)).length = ops.length := by
      have := List.length_eq_length_filter_add (l := ops) fun p => decide (p.1 v)
      simpa using this.symm
    refine qinter_keeps (n := n) hq ?_ ((List.filter_sublist (p := fun p => decide (p.1 v)) (l := ops)).map _) (by simp; omega) ?_ hB
    · intro C hC
      obtain ⟨p, hp, rfl⟩ := List.mem_map.mp hC
      exact ((h p hp).length hX hY).2
    · intro C hC
      obtain ⟨p, hp, rfl⟩ := List.mem_map.mp hC
      obtain ⟨hp1, hp2⟩ := List.mem_filter.mp hp
      exact (h p hp1).keeps_out X Y v hX hY hv hv' (by simpa using hp2)

/-- C35, `SepQInterProjF` returns for every `q` smaller than the number of sets -/
theorem C35_sep_qinter_total (q : Nat) (ss : List (Box K → Box K → Box K × Box K)) (hq : q < ss.length) (X Y : Box K) :
    ∃ r, sepQInter q ss X Y = some r := by
  have hne : ss ≠ [] := by rintro rfl; simp at hq
  obtain ⟨a, ha⟩ := qinter_total (q := (q : Int) + 1) (by omega) (boxes := ss.map fun s => (s X Y).1) (by simpa using hne)
  obtain ⟨b, hb⟩ := qinter_total (q := (ss.length : Int) - q) (by omega) (boxes := ss.map fun s => (s X Y).2) (by simpa using hne)
  exact ⟨(X.inter a, Y.inter b), by unfold sepQInter; rw [ha, hb]; rfl⟩

/-! ### `SepFixPoint` -/

/-- C35, `SepFixPoint`: sound for every separator which only contracts one side during the iterations (the outer boxes are never
contracted, or the inner boxes are never contracted). Missing: the case in which both sides are contracted, for which the result is not
sound (see `C35_fixpoint_fails`). -/
theorem C35_fixpoint_partial (n : Nat) (S : List K → Prop) (s : Box K → Box K → Box K × Box K) (hs : IsSep n S s)
    (diff : Box K → Box K → List (Box K)) (cont : Box K → Box K → Bool) (fuel : Nat)
    (hone : (∀ X, (s X X).2 = X) ∨ (∀ X, (s X X).1 = X))
    (X : Box K) (hX : X.length = n) (a b : Box K) (h : sepFixPoint s diff cont fuel X X = some (a, b)) (v : List K) (hv : InBox v X) :
    (¬ S v → InBox v a) ∧ (S v → InBox v b) := by
  unfold sepFixPoint at h
  rw [Option.bind_eq_some_iff] at h
  obtain ⟨⟨xi, xo, f⟩, h1, h2⟩ := h
  have hvx : InBox v (X.inter X) := (inBox_inter rfl).mpr ⟨hv, hv⟩
  have hself : X.inter X = X := by
    unfold Box.inter
    have hz : List.zipWith (· ⊓ ·) X X = X := by
      clear * -
      induction X with
      | nil => rfl
      | cons I X ih => simp
    rw [hz, hv.not_isEmpty]
    have hany : X.any Itv.isEmpty = false := by
      by_contra hc
      exact not_inBox_of_any (by simpa using hc) hv
    simp [hany]
  rw [hself] at h1 h2 hvx
  obtain ⟨hl1, hl2, _, _⟩ := sepFixLoop_le hs fuel hX hX h1
  have hflag : ∀ (m : Nat) (x : Box K) (f0 : FixFlags K) (r : Box K × Box K × FixFlags K),
      sepFixLoop s diff cont m x x x f0 = some r →
      ((∀ X, (s X X).2 = X) → r.2.2.cout = f0.cout) ∧ ((∀ X, (s X X).1 = X) → r.2.2.cin = f0.cin) := by
    intro m
    induction m with
    | zero => intro x f0 r hr; cases hr
    | succ m ih =>
      intro x f0 r hr
      have he : ∀ Z : Box K, Z.eqv Z = true := fun Z => by simp [Box.eqv]
      rw [sepFixLoop] at hr
      split at hr
      · cases hr
        exact ⟨fun hh => by simp [FixFlags.update, hh, he], fun hh => by simp [FixFlags.update, hh, he]⟩
      · split at hr
        · obtain ⟨h5, h6⟩ := ih _ _ _ hr
          exact ⟨fun hh => by rw [h5 hh]; simp [FixFlags.update, hh, he], fun hh => by rw [h6 hh]; simp [FixFlags.update, hh, he]⟩
        · cases hr
          exact ⟨fun hh => by simp [FixFlags.update, hh, he], fun hh => by simp [FixFlags.update, hh, he]⟩
  have hf := hflag fuel X .clear _ h1
  unfold fixReconstruct at h2
  dsimp only at h2
  by_cases hq : (xi.inter xo).eqv X = true
  · rw [if_pos hq] at h2
    simp only [Option.some.injEq, Prod.mk.injEq] at h2
    obtain ⟨rfl, rfl⟩ := h2
    have h3 := Box.eqv_mem hq hv
    rw [← h3, inBox_inter (by omega)] at hv
    exact ⟨fun _ => hv.1, fun _ => hv.2⟩
  · rw [if_neg hq] at h2
    rcases hone with hone | hone
    · have hc : f.cout = false := hf.1 hone
      rw [hc] at h2
      cases hci : f.cin with
      | false => rw [hci] at h2; cases h2
      | true =>
        rw [hci] at h2
        simp only [Option.some.injEq, Prod.mk.injEq] at h2
        obtain ⟨rfl, rfl⟩ := h2
        exact ⟨fun hS => sepFixLoop_keeps_in hs fuel hX hX hvx hv hv h1 hc hS, fun _ => hv⟩
    · have hc : f.cin = false := hf.2 hone
      rw [hc] at h2
      cases hco : f.cout with
      | false => rw [hco] at h2; cases h2
      | true =>
        rw [hco] at h2
        simp only [Option.some.injEq, Prod.mk.injEq] at h2
        obtain ⟨rfl, rfl⟩ := h2
        exact ⟨fun _ => hv, fun hS => sepFixLoop_keeps_out hs fuel hX hX hvx hv hv h1 hc hS⟩

/-- the difference of two boxes of dimension 1, the second inside the first (`IntervalVector::diff` of IBEX) -/
def diff₁ (X Y : Box ℚ) : List (Box ℚ) :=
  match X, Y with
  | [.mk (some a) (some b) _], [.mk (some c) (some d) _] =>
    (if a < c then [[.icc a c]] else []) ++ (if d < b then [[.icc d b]] else [])
  | _, _ => [X]

/-- the smallest results on the boxes `[0,10]` and `[2,8]` for the set `[0,2] ∪ [6,8]`, no contraction on the other boxes -/
def fixSep (X Y : Box ℚ) : Box ℚ × Box ℚ :=
  if X = [.icc 0 10] ∧ Y = [.icc 0 10] then ([.icc 2 10], [.icc 0 8])
  else if X = [.icc 2 8] ∧ Y = [.icc 2 8] then ([.icc 2 6], [.icc 2 8])
  else (X, Y)

theorem fixSep_isSep : IsSep 1 (fun v => InBox v [Itv.icc (0 : ℚ) 2] ∨ InBox v [Itv.icc (6 : ℚ) 8]) fixSep := by
  have hpt : ∀ (v : List ℚ) (a b : ℚ), InBox v [Itv.icc a b] ↔ ∃ x, v = [x] ∧ a ≤ x ∧ x ≤ b := by
    intro v a b
    constructor
    · intro h
      cases h with
      | cons h1 h2 =>
        cases h2
        exact ⟨_, rfl, by simpa using h1⟩
    · rintro ⟨x, rfl, h⟩
      simpa [InBox] using h
  refine ⟨fun X Y hX hY => ?_, fun X Y hX hY => ?_, fun X Y v hX hY hv hv' hS => ?_, fun X Y v hX hY hv hv' hS => ?_⟩ <;>
    unfold fixSep <;> split
  · rename_i h
    rw [h.1]
    exact .cons (by decide +kernel) .nil
  · split
    · rename_i h
      rw [h.1]
      exact .cons (by decide +kernel) .nil
    · exact BoxLe.refl X
  · rename_i h
    rw [h.2]
    exact .cons (by decide +kernel) .nil
  · split
    · rename_i h
      rw [h.2]
      exact .cons (by decide +kernel) .nil
    · exact BoxLe.refl Y
  · rename_i h
    rw [h.1, hpt] at hv
    obtain ⟨x, rfl, h1, h2⟩ := hv
    simp only [hpt, List.cons.injEq, and_true, exists_eq_left', not_or, not_and, not_le] at hS ⊢
    exact ⟨(hS.1 h1).le, h2⟩
  · split
    · rename_i h
      rw [h.1, hpt] at hv
      obtain ⟨x, rfl, h1, h2⟩ := hv
      simp only [hpt, List.cons.injEq, and_true, exists_eq_left', not_or, not_and, not_le] at hS ⊢
      refine ⟨h1, ?_⟩
      by_contra hc
      exact absurd (hS.2 (not_le.mp hc).le) (not_lt.mpr h2)
    · exact hv
  · simp only [hpt] at hS ⊢
    rcases hS with ⟨x, rfl, h1, h2⟩ | ⟨x, rfl, h1, h2⟩
    · exact ⟨x, rfl, h1, h2.trans (by norm_num)⟩
    · exact ⟨x, rfl, le_trans (by norm_num) h1, h2⟩
  · split
    · rename_i h
      rw [h.2] at hv'
      exact hv'
    · exact hv'

/-- C35 fails for `SepFixPoint` when both sides are contracted: with a sound separator of the set `[0,2] ∪ [6,8]`, on the box `[0,10]`, the
iterations end normally, no assertion fails, and the point 7 of the set is removed from the outer box. (The separator gives the smallest
boxes; `SepBox`, which keeps the boundary of the box, cannot be used for this witness.) -/
theorem C35_fixpoint_fails :
    ∃ (a b : Box ℚ), sepFixPoint fixSep diff₁ (fun X Y => decide (X ≠ Y)) 5 [.icc 0 10] [.icc 0 10] = some (a, b) ∧
      InBox [7] [Itv.icc (0 : ℚ) 10] ∧ InBox [7] [Itv.icc (6 : ℚ) 8] ∧ ¬ InBox [7] b := by
  refine ⟨[.icc 2 10], [.icc 0 6], by decide +kernel, ?_, ?_, ?_⟩ <;> norm_num [InBox]

/-! ### Examples -/

example : sepBox [.icc 0 2, .icc 0 2] [.icc (1 : ℚ) 2, .icc 1 5] [.icc (1 : ℚ) 2, .icc 1 5] =
    ([.icc 1 2, .icc 2 5], [.icc 1 2, .icc 1 2]) := by decide +kernel
example : sepBox [.icc 0 2, .ofBounds (some 1) none] [.icc (1 : ℚ) 2, .icc 0 5] [.icc (1 : ℚ) 2, .icc 0 5] =
    ([.icc 1 2, .icc 0 1], [.icc 1 2, .icc 1 5]) := by decide +kernel
/-- the hypothesis of `C35_fixpoint_partial` is met by separators which do contract -/
example : IsSep 1 (fun v => InBox v [Itv.icc (0 : ℚ) 2]) (fun X Y => ((sepBox [.icc 0 2] X Y).1, Y)) ∧
    sepFixPoint (fun X Y => ((sepBox [.icc (0 : ℚ) 2] X Y).1, Y)) diff₁ (fun X Y => decide (X ≠ Y)) 5 [.icc 1 10] [.icc 1 10] =
      some ([.icc 2 10], [.icc 1 10]) := by
  have h := C35_sep_box [Itv.icc (0 : ℚ) 2] (by decide +kernel)
  refine ⟨⟨h.le_in, fun X Y _ _ => BoxLe.refl Y, h.keeps_in, fun X Y v _ _ _ hv _ => hv⟩, by decide +kernel⟩

example : sepQInter 1 [sepBox [.icc 0 2], sepBox [.icc 1 5], sepBox [.icc 4 (9 : ℚ)]] [.icc 0 10] [.icc 0 10] =
    some ([.icc 0 10], [.icc 1 5]) := by decide +kernel

end Codac.Props
