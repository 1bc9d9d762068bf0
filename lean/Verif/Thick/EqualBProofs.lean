import Verif.Thick.EqualB
import Verif.Thick.FastSiviaProofs
import Verif.Thick.PavingInterProofs

/-!
# Proofs on `CtcAEqualB::contract` and `NbIteration`
-/

set_option linter.unusedSectionVars false

namespace Codac.TPav

open TNode SPav

section
variable {K : Type*} [Field K] [LinearOrder K] [IsStrictOrderedRing K]

theorem inBox_of_boxSubset {X Y : Box K} (h : ThickBox.boxSubset X Y = true) {v : List K} (hv : InBox v X) : InBox v Y := by
  unfold ThickBox.boxSubset at h
  rw [hv.not_isEmpty] at h
  simp only [Bool.false_or, Bool.and_eq_true, decide_eq_true_eq] at h
  obtain ⟨⟨h0, hl⟩, ha⟩ := h
  clear h0
  unfold InBox at *
  induction hv generalizing Y with
  | nil => cases Y with
    | nil => exact .nil
    | cons => simp at hl
  | cons h1 _ ih => cases Y with
    | nil => simp at hl
    | cons J Y =>
      simp only [List.zip_cons_cons, List.all_cons, Bool.and_eq_true, decide_eq_true_eq] at ha
      exact .cons (Itv.mem_of_le ha.1 h1) (ih ha.2 (by simpa using hl))

variable {test : Box K → Option TB} {bis : Box K → Box K × Box K} {eps : K} {n : Nat}

theorem ne_nil_of_length {X : Box K} (hn : 0 < n) (h : X.length = n) : X ≠ [] := by
  rintro rfl
  simp at h
  omega

/-- the points of the solution set are kept -/
theorem equalLoop_sound (hn : 0 < n) (hb : IsBis bis) {S : List K → Prop}
    (hS : ∀ X t, X.length = n → test X = some t → t ≠ .unk → ∀ p, InBox p X → ¬ S p) {fuel : Nat} {L : List (Box K)} {R R' : Box K} (hL : ∀ X ∈ L, X.length = n)
    (hR : R.length = n) (h : equalLoop test bis eps fuel L R = some R') {p : List K} (hp : S p) (hin : InBox p R ∨ ∃ X ∈ L, InBox p X) :
    R'.length = n ∧ InBox p R' := by
  induction fuel generalizing L R with
  | zero =>
    cases L with
    | nil =>
      rw [equalLoop] at h
      cases h
      rcases hin with hin | ⟨X, hX, _⟩
      · exact ⟨hR, hin⟩
      · cases hX
    | cons X L => cases h
  | succ fuel ih =>
    cases L with
    | nil =>
      rw [equalLoop] at h
      cases h
      rcases hin with hin | ⟨X, hX, _⟩
      · exact ⟨hR, hin⟩
      · cases hX
    | cons X L =>
      have hX := hL X (by simp)
      have hL' : ∀ Y ∈ L, Y.length = n := fun Y hY => hL Y (List.mem_cons_of_mem _ hY)
      have drop : (InBox p X → InBox p R) → InBox p R ∨ ∃ Y ∈ L, InBox p Y := by
        intro g
        rcases hin with hin | ⟨Y, hY, hin⟩
        · exact .inl hin
        · rcases List.mem_cons.1 hY with rfl | hY
          · exact .inl (g hin)
          · exact .inr ⟨Y, hY, hin⟩
      rw [equalLoop] at h
      split at h
      · rename_i hs
        exact ih hL' hR h (drop (inBox_of_boxSubset hs))
      · cases ht : test X with
        | none => rw [ht] at h; cases h
        | some t =>
          rw [ht] at h
          simp only [Option.bind_some] at h
          split at h
          · split at h
            · have hne := ne_nil_of_length hn hX
              refine ih ?_ hR h ?_
              · intro Y hY
                simp only [List.mem_append, List.mem_cons, List.not_mem_nil, or_false] at hY
                rcases hY with hY | rfl | rfl
                · exact hL' Y hY
                · exact (hb.le₁ _ hne).length.trans hX
                · exact (hb.le₂ _ hne).length.trans hX
              · rcases hin with hin | ⟨Y, hY, hin⟩
                · exact .inl hin
                · rcases List.mem_cons.1 hY with rfl | hY
                  · rcases hb.cover _ _ hne hin with g | g
                    · exact .inr ⟨_, by simp, g⟩
                    · exact .inr ⟨_, by simp, g⟩
                  · exact .inr ⟨Y, by simp [hY], hin⟩
            · refine ih hL' ((Box.length_hull (hR.trans hX.symm)).trans hR) h ?_
              rcases hin with hin | ⟨Y, hY, hin⟩
              · exact .inl (hin.hull_left (hR.trans hX.symm))
              · rcases List.mem_cons.1 hY with rfl | hY
                · exact .inl (hin.hull_right (hR.trans hX.symm))
                · exact .inr ⟨Y, hY, hin⟩
          · rename_i hu
            exact ih hL' hR h (drop fun g => absurd hp (hS X t hX ht hu p g))

/-- the result is in every box which contains the small boxes with the answer `UNK` -/
theorem equalLoop_tight (hn : 0 < n) (hb : IsBis bis) {X0 H : Box K}
    (hH : ∀ X, BoxLe X X0 → test X = some .unk → maxDiamGt eps X = false → BoxLe X H) {fuel : Nat} {L : List (Box K)} {R R' : Box K} (h0 : X0.length = n)
    (hL : ∀ X ∈ L, BoxLe X X0) (hR : BoxLe R H) (h : equalLoop test bis eps fuel L R = some R') : BoxLe R' H := by
  induction fuel generalizing L R with
  | zero =>
    cases L with
    | nil => rw [equalLoop] at h; cases h; exact hR
    | cons X L => cases h
  | succ fuel ih =>
    cases L with
    | nil => rw [equalLoop] at h; cases h; exact hR
    | cons X L =>
      have hX := hL X (by simp)
      have hL' : ∀ Y ∈ L, BoxLe Y X0 := fun Y hY => hL Y (List.mem_cons_of_mem _ hY)
      rw [equalLoop] at h
      split at h
      · exact ih hL' hR h
      · cases ht : test X with
        | none => rw [ht] at h; cases h
        | some t =>
          rw [ht] at h
          simp only [Option.bind_some] at h
          split at h
          · rename_i hu
            subst hu
            split at h
            · have hne := ne_nil_of_length hn (hX.length.trans h0)
              refine ih ?_ hR h
              intro Y hY
              simp only [List.mem_append, List.mem_cons, List.not_mem_nil, or_false] at hY
              rcases hY with hY | rfl | rfl
              · exact hL' Y hY
              · exact (hb.le₁ _ hne).trans hX
              · exact (hb.le₂ _ hne).trans hX
            · rename_i hd
              exact ih hL' (hull_le hR (hH X hX ht (by simpa using hd))) h
          · exact ih hL' hR h

/-- the number of iterations for a list of boxes -/
noncomputable def wtBoxes [Archimedean K] (c eps : K) (L : List (Box K)) : Nat := (L.map fun b => 2 ^ (Sivia.boxRank c eps b + 1) - 1).sum

theorem pow_pos_one (k : Nat) : 1 ≤ 2 ^ (k + 1) - 1 := by
  have : 2 ≤ 2 ^ (k + 1) := by rw [pow_succ]; have := Nat.one_le_two_pow (n := k); omega
  omega

theorem wtBoxes_cut [Archimedean K] (hb : IsBis bis) {c : K} (hl : IsLargestFirst c bis) (hc0 : 0 ≤ c) (hc1 : c < 1) (he : 0 < eps)
    {X : Box K} (hX : Bnd X) (hd : maxDiamGt eps X = true) :
    (2 ^ (Sivia.boxRank c eps (bis X).1 + 1) - 1) + (2 ^ (Sivia.boxRank c eps (bis X).2 + 1) - 1) + 1 ≤ 2 ^ (Sivia.boxRank c eps X + 1) - 1 := by
  obtain ⟨r1, r2⟩ := Sivia.boxRank_bis hb hl hc0 hc1 he hX (maxDiamLt_false hd)
  have p1 : 2 ^ (Sivia.boxRank c eps (bis X).1 + 1) ≤ 2 ^ Sivia.boxRank c eps X := Nat.pow_le_pow_right (by omega) r1
  have p2 : 2 ^ (Sivia.boxRank c eps (bis X).2 + 1) ≤ 2 ^ Sivia.boxRank c eps X := Nat.pow_le_pow_right (by omega) r2
  have p3 : 2 ^ (Sivia.boxRank c eps X + 1) = 2 * 2 ^ Sivia.boxRank c eps X := by rw [Nat.pow_succ]; omega
  have q1 := pow_pos_one (Sivia.boxRank c eps (bis X).1)
  have q2 := pow_pos_one (Sivia.boxRank c eps (bis X).2)
  omega

theorem equalLoop_terminates [Archimedean K] (hn : 0 < n) (hb : IsBis bis) {c : K} (hl : IsLargestFirst c bis) (hc0 : 0 ≤ c) (hc1 : c < 1)
    (he : 0 < eps) (ht : ∀ X, ∃ t, test X = some t) {fuel : Nat} {L : List (Box K)} {R : Box K} (hL : ∀ X ∈ L, X.length = n ∧ Bnd X)
    (hf : wtBoxes c eps L ≤ fuel) : ∃ R', equalLoop test bis eps fuel L R = some R' := by
  induction fuel generalizing L R with
  | zero =>
    cases L with
    | nil => exact ⟨R, rfl⟩
    | cons X L =>
      have := pow_pos_one (Sivia.boxRank c eps X)
      simp only [wtBoxes, List.map_cons, List.sum_cons] at hf
      omega
  | succ fuel ih =>
    cases L with
    | nil => exact ⟨R, rfl⟩
    | cons X L =>
      have hX := hL X (by simp)
      have hL' : ∀ Y ∈ L, Y.length = n ∧ Bnd Y := fun Y hY => hL Y (List.mem_cons_of_mem _ hY)
      have := pow_pos_one (Sivia.boxRank c eps X)
      have hf' : (2 ^ (Sivia.boxRank c eps X + 1) - 1) + wtBoxes c eps L ≤ fuel + 1 := by
        simpa only [wtBoxes, List.map_cons, List.sum_cons] using hf
      rw [equalLoop]
      split
      · exact ih hL' (by omega)
      · obtain ⟨t, e⟩ := ht X
        rw [e]
        simp only [Option.bind_some]
        split
        · split
          · rename_i hd
            have hne := ne_nil_of_length hn hX.1
            refine ih ?_ ?_
            · intro Y hY
              simp only [List.mem_append, List.mem_cons, List.not_mem_nil, or_false] at hY
              rcases hY with hY | rfl | rfl
              · exact hL' Y hY
              · exact ⟨(hb.le₁ _ hne).length.trans hX.1, (Sivia.boxRank_mono hc0 hc1 he (hb.le₁ _ hne) hX.2).2⟩
              · exact ⟨(hb.le₂ _ hne).length.trans hX.1, (Sivia.boxRank_mono hc0 hc1 he (hb.le₂ _ hne) hX.2).2⟩
            · have := wtBoxes_cut hb hl hc0 hc1 he hX.2 hd
              unfold wtBoxes at hf' ⊢
              rw [List.map_append, List.sum_append]
              simp only [List.map_cons, List.map_nil, List.sum_cons, List.sum_nil]
              omega
          · exact ih hL' (by omega)
        · exact ih hL' (by omega)

/-! ### `NbIteration` -/

/-- the number of boxes of the bisection tree from `X` : `k` bounds its depth -/
inductive Counts (test : Box K → TB) (bis : Box K → Box K × Box K) (eps : K) : Box K → Nat → Prop
  | stop {X : Box K} : ((test X).isSingleton = true ∨ maxDiamGt eps X = false) → Counts test bis eps X 1
  | cut {X : Box K} {a b : Nat} : (test X).isSingleton = false → maxDiamGt eps X = true → Counts test bis eps (bis X).1 a →
      Counts test bis eps (bis X).2 b → Counts test bis eps X (1 + a + b)

theorem nbLoop_counts {test : Box K → TB} {fuel : Nat} {s : List (Box K)} {k r : Nat} (h : nbLoop test bis eps fuel s k = some r) :
    ∃ l : List Nat, List.Forall₂ (Counts test bis eps) s l ∧ r = k + l.sum := by
  induction fuel generalizing s k with
  | zero =>
    cases s with
    | nil => rw [nbLoop] at h; cases h; exact ⟨[], .nil, rfl⟩
    | cons X s => cases h
  | succ fuel ih =>
    cases s with
    | nil => rw [nbLoop] at h; cases h; exact ⟨[], .nil, rfl⟩
    | cons X s =>
      rw [nbLoop] at h
      unfold goOn at h
      split at h
      · rename_i hg
        simp only [Bool.and_eq_true, Bool.not_eq_true'] at hg
        obtain ⟨l, hl, e⟩ := ih h
        obtain ⟨b, l1, hb, hl1, rfl⟩ := List.forall₂_cons_left_iff.1 hl
        obtain ⟨a, l2, ha, hl2, rfl⟩ := List.forall₂_cons_left_iff.1 hl1
        refine ⟨(1 + a + b) :: l2, .cons (.cut hg.1 hg.2 ha hb) hl2, ?_⟩
        simp only [List.sum_cons] at e ⊢
        omega
      · rename_i hg
        obtain ⟨l, hl, e⟩ := ih h
        refine ⟨1 :: l, .cons (.stop ?_) hl, ?_⟩
        · by_cases h1 : (test X).isSingleton = true
          · exact .inl h1
          · refine .inr ?_
            simp only [Bool.not_eq_true] at h1
            rw [h1] at hg
            simpa using hg
        · simp only [List.sum_cons]
          omega

theorem nbLoop_terminates [Archimedean K] (hn : 0 < n) (hb : IsBis bis) {c : K} (hl : IsLargestFirst c bis) (hc0 : 0 ≤ c) (hc1 : c < 1)
    (he : 0 < eps) (test : Box K → TB) {fuel : Nat} {s : List (Box K)} {k : Nat} (hs : ∀ X ∈ s, X.length = n ∧ Bnd X) (hf : wtBoxes c eps s ≤ fuel) :
    ∃ r, nbLoop test bis eps fuel s k = some r := by
  induction fuel generalizing s k with
  | zero =>
    cases s with
    | nil => exact ⟨k, rfl⟩
    | cons X L =>
      have := pow_pos_one (Sivia.boxRank c eps X)
      simp only [wtBoxes, List.map_cons, List.sum_cons] at hf
      omega
  | succ fuel ih =>
    cases s with
    | nil => exact ⟨k, rfl⟩
    | cons X s =>
      have hX := hs X (by simp)
      have hs' : ∀ Y ∈ s, Y.length = n ∧ Bnd Y := fun Y hY => hs Y (List.mem_cons_of_mem _ hY)
      have := pow_pos_one (Sivia.boxRank c eps X)
      have hf' : (2 ^ (Sivia.boxRank c eps X + 1) - 1) + wtBoxes c eps s ≤ fuel + 1 := by
        simpa only [wtBoxes, List.map_cons, List.sum_cons] using hf
      rw [nbLoop]
      split
      · rename_i hg
        have hne := ne_nil_of_length hn hX.1
        refine ih ?_ ?_
        · intro Y hY
          simp only [List.mem_cons] at hY
          rcases hY with rfl | rfl | hY
          · exact ⟨(hb.le₂ _ hne).length.trans hX.1, (Sivia.boxRank_mono hc0 hc1 he (hb.le₂ _ hne) hX.2).2⟩
          · exact ⟨(hb.le₁ _ hne).length.trans hX.1, (Sivia.boxRank_mono hc0 hc1 he (hb.le₁ _ hne) hX.2).2⟩
          · exact hs' Y hY
        · have := wtBoxes_cut hb hl hc0 hc1 he hX.2 (goOn_diam hg)
          unfold wtBoxes at hf' ⊢
          simp only [List.map_cons, List.sum_cons]
          omega
      · exact ih hs' (by omega)

end

end Codac.TPav
