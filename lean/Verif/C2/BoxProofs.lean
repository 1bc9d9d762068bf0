import Verif.C2.BoxModel

/-!
# The boxes of codac2: proofs
-/

set_option linter.unusedSectionVars false

namespace Codac.Bx

section order

variable {K : Type*} [LinearOrder K]

theorem isEmpty_nil : isEmpty ([] : Box K) = false := rfl

theorem isEmpty_cons {I : Itv K} {X : Box K} : isEmpty (I :: X) = (I.isEmpty || isEmpty X) := rfl

theorem not_mem_of_isEmpty {X : Box K} (h : isEmpty X = true) {v : List K} : ¬ InBox v X := not_inBox_of_any h

theorem not_isEmpty_of_mem {X : Box K} {v : List K} (h : InBox v X) : isEmpty X = false := by
  by_contra h'
  exact not_mem_of_isEmpty (by simpa using h') h

theorem exists_inBox [Nonempty K] [NoMinOrder K] [NoMaxOrder K] {X : Box K} (h : isEmpty X = false) : ∃ v, InBox v X := by
  induction X with
  | nil => exact ⟨[], .nil⟩
  | cons I X ih =>
    rw [isEmpty_cons, Bool.or_eq_false_iff] at h
    obtain ⟨x, hx⟩ := Itv.exists_mem (Itv.isEmpty_false_iff.mp h.1)
    obtain ⟨v, hv⟩ := ih h.2
    exact ⟨x :: v, .cons hx hv⟩

theorem isEmpty_iff [Nonempty K] [NoMinOrder K] [NoMaxOrder K] {X : Box K} : isEmpty X = true ↔ ∀ v, ¬ InBox v X := by
  refine ⟨fun h v => not_mem_of_isEmpty h, fun h => ?_⟩
  by_contra h'
  obtain ⟨v, hv⟩ := exists_inBox (by simpa using h')
  exact h v hv

theorem boxLe_of_points [Nonempty K] [NoMinOrder K] [NoMaxOrder K] {X Y : Box K} (h0 : isEmpty X = false) (h : ∀ v, InBox v X → InBox v Y) : BoxLe X Y := by
  induction X generalizing Y with
  | nil => cases h [] .nil; exact .nil
  | cons I X ih =>
    rw [isEmpty_cons, Bool.or_eq_false_iff] at h0
    obtain ⟨x, hx⟩ := Itv.exists_mem (Itv.isEmpty_false_iff.mp h0.1)
    obtain ⟨v, hv⟩ := exists_inBox h0.2
    cases Y with
    | nil => cases h _ (.cons hx hv)
    | cons J Y =>
      refine .cons (Itv.le_iff.mpr fun y hy => ?_) (ih h0.2 fun w hw => ?_)
      · exact (List.forall₂_cons.mp (h _ (.cons hy hv))).1
      · exact (List.forall₂_cons.mp (h _ (.cons hx hw))).2

theorem subsetLoop_iff {X Y : Box K} (hl : X.length = Y.length) : subsetLoop X Y = true ↔ BoxLe X Y := by
  induction X generalizing Y with
  | nil => cases Y with
    | nil => simp [subsetLoop, BoxLe]
    | cons => simp at hl
  | cons I X ih => cases Y with
    | nil => simp at hl
    | cons J Y =>
      have := ih (Y := Y) (by simpa using hl)
      unfold BoxLe at *
      simp [subsetLoop, this]

theorem isSubset_iff [Nonempty K] [NoMinOrder K] [NoMaxOrder K] {X Y : Box K} (hl : X.length = Y.length) : isSubset X Y = true ↔ ∀ v, InBox v X → InBox v Y := by
  unfold isSubset
  by_cases hX : isEmpty X
  · rw [if_pos hX]
    exact ⟨fun _ v hv => absurd hv (not_mem_of_isEmpty hX), fun _ => rfl⟩
  · rw [if_neg hX]
    have hX' : isEmpty X = false := by simpa using hX
    by_cases hY : isEmpty Y
    · rw [if_pos hY]
      obtain ⟨v, hv⟩ := exists_inBox hX'
      exact ⟨fun h => by simp at h, fun h => absurd (h v hv) (not_mem_of_isEmpty hY)⟩
    · rw [if_neg hY, subsetLoop_iff hl]
      exact ⟨fun h v hv => hv.of_le h, boxLe_of_points hX'⟩

theorem strictLoop_iff {X Y : Box K} (hl : X.length = Y.length) (b : Bool) : strictLoop X Y b = true ↔ BoxLe X Y ∧ (b = true ∨ X ≠ Y) := by
  induction X generalizing Y b with
  | nil => cases Y with
    | nil => simp [strictLoop, BoxLe]
    | cons => simp at hl
  | cons I X ih => cases Y with
    | nil => simp at hl
    | cons J Y =>
      have := fun b => ih (Y := Y) (by simpa using hl) b
      unfold BoxLe at *
      by_cases h1 : I ≤ J
      · by_cases h2 : I = J
        · subst h2
          simp [strictLoop, this]
        · simp [strictLoop, this, h1, h2]
      · simp [strictLoop, h1]

theorem isStrictSubset_iff [Nonempty K] [NoMinOrder K] [NoMaxOrder K] {X Y : Box K} (hl : X.length = Y.length) :
    isStrictSubset X Y = true ↔ (∀ v, InBox v X → InBox v Y) ∧ ∃ v, InBox v Y ∧ ¬ InBox v X := by
  unfold isStrictSubset
  by_cases hY : isEmpty Y
  · rw [if_pos hY]
    exact ⟨fun h => by simp at h, fun ⟨_, v, hv, _⟩ => absurd hv (not_mem_of_isEmpty hY)⟩
  · rw [if_neg hY]
    obtain ⟨w, hw⟩ := exists_inBox (X := Y) (by simpa using hY)
    by_cases hX : isEmpty X
    · rw [if_pos hX]
      exact ⟨fun _ => ⟨fun v hv => absurd hv (not_mem_of_isEmpty hX), w, hw, not_mem_of_isEmpty hX⟩, fun _ => rfl⟩
    · rw [if_neg hX, strictLoop_iff hl]
      have hX' : isEmpty X = false := by simpa using hX
      constructor
      · rintro ⟨h1, h2⟩
        refine ⟨fun v hv => hv.of_le h1, ?_⟩
        by_contra hn
        push Not at hn
        have h3 := boxLe_of_points (by simpa using hY) hn
        rcases h2 with h2 | h2
        · simp at h2
        · refine h2 ?_
          clear hn hw hX hX' hY hl h2
          unfold BoxLe at *
          induction h1 with
          | nil => rfl
          | cons a b ih =>
            rw [List.forall₂_cons] at h3
            rw [le_antisymm a h3.1, ih h3.2]
      · rintro ⟨h1, v, hv, hv'⟩
        exact ⟨boxLe_of_points hX' h1, .inr fun e => hv' (e ▸ hv)⟩

theorem contains_iff {X : Box K} {v : List K} (hl : v.length = X.length) : contains X v = true ↔ InBox v X := by
  unfold contains
  by_cases hX : isEmpty X
  · rw [if_pos hX]
    exact ⟨fun h => by simp at h, fun h => absurd h (not_mem_of_isEmpty hX)⟩
  · rw [if_neg hX]
    clear hX
    induction X generalizing v with
    | nil => cases v with
      | nil => simp [containsLoop, InBox]
      | cons => simp at hl
    | cons I X ih => cases v with
      | nil => simp at hl
      | cons x v =>
        have := ih (v := v) (by simpa using hl)
        unfold InBox at *
        simp [containsLoop, this]

theorem intersects_iff [Nonempty K] [NoMinOrder K] [NoMaxOrder K] {X Y : Box K} (hl : X.length = Y.length) : intersects X Y = true ↔ ∃ v, InBox v X ∧ InBox v Y := by
  unfold intersects
  by_cases hX : isEmpty X || isEmpty Y
  · rw [if_pos hX]
    refine ⟨fun h => by simp at h, ?_⟩
    rintro ⟨v, h1, h2⟩
    simp [not_isEmpty_of_mem h1, not_isEmpty_of_mem h2] at hX
  · rw [if_neg hX]
    clear hX
    induction X generalizing Y with
    | nil => cases Y with
      | nil => simp [intersectsLoop, InBox]
      | cons => simp at hl
    | cons I X ih => cases Y with
      | nil => simp at hl
      | cons J Y =>
        have := ih (Y := Y) (by simpa using hl)
        simp only [intersectsLoop, Bool.if_false_right, Bool.and_eq_true, decide_eq_true_eq, this, Itv.intersects_iff]
        constructor
        · rintro ⟨⟨x, a, b⟩, v, c, d⟩
          exact ⟨x :: v, .cons a c, .cons b d⟩
        · rintro ⟨v, h1, h2⟩
          cases h1 with
          | cons a c =>
            cases h2 with
            | cons b d => exact ⟨⟨_, a, b⟩, _, c, d⟩

theorem isDisjoint_eq (X Y : Box K) : isDisjoint X Y = !intersects X Y := by
  unfold isDisjoint intersects
  by_cases hX : isEmpty X || isEmpty Y
  · rw [if_pos hX, if_pos hX]; rfl
  · rw [if_neg hX, if_neg hX]
    clear hX
    induction X generalizing Y with
    | nil => rfl
    | cons I X ih => cases Y with
      | nil => rfl
      | cons J Y =>
        simp only [disjointLoop, intersectsLoop, ih Y]
        cases I.intersects J <;> simp

theorem eqLoop_iff {X Y : Box K} (hl : X.length = Y.length) : eqLoop X Y = true ↔ X = Y := by
  induction X generalizing Y with
  | nil => cases Y with
    | nil => simp [eqLoop]
    | cons => simp at hl
  | cons I X ih => cases Y with
    | nil => simp at hl
    | cons J Y =>
      have := ih (Y := Y) (by simpa using hl)
      by_cases h : I = J <;> simp [eqLoop, this, h]

theorem beq_iff [Nonempty K] [NoMinOrder K] [NoMaxOrder K] {X Y : Box K} (hl : X.length = Y.length) : beq X Y = true ↔ ∀ v, InBox v X ↔ InBox v Y := by
  unfold beq
  rw [if_neg (by simp [hl])]
  by_cases hX : isEmpty X || isEmpty Y
  · rw [if_pos hX]
    by_cases h1 : isEmpty X <;> by_cases h2 : isEmpty Y
    · simp only [h1, h2, Bool.and_self, true_iff]
      exact fun v => ⟨fun h => absurd h (not_mem_of_isEmpty h1), fun h => absurd h (not_mem_of_isEmpty h2)⟩
    · obtain ⟨v, hv⟩ := exists_inBox (X := Y) (by simpa using h2)
      exact ⟨fun h => by simp [h1, h2] at h, fun h => absurd ((h v).mpr hv) (not_mem_of_isEmpty h1)⟩
    · obtain ⟨v, hv⟩ := exists_inBox (X := X) (by simpa using h1)
      exact ⟨fun h => by simp [h1, h2] at h, fun h => absurd ((h v).mp hv) (not_mem_of_isEmpty h2)⟩
    · simp [h1, h2] at hX
  · rw [if_neg hX, eqLoop_iff hl]
    refine ⟨fun h v => by rw [h], fun h => ?_⟩
    simp only [Bool.or_eq_true, not_or, Bool.not_eq_true] at hX
    have h1 := boxLe_of_points hX.1 fun v => (h v).mp
    have h3 := boxLe_of_points hX.2 fun v => (h v).mpr
    clear h hX hl
    unfold BoxLe at *
    induction h1 with
    | nil => rfl
    | cons a b ih =>
      rw [List.forall₂_cons] at h3
      rw [le_antisymm a h3.1, ih h3.2]

theorem inter_length {X Y : Box K} (hl : X.length = Y.length) : (inter X Y).length = X.length := by
  unfold inter
  split_ifs <;> simp [setEmpty, hl]

theorem mem_inter {X Y : Box K} (hl : X.length = Y.length) {v : List K} : InBox v (inter X Y) ↔ InBox v X ∧ InBox v Y := by
  unfold inter
  by_cases hX : isEmpty X
  · rw [if_neg (by simp [hX])]
    exact ⟨fun h => absurd h (not_mem_of_isEmpty hX), fun h => h.1⟩
  · rw [if_pos (by simp [hX])]
    by_cases hY : isEmpty Y
    · rw [if_pos hY]
      refine ⟨fun h => ?_, fun h => absurd h.2 (not_mem_of_isEmpty hY)⟩
      exfalso
      cases X with
      | nil =>
        cases Y with
        | nil => simp [isEmpty] at hY
        | cons => simp at hl
      | cons I X =>
        cases h with
        | cons a b => exact Itv.not_mem_bot _ a
    · rw [if_neg hY]
      exact inBox_zipInf hl

theorem hull_length {X Y : Box K} (hl : X.length = Y.length) : (hull X Y).length = X.length := by
  unfold hull
  split_ifs <;> simp [hl]

theorem mem_hull {X Y : Box K} (hl : X.length = Y.length) {v : List K} (h : InBox v X ∨ InBox v Y) : InBox v (hull X Y) := by
  unfold hull
  by_cases hY : isEmpty Y
  · rw [if_neg (by simp [hY])]
    exact h.resolve_right (not_mem_of_isEmpty hY)
  · rw [if_pos (by simp [hY])]
    by_cases hX : isEmpty X
    · rw [if_pos hX]
      exact h.resolve_left (not_mem_of_isEmpty hX)
    · rw [if_neg hX]
      clear hX hY
      induction X generalizing Y v with
      | nil => cases Y with
        | nil => simpa using h
        | cons => simp at hl
      | cons I X ih => cases Y with
        | nil => simp at hl
        | cons J Y =>
          cases v with
          | nil => rcases h with h | h <;> cases h
          | cons x v =>
            simp only [InBox, List.zipWith_cons_cons, List.forall₂_cons] at h ih ⊢
            rcases h with ⟨a, b⟩ | ⟨a, b⟩
            · exact ⟨Itv.mem_sup_left a, ih (by simpa using hl) (.inl b)⟩
            · exact ⟨Itv.mem_sup_right a, ih (by simpa using hl) (.inr b)⟩

/-- the hull is the smallest box -/
theorem hull_least [Nonempty K] [NoMinOrder K] [NoMaxOrder K] {X Y Z : Box K} (h1 : ∀ v, InBox v X → InBox v Z) (h2 : ∀ v, InBox v Y → InBox v Z)
    {v : List K} (hv : InBox v (hull X Y)) : InBox v Z := by
  unfold hull at hv
  by_cases hY : isEmpty Y
  · rw [if_neg (by simp [hY])] at hv
    exact h1 v hv
  · rw [if_pos (by simp [hY])] at hv
    by_cases hX : isEmpty X
    · rw [if_pos hX] at hv
      exact h2 v hv
    · rw [if_neg hX] at hv
      have k1 := boxLe_of_points (by simpa using hX) h1
      have k2 := boxLe_of_points (by simpa using hY) h2
      refine hv.of_le ?_
      clear hv h1 h2 hX hY
      unfold BoxLe at *
      induction k1 generalizing Y with
      | nil => cases k2; exact .nil
      | cons a b ih =>
        cases k2 with
        | cons c d => exact .cons (sup_le a c) (ih d)

end order

end Codac.Bx
