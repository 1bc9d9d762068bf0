import Verif.C2.PavModel

/-!
# `Paving` of codac2: proofs
-/

set_option linter.unusedSectionVars false

namespace Codac.Pav2

open Codac.Bx

section order

variable {K : Type*} [LinearOrder K]

namespace Pav

/-- the point is in the box of a leaf -/
def Has : Pav K → List K → Prop
  | leaf x, v => InBox v x
  | node _ l r, v => l.Has v ∨ r.Has v

/-- all the boxes have `n` components -/
def Sized (n : Nat) : Pav K → Prop
  | leaf x => x.length = n
  | node x l r => x.length = n ∧ l.Sized n ∧ r.Sized n

/-- the boxes of the leaves that are not empty, from left to right -/
def full : Pav K → List (Box K)
  | leaf x => if Bx.isEmpty x then [] else [x]
  | node _ l r => l.full ++ r.full

theorem has_iff_full {p : Pav K} {v : List K} : p.Has v ↔ ∃ b ∈ p.full, InBox v b := by
  induction p with
  | leaf x =>
    by_cases h : Bx.isEmpty x
    · simp only [Has, full, if_pos h]
      exact ⟨fun hv => absurd hv (not_mem_of_isEmpty h), by simp⟩
    · simp [Has, full, if_neg h]
  | node x l r h1 h2 =>
    simp only [Has, h1, h2, full, List.mem_append]
    constructor
    · rintro (⟨b, hb, hv⟩ | ⟨b, hb, hv⟩)
      · exact ⟨b, .inl hb, hv⟩
      · exact ⟨b, .inr hb, hv⟩
    · rintro ⟨b, hb | hb, hv⟩
      · exact .inl ⟨b, hb, hv⟩
      · exact .inr ⟨b, hb, hv⟩

theorem full_nonempty {p : Pav K} : ∀ b ∈ p.full, Bx.isEmpty b = false := by
  induction p with
  | leaf x =>
    by_cases h : Bx.isEmpty x
    · simp [full, if_pos h]
    · simpa [full, if_neg h] using h
  | node x l r h1 h2 =>
    intro b hb
    rcases List.mem_append.mp hb with hb | hb
    · exact h1 b hb
    · exact h2 b hb

theorem isEmpty_iff [Nonempty K] [NoMinOrder K] [NoMaxOrder K] {p : Pav K} : p.isEmpty = true ↔ ∀ v, ¬ p.Has v := by
  induction p with
  | leaf x => exact Bx.isEmpty_iff
  | node x l r h1 h2 =>
    simp only [isEmpty, Bool.and_eq_true, h1, h2, Has, not_or]
    exact forall_and.symm

theorem inBox_whole {n : Nat} {v : List K} (h : v.length = n) : InBox v (List.replicate n ⊤ : Box K) := by
  subst h
  induction v with
  | nil => exact .nil
  | cons x v ih => exact .cons (Itv.mem_top _) ih

theorem intersects?_whole [Nonempty K] [NoMinOrder K] [NoMaxOrder K] {n : Nat} {X : Box K} (hl : X.length = n) (h : Bx.isEmpty X = false) : intersects? X (List.replicate n ⊤) = some true := by
  obtain ⟨v, hv⟩ := exists_inBox h
  have hw : InBox v (List.replicate n ⊤ : Box K) := inBox_whole (by rw [hv.length, hl])
  unfold intersects?
  rw [if_neg (by simp [h, not_isEmpty_of_mem hw]), if_neg (by simp [hl]), (Bx.intersects_iff (by simp [hl])).mpr ⟨v, hv, hw⟩]

theorem boxesPush_whole [Nonempty K] [NoMinOrder K] [NoMaxOrder K] {n : Nat} {p : Pav K} (hp : p.Sized n) : boxesPush (some n) p (List.replicate n ⊤) = some p.full := by
  induction p with
  | leaf x =>
    unfold boxesPush full
    by_cases h : Bx.isEmpty x
    · rw [if_neg (by simp [h]), if_pos h]
    · rw [if_pos (by simp [h]), if_neg h, intersects?_whole hp (by simpa using h)]
      rfl
  | node x l r h1 h2 =>
    unfold boxesPush full
    rw [whole, h1 hp.2.1, h2 hp.2.2]
    rfl

/-- the list of the leaves -/
theorem leavesList_full {p : Pav K} : p.leavesList.map (fun path => (p.sub? path).map box) = p.full.map some := by
  induction p with
  | leaf x =>
    unfold leavesList full
    by_cases h : Bx.isEmpty x
    · rw [if_neg (by simp [h]), if_pos h]; rfl
    · rw [if_pos (by simp [h]), if_neg h]; rfl
  | node x l r h1 h2 =>
    simp only [leavesList, full, List.map_append, List.map_map, ← h1, ← h2]
    rfl

/-- the paths of the list lead to leaves that are not empty -/
theorem leavesList_leaf {p : Pav K} {path : List Bool} (h : path ∈ p.leavesList) : ∃ x, p.sub? path = some (leaf x) ∧ Bx.isEmpty x = false := by
  induction p generalizing path with
  | leaf x =>
    unfold leavesList at h
    by_cases hx : Bx.isEmpty x
    · rw [if_neg (by simp [hx])] at h; simp at h
    · rw [if_pos (by simp [hx])] at h
      simp only [List.mem_singleton] at h
      subst h
      exact ⟨x, rfl, by simpa using hx⟩
  | node x l r h1 h2 =>
    simp only [leavesList, List.mem_append, List.mem_map] at h
    rcases h with ⟨q, hq, rfl⟩ | ⟨q, hq, rfl⟩
    · obtain ⟨x, hx⟩ := h1 hq; exact ⟨x, by simpa [sub?] using hx⟩
    · obtain ⟨x, hx⟩ := h2 hq; exact ⟨x, by simpa [sub?] using hx⟩

theorem empty_isEmpty {n : Nat} (hn : 0 < n) : Bx.isEmpty (List.replicate n ⊥ : Box K) = true := by
  obtain ⟨m, rfl⟩ := Nat.exists_eq_succ_of_ne_zero hn.ne'
  simp [List.replicate_succ, Bx.isEmpty, Itv.isEmpty]

/-- the hull of the leaves -/
theorem hullBox_spec [Nonempty K] [NoMinOrder K] [NoMaxOrder K] {n : Nat} (hn : 0 < n) {p : Pav K} (hp : p.Sized n) :
    ∃ H, hullBox (some n) p = some H ∧ H.length = n ∧ (∀ v, p.Has v → InBox v H) ∧ ∀ Z : Box K, (∀ v, p.Has v → InBox v Z) → ∀ v, InBox v H → InBox v Z := by
  induction p with
  | leaf x => exact ⟨x, rfl, hp, fun v h => h, fun Z h v => h v⟩
  | node x l r h1 h2 =>
    obtain ⟨A, hA, lA, cA, mA⟩ := h1 hp.2.1
    obtain ⟨B, hB, lB, cB, mB⟩ := h2 hp.2.2
    have e0 : (List.replicate n (⊥ : Itv K)).length = A.length := by simp [lA]
    have l0 : (Bx.hull (List.replicate n ⊥) A).length = B.length := by rw [hull_length e0]; simp [lB]
    refine ⟨_, by simp only [hullBox, hA, hB, Option.bind_some, Option.map_some]; rfl, by rw [hull_length l0, l0, lB], fun v hv => ?_, fun Z hZ v hv => ?_⟩
    · rcases hv with hv | hv
      · exact mem_hull l0 (.inl (mem_hull e0 (.inr (cA v hv))))
      · exact mem_hull l0 (.inr (cB v hv))
    · refine hull_least (fun w hw => ?_) (mB Z fun w hw => hZ w (.inr hw)) hv
      exact hull_least (fun u hu => absurd hu (not_mem_of_isEmpty (empty_isEmpty hn))) (mA Z fun w hw => hZ w (.inl hw)) hw

theorem change_sized {n : Nat} {f : Pav K → Option (Pav K)} (hf : ∀ p p', p.Sized n → f p = some p' → p'.Sized n) {p : Pav K} : ∀ {path : List Bool} {p' : Pav K}, p.Sized n →
    p.change f path = some p' → p'.Sized n := by
  induction p with
  | leaf x =>
    intro path p' hp h
    cases path with
    | nil => exact hf _ _ hp h
    | cons => simp [change] at h
  | node x l r h1 h2 =>
    intro path p' hp h
    cases path with
    | nil => exact hf _ _ hp h
    | cons d path =>
      simp only [change] at h
      split_ifs at h
      · obtain ⟨r', hr, rfl⟩ := Option.map_eq_some_iff.mp h
        exact ⟨hp.1, hp.2.1, h2 hp.2.2 hr⟩
      · obtain ⟨l', hl, rfl⟩ := Option.map_eq_some_iff.mp h
        exact ⟨hp.1, h1 hp.2.1 hl, hp.2.2⟩

/-- a change of the points through a change at a path -/
theorem change_has {R : List K → Prop → Prop → Prop} (hr : ∀ v P Q S, R v P Q → R v (P ∨ S) (Q ∨ S)) (hr' : ∀ v P Q S, R v P Q → R v (S ∨ P) (S ∨ Q)) {n : Nat} {f : Pav K → Option (Pav K)}
    (hf : ∀ p p', p.Sized n → f p = some p' → ∀ v, R v (p.Has v) (p'.Has v)) {p : Pav K} : ∀ {path : List Bool} {p' : Pav K}, p.Sized n → p.change f path = some p' → ∀ v, R v (p.Has v) (p'.Has v) := by
  induction p with
  | leaf x =>
    intro path p' hp h
    cases path with
    | nil => exact hf _ _ hp h
    | cons => simp [change] at h
  | node x l r h1 h2 =>
    intro path p' hp h
    cases path with
    | nil => exact hf _ _ hp h
    | cons d path =>
      simp only [change] at h
      split_ifs at h
      · obtain ⟨r', hr1, rfl⟩ := Option.map_eq_some_iff.mp h
        exact fun v => hr' _ _ _ _ (h2 hp.2.2 hr1 v)
      · obtain ⟨l', hl, rfl⟩ := Option.map_eq_some_iff.mp h
        exact fun v => hr _ _ _ _ (h1 hp.2.1 hl v)

end Pav

end order

section field

variable {K : Type*} [Field K] [LinearOrder K] [IsStrictOrderedRing K]

theorem bisectHere_spec {c : Cut K} {p p' : Pav K} (h : Pav.bisectHere c p = some p') : ∃ x A B, p = .leaf x ∧ p' = .node x (.leaf A) (.leaf B) ∧ Bx.bisect c x = some (A, B) := by
  cases p with
  | leaf x =>
    simp only [Pav.bisectHere] at h
    split_ifs at h
    obtain ⟨⟨A, B⟩, hAB, rfl⟩ := Option.map_eq_some_iff.mp h
    exact ⟨x, A, B, rfl, rfl, hAB⟩
  | node => cases h

theorem bisect_has {c : Cut K} {x A B : Box K} (h : Bx.bisect c x = some (A, B)) (v : List K) : InBox v A ∨ InBox v B ↔ InBox v x := by
  obtain ⟨i, I, hi, hI, -, -, -, hA, hB, -⟩ := bisect_spec h
  rw [hA, hB]
  refine ⟨fun h => h.elim And.left And.left, fun hv => ?_⟩
  have hlt : i < v.length := by
    rw [hv.length]; exact (List.getElem?_eq_some_iff.mp hI).1
  rcases le_total v[i] (c.at' I) with hle | hle
  · exact .inl ⟨hv, fun y hy => by rw [List.getElem?_eq_getElem hlt] at hy; cases hy; exact hle⟩
  · exact .inr ⟨hv, fun y hy => by rw [List.getElem?_eq_getElem hlt] at hy; cases hy; exact hle⟩

theorem bisectHere_has {c : Cut K} {p p' : Pav K} (h : Pav.bisectHere c p = some p') (v : List K) : p'.Has v ↔ p.Has v := by
  obtain ⟨x, A, B, rfl, rfl, hAB⟩ := bisectHere_spec h
  exact bisect_has hAB v

theorem bisectHere_sized {n : Nat} {c : Cut K} {p p' : Pav K} (hp : p.Sized n) (h : Pav.bisectHere c p = some p') : p'.Sized n := by
  obtain ⟨x, A, B, rfl, rfl, hAB⟩ := bisectHere_spec h
  obtain ⟨i, I, hi, hI, -, h1, h2, -⟩ := bisect_spec hAB
  exact ⟨hp, h1.trans hp, h2.trans hp⟩

end field

end Codac.Pav2
