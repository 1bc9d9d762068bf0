import Verif.Tube.Basic
import Mathlib.Data.List.Sort

/-! # Sampling: lemmas -/

namespace Codac
variable {K : Type*} [LinearOrder K]

theorem sampleCells_ne_nil {t : K} {cs : List (Cell K)} (h : cs ≠ []) : sampleCells t cs ≠ [] := by
  cases cs with
  | nil => exact absurd rfl h
  | cons c cs => simp only [sampleCells]; split_ifs <;> simp

theorem sampleCells_tiles {t a b : K} {cs : List (Cell K)} (h : Tiles a cs b) (h1 : a ≤ t) (h2 : t ≤ b) :
    Tiles a (sampleCells t cs) b := by
  induction cs generalizing a with
  | nil => exact h
  | cons c cs ih =>
    obtain ⟨rfl, h3, h4⟩ := h
    simp only [sampleCells]
    split_ifs with h5 h6
    · exact ⟨rfl, h3, h4⟩
    · push Not at h6
      have h7 : t < c.ub := by
        rcases h5 with h5 | h5
        · exact h5
        · subst h5
          have : c.ub = b := h4
          exact lt_of_le_of_ne (this ▸ h2) (fun e => h6.2 e.symm)
      exact ⟨rfl, lt_of_le_of_ne h1 h6.1, rfl, h7, h4⟩
    · push Not at h5
      exact ⟨rfl, h3, ih h4 h5.1⟩

theorem sampleCells_gc {t : K} {g : Itv K} {cs : List (Cell K)}
    (h : AllSl (fun s => s.inG ≤ s.cod ∧ s.outG ≤ s.cod) g cs) :
    AllSl (fun s => s.inG ≤ s.cod ∧ s.outG ≤ s.cod) g (sampleCells t cs) := by
  induction cs generalizing g with
  | nil => simp [sampleCells]
  | cons c cs ih =>
    rw [allSl_cons] at h
    simp only [sampleCells]
    split_ifs
    · rw [allSl_cons]; exact h
    · simp only [inf_idem, allSl_cons, le_refl, and_true, true_and]
      exact ⟨h.1.1, h.1.2, h.2⟩
    · rw [allSl_cons]; exact ⟨h.1, ih h.2⟩

theorem sampleCells_encloses {t a b : K} {g : Itv K} {cs : List (Cell K)} {f : K → K} (ht : Tiles a cs b)
    (h1 : a ≤ t) (h2 : t ≤ b) :
    AllSl (fun s => s.Encloses f) g (sampleCells t cs) ↔ AllSl (fun s => s.Encloses f) g cs := by
  induction cs generalizing a g with
  | nil => simp [sampleCells]
  | cons c cs ih =>
    obtain ⟨rfl, h3, h4⟩ := ht
    simp only [sampleCells]
    split_ifs with h5 h6
    · exact Iff.rfl
    · push Not at h6
      have h7 : t < c.ub := by
        rcases h5 with h5 | h5
        · exact h5
        · subst h5
          have : c.ub = b := h4
          exact lt_of_le_of_ne (this ▸ h2) (fun e => h6.2 e.symm)
      have h8 : c.lb < t := lt_of_le_of_ne h1 h6.1
      simp only [inf_idem, allSl_cons, Slice.Encloses]
      constructor
      · rintro ⟨⟨e1, e2, e3⟩, ⟨-, e5, e6⟩, e7⟩
        refine ⟨⟨e1, e5, ?_⟩, e7⟩
        intro u hu1 hu2
        rcases lt_trichotomy u t with h | h | h
        · exact e3 u hu1 h
        · exact h ▸ e2
        · exact e6 u h hu2
      · rintro ⟨⟨e1, e2, e3⟩, e4⟩
        have := e3 t h8 h7
        exact ⟨⟨e1, this, fun u hu1 hu2 => e3 u hu1 (lt_trans hu2 h7)⟩,
          ⟨this, e2, fun u hu1 hu2 => e3 u (lt_trans h8 hu1) hu2⟩, e4⟩
    · push Not at h5
      rw [allSl_cons, allSl_cons, ih h4 h5.1]

theorem sample_wf {T : Tube K} (h : T.WF) {t : K} (h1 : T.t0 ≤ t) (h2 : t ≤ T.tf) : (T.sample t).WF :=
  ⟨sampleCells_ne_nil h.ne, sampleCells_tiles h.tiles h1 h2⟩

theorem sample_gc {T : Tube K} (h : T.GatesInEnvelopes) (t : K) : (T.sample t).GatesInEnvelopes :=
  sampleCells_gc h

theorem sample_encloses {T : Tube K} (h : T.WF) {t : K} (h1 : T.t0 ≤ t)
    (h2 : t ≤ T.tf) {f : K → K} : (T.sample t).Encloses f ↔ T.Encloses f :=
  sampleCells_encloses h.tiles h1 h2

/-- the bounds after sampling: those before, and `t` -/
theorem mem_ub_sampleCells {t a b : K} {cs : List (Cell K)} (ht : Tiles a cs b) (h1 : a ≤ t) (h2 : t ≤ b)
    {u : K} : u ∈ (sampleCells t cs).map Cell.ub ↔ u ∈ cs.map Cell.ub ∨ (u = t ∧ a < t) := by
  induction cs generalizing a with
  | nil =>
    have h3 : a = b := ht
    subst h3
    simp only [sampleCells, List.map_nil, List.not_mem_nil, false_or, false_iff]
    rintro ⟨-, h⟩; exact absurd h2 (not_le.mpr h)
  | cons c cs ih =>
    obtain ⟨rfl, h3, h4⟩ := ht
    simp only [sampleCells]
    split_ifs with h5 h6
    · rcases h6 with h6 | h6
      · simp [h6]
      · simp only [List.map_cons, List.mem_cons]
        constructor
        · exact Or.inl
        · rintro (h | ⟨rfl, -⟩)
          · exact h
          · exact Or.inl h6.symm
    · push Not at h6
      have h8 : c.lb < t := lt_of_le_of_ne h1 h6.1
      simp only [List.map_cons, List.mem_cons]
      tauto
    · push Not at h5
      rw [List.map_cons, List.mem_cons, ih h4 h5.1, List.map_cons, List.mem_cons]
      have h8 : c.lb < t := lt_of_lt_of_le h3 h5.1
      constructor
      · rintro (h | h | ⟨rfl, h⟩)
        · exact Or.inl (Or.inl h)
        · exact Or.inl (Or.inr h)
        · exact Or.inr ⟨rfl, h8⟩
      · rintro ((h | h) | ⟨rfl, h⟩)
        · exact Or.inl h
        · exact Or.inr (Or.inl h)
        · rcases lt_or_eq_of_le h5.1 with h9 | h9
          · exact Or.inr (Or.inr ⟨rfl, h9⟩)
          · exact Or.inl h9.symm

theorem Tiles.sorted {a b : K} {cs : List (Cell K)} (h : Tiles a cs b) :
    (cs.map Cell.ub).Pairwise (· < ·) ∧ ∀ u ∈ cs.map Cell.ub, a < u := by
  induction cs generalizing a with
  | nil => simp
  | cons c cs ih =>
    obtain ⟨rfl, h3, h4⟩ := h
    have := ih h4
    simp only [List.map_cons, List.pairwise_cons]
    refine ⟨⟨this.2, this.1⟩, ?_⟩
    intro u hu
    rcases List.mem_cons.mp hu with rfl | hu
    · exact h3
    · exact lt_trans h3 (this.2 u hu)

theorem Tiles.bounds_ext {a b b' : K} {cs cs' : List (Cell K)} (h : Tiles a cs b) (h' : Tiles a cs' b')
    (he : cs.map Cell.ub = cs'.map Cell.ub) :
    cs.map (fun c => (c.lb, c.ub)) = cs'.map (fun c => (c.lb, c.ub)) := by
  induction cs generalizing a cs' with
  | nil => cases cs' <;> simp_all
  | cons c cs ih =>
    cases cs' with
    | nil => simp at he
    | cons c' cs' =>
      simp only [List.map_cons, List.cons.injEq, Prod.mk.injEq] at he ⊢
      refine ⟨⟨h.1.trans h'.1.symm, he.1⟩, ih h.2.2 (he.1 ▸ h'.2.2) he.2⟩

/-- two tilings with the same set of bounds have the same slicing -/
theorem Tiles.bounds_ext_mem {a b b' : K} {cs cs' : List (Cell K)} (h : Tiles a cs b) (h' : Tiles a cs' b')
    (he : ∀ u, u ∈ cs.map Cell.ub ↔ u ∈ cs'.map Cell.ub) :
    cs.map (fun c => (c.lb, c.ub)) = cs'.map (fun c => (c.lb, c.ub)) := by
  apply h.bounds_ext h'
  have hn := h.sorted.1.imp (fun h => ne_of_lt h)
  have hn' := h'.sorted.1.imp (fun h => ne_of_lt h)
  have hp : (cs.map Cell.ub).Perm (cs'.map Cell.ub) := (List.perm_ext_iff_of_nodup hn hn').mpr he
  exact hp.eq_of_pairwise (fun a b _ _ h1 h2 => absurd (lt_trans h1 h2) (lt_irrefl _)) h.sorted.1 h'.sorted.1

theorem sampleCells_length {t a b : K} {cs : List (Cell K)} (ht : Tiles a cs b) (h1 : a ≤ t) (h2 : t ≤ b) :
    (sampleCells t cs).length =
      if t = a ∨ t ∈ cs.map Cell.ub then cs.length else cs.length + 1 := by
  induction cs generalizing a with
  | nil =>
    have h3 : a = b := ht
    subst h3
    simp [sampleCells, le_antisymm h1 h2]
  | cons c cs ih =>
    obtain ⟨rfl, h3, h4⟩ := ht
    simp only [sampleCells]
    split_ifs with h5 h6 h7 h7 h7
    · rfl
    · exfalso; apply h7
      rcases h6 with h6 | h6
      · exact Or.inl h6.symm
      · right; simp [h6]
    · exfalso
      push Not at h6
      rcases h7 with h7 | h7
      · exact h6.1 h7.symm
      · rw [List.map_cons, List.mem_cons] at h7
        rcases h7 with h7 | h7
        · exact h6.2 h7.symm
        · rcases h5 with h5 | h5
          · exact absurd (h4.sorted.2 t h7) (not_lt.mpr h5.le)
          · simp [h5] at h7
    · simp
    · push Not at h5
      rw [List.length_cons, ih h4 h5.1, if_pos, List.length_cons]
      rcases h7 with h7 | h7
      · exfalso; exact absurd h5.1 (not_le.mpr (h7 ▸ h3))
      · rw [List.map_cons, List.mem_cons] at h7; exact h7
    · push Not at h5
      rw [List.length_cons, ih h4 h5.1, if_neg, List.length_cons]
      intro h8; apply h7
      rw [List.map_cons, List.mem_cons]
      exact Or.inr h8

theorem sampleCells_eq_self {t a b : K} {cs : List (Cell K)} (ht : Tiles a cs b)
    (h : t = a ∨ t ∈ cs.map Cell.ub) : sampleCells t cs = cs := by
  induction cs generalizing a with
  | nil => rfl
  | cons c cs ih =>
    obtain ⟨rfl, h3, h4⟩ := ht
    simp only [sampleCells]
    split_ifs with h5 h6
    · rfl
    · exfalso
      push Not at h6
      rcases h with h | h
      · exact h6.1 h.symm
      · rw [List.map_cons, List.mem_cons] at h
        rcases h with h | h
        · exact h6.2 h.symm
        · rcases h5 with h5 | h5
          · exact absurd (h4.sorted.2 t h) (not_lt.mpr h5.le)
          · simp [h5] at h
    · push Not at h5
      rw [ih h4]
      rcases h with h | h
      · exfalso; exact absurd h5.1 (not_le.mpr (h ▸ h3))
      · rw [List.map_cons, List.mem_cons] at h; exact h

/-- what `slice(t)` returns on a tiling -/
theorem seek_spec {t a b : K} {g : Itv K} {cs : List (Cell K)} (ht : Tiles a cs b) (hne : cs ≠ [])
    (h1 : a ≤ t) (h2 : t ≤ b) :
    ∃ s ss, seek t (slicesFrom g cs) = s :: ss ∧ s ∈ slicesFrom g cs ∧ s.lb ≤ t ∧ t ≤ s.ub ∧
      (t < s.ub ∨ (t = b ∧ ss = [])) := by
  induction cs generalizing a g with
  | nil => exact absurd rfl hne
  | cons c cs ih =>
    obtain ⟨rfl, h3, h4⟩ := ht
    cases cs with
    | nil =>
      have h5 : c.ub = b := h4
      refine ⟨⟨c.lb, c.ub, c.cod, g, c.out⟩, [], rfl, by simp, h1, h5 ▸ h2, ?_⟩
      rcases lt_or_eq_of_le h2 with h | h
      · exact Or.inl (h5 ▸ h)
      · exact Or.inr ⟨h, rfl⟩
    | cons c' cs =>
      simp only [slicesFrom_cons, seek]
      split_ifs with h5
      · exact ⟨_, _, rfl, by simp, h1, h5.le, Or.inl h5⟩
      · obtain ⟨s, ss, e1, e2, e3⟩ := ih (g := c.out) h4 (by simp) (not_lt.mp h5)
        exact ⟨s, ss, e1, List.mem_cons_of_mem _ e2, e3⟩

end Codac
