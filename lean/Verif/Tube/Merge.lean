import Verif.Tube.Ops

/-! # Merging slices, truncating and shifting the time domain, comparing tubes: lemmas -/

namespace Codac
variable {K : Type*} [LinearOrder K]

/-- gates included in envelopes, as a predicate on slices -/
abbrev GC (s : Slice K) : Prop := s.inG ≤ s.cod ∧ s.outG ≤ s.cod

theorem merge_gc {g : Itv K} {c1 c2 : Cell K} (h2 : GC ⟨c2.lb, c2.ub, c2.cod, c1.out, c2.out⟩) :
    GC ⟨(mergeCells g c1 c2).2.lb, (mergeCells g c1 c2).2.ub, (mergeCells g c1 c2).2.cod, (mergeCells g c1 c2).1,
      (mergeCells g c1 c2).2.out⟩ :=
  ⟨inf_le_right, le_trans h2.2 le_sup_right⟩

theorem merge_encloses {g : Itv K} {c1 c2 : Cell K} {f : K → K} (hb : c2.lb = c1.ub)
    (hg : GC ⟨c1.lb, c1.ub, c1.cod, g, c1.out⟩)
    (h1 : Slice.Encloses ⟨c1.lb, c1.ub, c1.cod, g, c1.out⟩ f)
    (h2 : Slice.Encloses ⟨c2.lb, c2.ub, c2.cod, c1.out, c2.out⟩ f) :
    Slice.Encloses ⟨(mergeCells g c1 c2).2.lb, (mergeCells g c1 c2).2.ub, (mergeCells g c1 c2).2.cod, (mergeCells g c1 c2).1,
      (mergeCells g c1 c2).2.out⟩ f := by
  refine ⟨?_, h2.2.1, ?_⟩
  · rw [mergeCells, Itv.mem_inf]
    exact ⟨h1.1, Itv.mem_sup_left (Itv.mem_of_le hg.1 h1.1)⟩
  · intro t h3 h4
    rcases lt_trichotomy t c1.ub with h | h | h
    · exact Itv.mem_sup_left (h1.2.2 t h3 h)
    · subst h; exact Itv.mem_sup_left (Itv.mem_of_le hg.2 h1.2.1)
    · exact Itv.mem_sup_right (h2.2.2 t (by rw [hb]; exact h) h4)

theorem removeFrom_spec {t : K} {g : Itv K} {cs : List (Cell K)} {r : Itv K × List (Cell K)}
    (h : removeFrom t g cs = some r) {a b : K} (ht : Tiles a cs b) (hg : AllSl GC g cs) :
    Tiles a r.2 b ∧ r.2.length + 1 = cs.length ∧ r.1 ≤ g ∧ AllSl GC r.1 r.2 ∧
      (∀ u, u ∈ r.2.map Cell.ub ↔ u ∈ cs.map Cell.ub ∧ u ≠ t) ∧
      (∀ f, AllSl (fun s => s.Encloses f) g cs → AllSl (fun s => s.Encloses f) r.1 r.2 ∧ (cs ≠ [] → f a ∈ r.1)) := by
  fun_induction removeFrom t g cs generalizing r a with
  | case1 g c1 c2 cs e =>
    cases h
    obtain ⟨rfl, h2, h3, h4, h5⟩ := ht
    rw [allSl_cons, allSl_cons] at hg
    refine ⟨⟨rfl, ?_, h5⟩, by simp, inf_le_left, ?_, ?_, ?_⟩
    · exact lt_trans h2 (h3 ▸ h4)
    · rw [allSl_cons]; exact ⟨merge_gc hg.2.1, hg.2.2⟩
    · intro u
      have hs := h5.sorted.2 u
      simp only [List.map_cons, List.mem_cons]
      have e2 : c1.ub = t := by rw [← h3, e]
      constructor
      · rintro (rfl | h)
        · exact ⟨Or.inr (Or.inl rfl), by rw [← e]; exact ne_of_gt h4⟩
        · exact ⟨Or.inr (Or.inr h), ne_of_gt (lt_trans (by rw [← e]; exact h4) (hs h))⟩
      · rintro ⟨rfl | h | h, h'⟩
        · exact absurd e2 h'
        · exact Or.inl h
        · exact Or.inr h
    · intro f hf
      rw [allSl_cons, allSl_cons] at hf
      have hm := merge_encloses h3 hg.1 hf.1 hf.2.1
      refine ⟨?_, fun _ => hm.1⟩
      rw [allSl_cons]; exact ⟨hm, hf.2.2⟩
  | case2 g c1 c2 cs e ih =>
    rw [Option.map_eq_some_iff] at h
    obtain ⟨r', h', rfl⟩ := h
    obtain ⟨rfl, h2, h3⟩ := ht
    rw [allSl_cons] at hg
    obtain ⟨i1, i2, i3, i4, i5, i6⟩ := ih h' h3 hg.2
    refine ⟨⟨rfl, h2, i1⟩, ?_, le_refl _, ?_, ?_, ?_⟩
    · simp only [List.length_cons] at i2 ⊢; omega
    · rw [allSl_cons]; exact ⟨⟨hg.1.1, le_trans i3 hg.1.2⟩, i4⟩
    · intro u
      have h6 := i5 u
      have hne : c1.ub ≠ t := by rw [← h3.1]; exact e
      simp only [List.map_cons, List.mem_cons] at h6 ⊢
      rw [h6]
      constructor
      · rintro (rfl | h)
        · exact ⟨Or.inl rfl, hne⟩
        · exact ⟨Or.inr h.1, h.2⟩
      · rintro ⟨rfl | h, h'⟩
        · exact Or.inl rfl
        · exact Or.inr ⟨h, h'⟩
    · intro f hf
      rw [allSl_cons] at hf
      obtain ⟨j1, j2⟩ := i6 f hf.2
      refine ⟨?_, fun _ => hf.1.1⟩
      rw [allSl_cons]
      exact ⟨⟨hf.1.1, j2 (by simp), hf.1.2.2⟩, j1⟩
  | case3 => simp at h

theorem removeFrom_isSome {t : K} {g : Itv K} {cs : List (Cell K)} {a b : K} (ht : Tiles a cs b) (h1 : t ≠ b)
    (h2 : t ∈ cs.map Cell.ub) : (removeFrom t g cs).isSome := by
  fun_induction removeFrom t g cs generalizing a with
  | case1 => rfl
  | case2 g c1 c2 cs e ih =>
    rw [Option.isSome_map]
    apply ih ht.2.2
    rw [List.map_cons, List.mem_cons] at h2
    rcases h2 with rfl | h2
    · exact absurd ht.2.2.1 e
    · exact h2
  | case3 =>
    rename_i cs _ h
    match cs, h, ht with
    | [], _, _ => simp at h2
    | [c], _, ht => simp at h2; exact absurd (h2.trans ht.2.2) h1
    | c1 :: c2 :: cs, h, _ => exact absurd rfl (h c1 c2 cs)

theorem mergeLoop_spec {near : Itv K → Itv K → Bool} {g : Itv K} {c : Cell K} {cs : List (Cell K)} {a b : K}
    (ht : Tiles a (c :: cs) b) (hg : AllSl GC g (c :: cs)) :
    Tiles a (mergeLoop near g c cs).2 b ∧ (mergeLoop near g c cs).2 ≠ [] ∧
      (mergeLoop near g c cs).2.length ≤ cs.length + 1 ∧
      (mergeLoop near g c cs).1 ≤ g ∧
      AllSl GC (mergeLoop near g c cs).1 (mergeLoop near g c cs).2 ∧
      (∀ u ∈ (mergeLoop near g c cs).2.map Cell.ub, u ∈ (c :: cs).map Cell.ub) ∧
      (∀ f, AllSl (fun s => s.Encloses f) g (c :: cs) →
        AllSl (fun s => s.Encloses f) (mergeLoop near g c cs).1 (mergeLoop near g c cs).2 ∧
          f a ∈ (mergeLoop near g c cs).1) := by
  induction cs generalizing g c a with
  | nil =>
    refine ⟨ht, by simp [mergeLoop], by simp [mergeLoop], le_refl _, hg, by simp [mergeLoop], ?_⟩
    intro f hf
    refine ⟨hf, ?_⟩
    rw [allSl_cons] at hf
    obtain ⟨rfl, -⟩ := ht
    exact hf.1.1
  | cons c2 cs ih =>
    obtain ⟨rfl, h2, h3, h4, h5⟩ := ht
    rw [allSl_cons, allSl_cons] at hg
    simp only [mergeLoop]
    split_ifs with hn
    · have hm : Tiles c.lb ((mergeCells g c c2).2 :: cs) b := ⟨rfl, lt_trans h2 (h3 ▸ h4), h5⟩
      have hmg : AllSl GC (mergeCells g c c2).1 ((mergeCells g c c2).2 :: cs) := by
        rw [allSl_cons]; exact ⟨merge_gc hg.2.1, hg.2.2⟩
      obtain ⟨i1, i2, i3, i4, i5, i7, i6⟩ := ih hm hmg
      refine ⟨i1, i2, by simp only [List.length_cons]; omega, le_trans i4 inf_le_left, i5, ?_, ?_⟩
      · intro u hu
        have := i7 u hu
        simp only [mergeCells, List.map_cons, List.mem_cons] at this ⊢
        tauto
      · intro f hf
        rw [allSl_cons, allSl_cons] at hf
        apply i6
        rw [allSl_cons]
        exact ⟨merge_encloses h3 hg.1 hf.1 hf.2.1, hf.2.2⟩
    · have hm : Tiles c.ub (c2 :: cs) b := ⟨h3, h4, h5⟩
      have hmg : AllSl GC c.out (c2 :: cs) := by rw [allSl_cons]; exact hg.2
      obtain ⟨i1, i2, i3, i4, i5, i7, i6⟩ := ih hm hmg
      refine ⟨⟨rfl, h2, i1⟩, by simp, by simp only [List.length_cons]; omega, le_refl _, ?_, ?_, ?_⟩
      · rw [allSl_cons]; exact ⟨⟨hg.1.1, le_trans i4 hg.1.2⟩, i5⟩
      · intro u hu
        simp only [List.map_cons, List.mem_cons] at hu ⊢
        rcases hu with h | h
        · exact Or.inl h
        · have := i7 u h
          simp only [List.map_cons, List.mem_cons] at this
          exact Or.inr this
      · intro f hf
        rw [allSl_cons] at hf
        obtain ⟨j1, j2⟩ := i6 f hf.2
        refine ⟨?_, hf.1.1⟩
        rw [allSl_cons]
        exact ⟨⟨hf.1.1, j2, hf.1.2.2⟩, j1⟩

/-! ### truncation -/

theorem degenerated_inter {a b l u : K} (h1 : a ≤ b) (h2 : l ≤ u) :
    (Itv.icc a b ⊓ Itv.icc l u).isDegenerated = true ↔ min b u ≤ max a l := by
  rw [Itv.icc_eq_mk h1, Itv.icc_eq_mk h2]
  show (Itv.ofBounds (some (max a l)) (some (min b u))).isDegenerated = true ↔ _
  unfold Itv.ofBounds
  split_ifs with h
  · simp only [Itv.isDegenerated, decide_eq_true_eq]
    exact ⟨fun e => e ▸ le_refl _, fun h' => le_antisymm h h'⟩
  · simp only [Itv.isDegenerated, true_iff]
    exact (not_le.mp h).le

theorem dropCell_iff {u a b : K} {c : Cell K} (hab : a ≤ b) (hc : c.lb ≤ c.ub) :
    dropCell u a b c = true ↔ ¬ (c.lb ≤ u ∧ u ≤ c.ub) ∨ min b c.ub ≤ max a c.lb := by
  unfold dropCell
  rw [Bool.or_eq_true, decide_eq_true_eq, degenerated_inter hab hc]

theorem truncBack_nil (a b : K) : truncBack a b [] = [] := rfl

theorem truncBack_cons (a b : K) (c : Cell K) (cs : List (Cell K)) :
    truncBack a b (c :: cs) = if truncBack a b cs = [] then (if dropCell b a b c then [] else [clipCell a b c])
      else c :: truncBack a b cs := by
  unfold truncBack
  rw [List.reverse_cons]
  cases h : cs.reverse.dropWhile (dropCell b a b) with
  | nil =>
    rw [List.dropWhile_append, h]
    by_cases hc : dropCell b a b c <;> simp [hc]
  | cons x xs =>
    rw [List.dropWhile_append, h]
    simp

/-- beyond `b` everything is removed -/
theorem truncBack_out {a b l r : K} {cs : List (Cell K)} (hab : a < b) (ht : Tiles l cs r) (h : b ≤ l) :
    truncBack a b cs = [] := by
  induction cs generalizing l with
  | nil => rfl
  | cons c cs ih =>
    obtain ⟨rfl, h2, h3⟩ := ht
    rw [truncBack_cons, if_pos (ih h3 (le_trans h h2.le)), if_pos]
    rw [dropCell_iff hab.le h2.le]
    right
    exact le_trans (min_le_left _ _) (le_trans h (le_max_right _ _))

/-- `f` is in the slice, except possibly at the bounds `a` and `b` -/
def Slice.EnclosesBut (a b : K) (A B : Prop) (f : K → K) (s : Slice K) : Prop :=
  ((s.lb ≠ a ∨ A) → f s.lb ∈ s.inG) ∧ ((s.ub ≠ b ∨ B) → f s.ub ∈ s.outG) ∧ ∀ t, s.lb < t → t < s.ub → f t ∈ s.cod

/-- what truncation at the end gives, for a list starting inside `[a,b]` -/
theorem truncBack_spec {a b l r : K} {g : Itv K} {cs : List (Cell K)} (hab : a < b) (ht : Tiles l cs r) (hl : a ≤ l)
    (hlb : l < b) (hbr : b ≤ r) {f : K → K} {A : Prop} :
    Tiles l (truncBack a b cs) b ∧ truncBack a b cs ≠ [] ∧
      (AllSl GC g cs → AllSl GC g (truncBack a b cs)) ∧
      (AllSl (Slice.EnclosesBut a b A True f) g cs →
        AllSl (Slice.EnclosesBut a b A (b ∈ cs.map Cell.ub) f) g (truncBack a b cs)) := by
  induction cs generalizing l g with
  | nil => exact absurd (lt_of_lt_of_le hlb hbr) (by rw [show l = r from ht]; exact lt_irrefl _)
  | cons c cs ih =>
    obtain ⟨rfl, h2, h3⟩ := ht
    rw [truncBack_cons]
    by_cases hc : b ≤ c.ub
    · rw [if_pos (truncBack_out hab h3 hc), if_neg]
      · have e1 : max a c.lb = c.lb := max_eq_right hl
        have e2 : min b c.ub = b := min_eq_left hc
        refine ⟨⟨?_, ?_, ?_⟩, by simp, ?_, ?_⟩
        · simp [clipCell, e1]
        · simp [clipCell, e1, e2, hlb]
        · simp [clipCell, e2, Tiles]
        · intro hg
          rw [allSl_cons] at hg
          rw [allSl_cons]
          exact ⟨⟨hg.1.1, hg.1.2⟩, by simp⟩
        · intro hf
          rw [allSl_cons] at hf
          rw [allSl_cons]
          refine ⟨⟨?_, ?_, ?_⟩, by simp⟩
          · simp only [clipCell, e1]; exact hf.1.1
          · simp only [clipCell, e2]
            rintro (h | h)
            · exact absurd rfl h
            · have : b = c.ub := by
                rw [List.map_cons, List.mem_cons] at h
                rcases h with h | h
                · exact h
                · exact absurd (lt_of_le_of_lt hc (h3.sorted.2 b h)) (lt_irrefl _)
              rw [this]; exact hf.1.2.1 (Or.inr trivial)
          · simp only [clipCell, e1, e2]
            intro t h4 h5
            exact hf.1.2.2 t h4 (lt_of_lt_of_le h5 hc)
      · rw [dropCell_iff hab.le h2.le, min_eq_left hc, max_eq_right hl]
        push Not
        exact ⟨⟨hlb.le, hc⟩, hlb⟩
    · rw [not_le] at hc
      obtain ⟨i1, i2, i3, i4⟩ := ih (g := c.out) h3 (le_trans hl h2.le) hc
      rw [if_neg i2]
      refine ⟨⟨rfl, h2, i1⟩, by simp, ?_, ?_⟩
      · intro hg; rw [allSl_cons] at hg ⊢; exact ⟨hg.1, i3 hg.2⟩
      · intro hf
        rw [allSl_cons] at hf ⊢
        have hiff : (b ∈ (c :: cs).map Cell.ub) ↔ (b ∈ cs.map Cell.ub) := by
          rw [List.map_cons, List.mem_cons]
          exact ⟨fun h => h.resolve_left (ne_of_gt hc), Or.inr⟩
        rw [hiff]
        exact ⟨⟨hf.1.1, fun _ => hf.1.2.1 (Or.inr trivial), hf.1.2.2⟩, i4 hf.2⟩

/-- what truncation at the beginning gives -/
theorem truncFront_spec {a b l r : K} {g : Itv K} {cs : List (Cell K)} (hab : a < b) (ht : Tiles l cs r)
    (hl : l ≤ a) (hbr : b ≤ r) {f : K → K} :
    ∃ g' c cs', truncFront a b g cs = (g', clipCell a b c :: cs') ∧ c.lb ≤ a ∧ a < c.ub ∧ Tiles c.ub cs' r ∧
      (c.lb = a ↔ (a = l ∨ a ∈ cs.map Cell.ub)) ∧
      (AllSl GC g cs → AllSl GC g' (c :: cs')) ∧
      (∀ u, u ∈ (c :: cs').map Cell.ub ↔ u ∈ cs.map Cell.ub ∧ a < u) ∧
      (AllSl (fun s => s.Encloses f) g cs → AllSl (fun s => s.Encloses f) g' (c :: cs')) := by
  induction cs generalizing l g with
  | nil => exact absurd (lt_of_le_of_lt hl (lt_of_lt_of_le hab hbr)) (by rw [show l = r from ht]; exact lt_irrefl _)
  | cons c cs ih =>
    obtain ⟨rfl, h2, h3⟩ := ht
    simp only [truncFront]
    by_cases hc : a < c.ub
    · rw [if_neg]
      · refine ⟨g, c, cs, rfl, hl, hc, h3, ?_, id, ?_, id⟩
        · constructor
          · exact fun h => Or.inl h.symm
          · rintro (h | h)
            · exact h.symm
            · rw [List.map_cons, List.mem_cons] at h
              rcases h with h | h
              · exact absurd hc (by rw [h]; exact lt_irrefl _)
              · exact absurd (lt_trans hc (h3.sorted.2 a h)) (lt_irrefl _)
        · intro u
          constructor
          · intro h
            refine ⟨h, ?_⟩
            rw [List.map_cons, List.mem_cons] at h
            rcases h with h | h
            · rw [h]; exact hc
            · exact lt_trans hc (h3.sorted.2 u h)
          · exact fun h => h.1
      · rw [dropCell_iff hab.le h2.le, max_eq_left hl]
        push Not
        exact ⟨⟨hl, hc.le⟩, lt_min hab hc⟩
    · rw [if_pos]
      · rw [not_lt] at hc
        obtain ⟨g', c', cs', i1, i2, i3, i4, i5, i6, i7, i8⟩ := ih (g := c.out) h3 hc
        refine ⟨g', c', cs', i1, i2, i3, i4, ?_, ?_, ?_, ?_⟩
        · rw [i5, List.map_cons, List.mem_cons]
          constructor
          · rintro (h | h)
            · exact Or.inr (Or.inl h)
            · exact Or.inr (Or.inr h)
          · rintro (h | h | h)
            · exact absurd (lt_of_lt_of_le h2 hc) (by rw [h]; exact lt_irrefl _)
            · exact Or.inl h
            · exact Or.inr h
        · intro hg; rw [allSl_cons] at hg; exact i6 hg.2
        · intro u
          rw [i7 u, List.map_cons, List.mem_cons]
          constructor
          · exact fun h => ⟨Or.inr h.1, h.2⟩
          · rintro ⟨h | h, h'⟩
            · rw [h] at h'; exact absurd hc (not_le.mpr h')
            · exact ⟨h, h'⟩
        · intro hf; rw [allSl_cons] at hf; exact i8 hf.2
      · rw [dropCell_iff hab.le h2.le]
        right
        rw [not_lt] at hc
        exact le_trans (min_le_right _ _) (le_trans hc (le_max_left _ _))

theorem truncate_spec {T : Tube K} (hT : T.WF) {a b : K} (hab : a < b) (ha : T.t0 ≤ a) (hb : b ≤ T.tf) :
    (T.truncate a b).WF ∧ (T.GatesInEnvelopes → (T.truncate a b).GatesInEnvelopes) ∧
      ∀ f, T.Encloses f → ∀ s ∈ (T.truncate a b).slices,
        s.EnclosesBut a b (a = T.t0 ∨ a ∈ T.cells.map Cell.ub) (b ∈ T.cells.map Cell.ub) f := by
  obtain ⟨g', c, cs', i1, i2, i3, i4, i5, i6, i7, -⟩ :=
    truncFront_spec (g := T.g0) (f := fun x => x) hab hT.tiles ha hb
  have hcl : clipCell a b c = ⟨a, min b c.ub, c.cod, c.out⟩ := by simp [clipCell, max_eq_left i2]
  -- the two cases: `b` inside the first remaining slice, or beyond
  by_cases hc : b < c.ub
  · have e : (T.truncate a b) = ⟨a, b, g', [⟨a, b, c.cod, c.out⟩]⟩ := by
      unfold Tube.truncate
      simp only [i1]
      rw [truncBack_cons, if_pos (truncBack_out hab i4 hc.le), hcl, min_eq_left hc.le, if_neg]
      · simp [clipCell]
      · rw [dropCell_iff hab.le hab.le]; simp [hab, hab.le]
    rw [e]
    refine ⟨⟨by simp, ⟨rfl, hab, rfl⟩⟩, ?_, ?_⟩
    · intro hg
      have := i6 hg
      rw [allSl_cons] at this
      rw [Tube.gc_def, allSl_cons]
      exact ⟨this.1, by simp⟩
    · intro f hf s hs
      obtain ⟨g2, c2, cs2, k1, k2, k3, k4, k5, k6, k7, k8⟩ := truncFront_spec (g := T.g0) (f := f) hab hT.tiles ha hb
      have hfe := k8 hf
      rw [i1, Prod.mk.injEq, List.cons.injEq] at k1
      obtain ⟨rfl, k1, rfl⟩ := k1
      rw [allSl_cons] at hfe
      have e1 : c2.cod = c.cod := by
        have := congrArg Cell.cod k1; simpa [clipCell] using this.symm
      have e2 : min b c2.ub = min b c.ub := by
        have := congrArg Cell.ub k1; simpa [clipCell] using this.symm
      have e3 : c2.out = c.out := by
        have := congrArg Cell.out k1; simpa [clipCell] using this.symm
      have hs' : s = ⟨a, b, c.cod, g', c.out⟩ := by simpa [Tube.slices] using hs
      subst hs'
      have hbc2 : b ≤ c2.ub := by rw [min_eq_left hc.le] at e2; rw [← e2]; exact min_le_right _ _
      refine ⟨?_, ?_, ?_⟩
      · rintro (h | h)
        · exact absurd rfl h
        · have h5 := k5.mpr h
          have := hfe.1.1
          simp only [h5] at this
          exact this
      · rintro (h | h)
        · exact absurd rfl h
        · -- `b` is a bound, but inside `c`: impossible
          have h7 := (i7 b).mpr ⟨h, hab⟩
          rw [List.map_cons, List.mem_cons] at h7
          rcases h7 with h7 | h7
          · exact absurd hc (by rw [h7]; exact lt_irrefl _)
          · exact absurd (lt_trans hc (i4.sorted.2 b h7)) (lt_irrefl _)
      · intro t h3 h4
        have := hfe.1.2.2 t (lt_of_le_of_lt k2 h3) (lt_of_lt_of_le h4 hbc2)
        rw [e1] at this; exact this
  · rw [not_lt] at hc
    have ht' : Tiles a ((⟨a, c.ub, c.cod, c.out⟩ : Cell K) :: cs') T.tf := ⟨rfl, i3, i4⟩
    have e : (T.truncate a b) = ⟨a, b, g', truncBack a b ((⟨a, c.ub, c.cod, c.out⟩ : Cell K) :: cs')⟩ := by
      unfold Tube.truncate
      simp only [i1]
      rw [hcl, min_eq_right hc]
    rw [e]
    have hspec := fun (f : K → K) => truncBack_spec (g := g') hab ht' (le_refl _) hab hb (f := f)
      (A := (a = T.t0 ∨ a ∈ T.cells.map Cell.ub))
    refine ⟨⟨(hspec id).2.1, (hspec id).1⟩, ?_, ?_⟩
    · intro hg
      apply (hspec id).2.2.1
      have := i6 hg
      rw [allSl_cons] at this ⊢
      exact this
    · intro f hf s hs
      obtain ⟨g2, c2, cs2, k1, k2, k3, k4, k5, k6, k7, k8⟩ := truncFront_spec (g := T.g0) (f := f) hab hT.tiles ha hb
      have hfe := k8 hf
      rw [i1, Prod.mk.injEq, List.cons.injEq] at k1
      obtain ⟨rfl, k1, rfl⟩ := k1
      have e1 : c2.cod = c.cod := by
        have := congrArg Cell.cod k1; simpa [clipCell] using this.symm
      have e2 : min b c2.ub = c.ub := by
        have := congrArg Cell.ub k1; simpa [clipCell, min_eq_right hc] using this.symm
      have e3 : c2.out = c.out := by
        have := congrArg Cell.out k1; simpa [clipCell] using this.symm
      -- `c2.ub = c.ub`, as the list that follows starts there
      have e4 : c2.ub = c.ub := by
        by_cases h : b < c2.ub
        · rw [min_eq_left h.le] at e2
          exfalso
          -- then `b = c.ub` is a bound after which `cs'` starts, but also inside `c2`
          have h1 : c.ub ∈ T.cells.map Cell.ub := ((i7 c.ub).mp (by simp)).1
          have h2 := (k7 c.ub).mpr ⟨h1, i3⟩
          rw [List.map_cons, List.mem_cons] at h2
          rcases h2 with h2 | h2
          · rw [← h2, ← e2] at h; exact lt_irrefl _ h
          · have := k4.sorted.2 _ h2
            rw [← e2] at this; exact lt_irrefl _ (lt_trans h this)
        · rw [min_eq_right (not_lt.mp h)] at e2; exact e2
      have hfe' : AllSl (Slice.EnclosesBut a b (a = T.t0 ∨ a ∈ T.cells.map Cell.ub) True f) g'
          ((⟨a, c.ub, c.cod, c.out⟩ : Cell K) :: cs') := by
        rw [allSl_cons] at hfe ⊢
        refine ⟨⟨?_, ?_, ?_⟩, ?_⟩
        · rintro (h | h)
          · exact absurd rfl h
          · have h5 := k5.mpr h
            have := hfe.1.1
            simp only [h5] at this
            exact this
        · intro _
          have := hfe.1.2.1
          simp only [e4, e3] at this; exact this
        · intro t h3 h4
          have := hfe.1.2.2 t (lt_of_le_of_lt k2 h3) (by rw [e4]; exact h4)
          rw [e1] at this; exact this
        · intro s hs
          have := hfe.2 s (by rw [e3]; exact hs)
          exact ⟨fun _ => this.1, fun _ => this.2.1, this.2.2⟩
      have := (hspec f).2.2.2 hfe' s hs
      have hiff : (b ∈ ((⟨a, c.ub, c.cod, c.out⟩ : Cell K) :: cs').map Cell.ub) ↔ b ∈ T.cells.map Cell.ub := by
        have := i7 b
        simp only [List.map_cons] at this ⊢
        rw [this]
        exact ⟨fun h => h.1, fun h => ⟨h, hab⟩⟩
      rw [hiff] at this
      exact this

/-! ### evaluation determines the enclosed trajectories -/

theorem encloses_iff_evalAt {T : Tube K} (hT : T.WF) {f : K → K} :
    T.Encloses f ↔ ∀ t, T.t0 ≤ t → t ≤ T.tf → f t ∈ T.evalAt t := by
  constructor
  · intro h t _ _; exact evalAt_mem hT h t
  · intro h s hs
    have hb := hT.tiles.mem_bounds hs
    refine ⟨?_, ?_, ?_⟩
    · rw [← T.evalAt_lb hT hs]; exact h _ hb.1 (le_trans hb.2.1.le hb.2.2)
    · rw [← T.evalAt_ub hT hs]; exact h _ (le_trans hb.1 hb.2.1.le) hb.2.2
    · intro t h1 h2
      rw [← T.evalAt_interior hT hs h1 h2]; exact h _ (le_trans hb.1 h1.le) (le_trans h2.le hb.2.2)

end Codac
