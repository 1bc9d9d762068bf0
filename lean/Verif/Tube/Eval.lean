import Verif.Tube.Sample

/-! # Evaluation and inversion of tubes: model of `invert`, lemmas on both -/

namespace Codac
variable {K : Type*} [LinearOrder K]

theorem evalAt_mem {T : Tube K} (h : T.WF) {f : K → K} (hf : T.Encloses f) (t : K) : f t ∈ T.evalAt t := by
  unfold Tube.evalAt
  split_ifs with h0
  · obtain ⟨s, ss, e1, e2, e3, e4, -⟩ := seek_spec (g := T.g0) h.tiles h.ne h0.1 h0.2
    have : (seek t T.slices).head? = some s := by rw [Tube.slices, e1]; rfl
    rw [this]
    obtain ⟨f1, f2, f3⟩ := hf s e2
    simp only [Slice.evalAt]
    split_ifs with h1 h2 h3
    · exact h2 ▸ f1
    · exact h3 ▸ f2
    · exact f3 t (lt_of_le_of_ne e3 (Ne.symm h2)) (lt_of_le_of_ne e4 h3)
    · exact Itv.mem_top _
  · exact Itv.mem_top _

/-- the loop computes the hull of the envelopes of the slices starting before `b` -/
theorem hullUpTo_le_iff {a b b0 : K} {g : Itv K} {cs : List (Cell K)} (ht : Tiles a cs b0)
    (h1 : a ≤ b) {X : Itv K} :
    hullUpTo b (slicesFrom g cs) ≤ X ↔ ∀ s ∈ slicesFrom g cs, s.lb < b → s.cod ≤ X := by
  induction cs generalizing a g with
  | nil => simp [hullUpTo]
  | cons c cs ih =>
    obtain ⟨rfl, h3, h4⟩ := ht
    have hlate : ∀ s ∈ slicesFrom c.out cs, c.ub ≤ s.lb := fun s hs => (h4.mem_bounds hs).1
    cases cs with
    | nil =>
      simp only [slicesFrom_cons, slicesFrom_nil, hullUpTo, List.mem_cons, List.not_mem_nil, or_false,
        forall_eq]
      split_ifs with h5
      · have : c.lb < b := lt_of_le_of_ne h1 h5
        simp [this]
      · push Not at h5
        simp [h5]
    | cons c' cs =>
      rw [slicesFrom_cons, List.forall_mem_cons]
      change (if b < c.ub then (if c.lb ≠ b then c.cod else ⊥)
        else c.cod ⊔ hullUpTo b (slicesFrom c.out (c' :: cs))) ≤ X ↔ _
      split_ifs with h5 h6
      · have : c.lb < b := lt_of_le_of_ne h1 h6
        constructor
        · intro h
          refine ⟨fun _ => h, ?_⟩
          intro s hs hb
          exact absurd (lt_of_lt_of_le h5 (hlate s hs)) (not_lt.mpr hb.le)
        · intro h; exact h.1 this
      · push Not at h6
        simp only [bot_le, true_iff]
        refine ⟨fun h => absurd h (by simp [h6]), ?_⟩
        intro s hs hb
        exact absurd (lt_of_lt_of_le h5 (hlate s hs)) (not_lt.mpr hb.le)
      · push Not at h5
        rw [sup_le_iff, ih h4 h5]
        have : c.lb < b := lt_of_lt_of_le h3 h5
        simp [this]

/-- `seek` as a suffix of the list of cells -/
theorem seek_suffix {t a b : K} {g : Itv K} {cs : List (Cell K)} (ht : Tiles a cs b) (hne : cs ≠ [])
    (h1 : a ≤ t) :
    ∃ a' g' cs', seek t (slicesFrom g cs) = slicesFrom g' cs' ∧ cs' ≠ [] ∧ Tiles a' cs' b ∧ a ≤ a' ∧ a' ≤ t ∧
      (t < b → a' < b) ∧
      (∀ s ∈ slicesFrom g cs, t < s.ub ∨ s ∈ slicesFrom g' cs' ∨ s.ub ≤ a') ∧
      (∀ s ∈ slicesFrom g cs, t < s.ub → s ∈ slicesFrom g' cs') ∧
      (∀ s ∈ slicesFrom g' cs', s ∈ slicesFrom g cs) ∧
      (t < b → ∀ s ∈ slicesFrom g' cs', t < s.ub) := by
  induction cs generalizing a g with
  | nil => exact absurd rfl hne
  | cons c cs ih =>
    have ht0 := ht
    obtain ⟨rfl, h3, h4⟩ := ht
    cases cs with
    | nil =>
      have h5 : c.ub = b := h4
      refine ⟨c.lb, g, [c], rfl, by simp, ht0, le_refl _, h1, fun _ => h5 ▸ h3, ?_, fun s hs _ => hs,
        fun s hs => hs, ?_⟩
      · intro s hs; exact Or.inr (Or.inl hs)
      · intro h s hs
        simp only [slicesFrom_cons, slicesFrom_nil, List.mem_singleton] at hs
        subst hs; exact h5 ▸ h
    | cons c' cs =>
      have hl : ∀ s ∈ slicesFrom c.out (c' :: cs), c.ub ≤ s.lb ∧ s.lb < s.ub :=
        fun s hs => ⟨(h4.mem_bounds hs).1, (h4.mem_bounds hs).2.1⟩
      by_cases h5 : t < c.ub
      · refine ⟨c.lb, g, c :: c' :: cs, ?_, by simp, ht0, le_refl _, h1, ?_, ?_, fun s hs _ => hs,
          fun s hs => hs, ?_⟩
        · simp [seek, h5]
        · intro h; exact lt_of_le_of_lt h1 h
        · intro s hs; exact Or.inr (Or.inl hs)
        · intro _ s hs
          rw [slicesFrom_cons, List.mem_cons] at hs
          rcases hs with rfl | hs
          · exact h5
          · exact lt_trans (lt_of_lt_of_le h5 (hl s hs).1) (hl s hs).2
      · obtain ⟨a', g', cs', e1, e2, e3, e4, e5, e6, e7, e8, e9, e10⟩ :=
          ih (g := c.out) h4 (by simp) (not_lt.mp h5)
        refine ⟨a', g', cs', ?_, e2, e3, le_trans h3.le e4, e5, e6, ?_, ?_, ?_, e10⟩
        · rw [← e1]; simp [seek, h5]
        · intro s hs
          rw [slicesFrom_cons, List.mem_cons] at hs
          rcases hs with rfl | hs
          · exact Or.inr (Or.inr e4)
          · exact e7 s hs
        · intro s hs h
          rw [slicesFrom_cons, List.mem_cons] at hs
          rcases hs with rfl | hs
          · exact absurd h h5
          · exact e8 s hs h
        · intro s hs
          rw [slicesFrom_cons]
          exact List.mem_cons_of_mem _ (e9 s hs)

/-- evaluation over `[a,b]`, `a < b`: hull of the envelopes of the slices overlapping `]a,b[` -/
theorem evalItv_le_iff {T : Tube K} (h : T.WF) {a b : K} (hab : a < b) (h1 : T.t0 ≤ a) (h2 : b ≤ T.tf)
    {X : Itv K} : T.evalItv (Itv.icc a b) ≤ X ↔ ∀ s ∈ T.slices, s.lb < b → a < s.ub → s.cod ≤ X := by
  rw [Itv.icc_eq_mk hab.le]
  simp only [Tube.evalItv]
  rw [if_neg (by push Not; exact ⟨h1, h2⟩), if_neg (ne_of_lt hab)]
  obtain ⟨a', g', cs', e1, e2, e3, e4, e5, e6, e7, e8, e9, e10⟩ :=
    seek_suffix (g := T.g0) h.tiles h.ne h1
  rw [Tube.slices, e1, hullUpTo_le_iff e3 (le_trans e5 hab.le)]
  constructor
  · intro h3 s hs hb ha
    exact h3 s (e8 s hs ha) hb
  · intro h3 s hs hb
    exact h3 s (e9 s hs) hb (e10 (lt_of_lt_of_le hab h2) s hs)

/-- a time of the domain, other than the last one, belongs to a slice starting at or before it -/
theorem Tiles.exists_slice {a b t : K} {g : Itv K} {cs : List (Cell K)} (ht : Tiles a cs b)
    (h1 : a ≤ t) (h2 : t < b) : ∃ s ∈ slicesFrom g cs, s.lb ≤ t ∧ t < s.ub := by
  induction cs generalizing a g with
  | nil => exact absurd h2 (by rw [← show a = b from ht]; exact not_lt.mpr h1)
  | cons c cs ih =>
    obtain ⟨rfl, h3, h4⟩ := ht
    by_cases h5 : t < c.ub
    · exact ⟨_, List.mem_cons_self, h1, h5⟩
    · obtain ⟨s, hs, h6⟩ := ih (g := c.out) h4 (not_lt.mp h5)
      exact ⟨s, by simp [hs], h6⟩

/-- a time of the domain, other than the first one, belongs to a slice ending at or after it -/
theorem Tiles.exists_slice' {a b t : K} {g : Itv K} {cs : List (Cell K)} (ht : Tiles a cs b)
    (h1 : a < t) (h2 : t ≤ b) : ∃ s ∈ slicesFrom g cs, s.lb < t ∧ t ≤ s.ub := by
  induction cs generalizing a g with
  | nil => exact absurd h1 (by rw [show a = b from ht]; exact not_lt.mpr h2)
  | cons c cs ih =>
    obtain ⟨rfl, h3, h4⟩ := ht
    by_cases h5 : t ≤ c.ub
    · exact ⟨_, List.mem_cons_self, h1, h5⟩
    · obtain ⟨s, hs, h6⟩ := ih (g := c.out) h4 (not_le.mp h5)
      exact ⟨s, by simp [hs], h6⟩

/-- with consistent gates, a trajectory is in the envelope of a slice on the closed slice -/
theorem Slice.Encloses.mem_cod {s : Slice K} {f : K → K} (h : s.Encloses f)
    (hgc : s.inG ≤ s.cod ∧ s.outG ≤ s.cod) {t : K} (h1 : s.lb ≤ t) (h2 : t ≤ s.ub) : f t ∈ s.cod := by
  rcases eq_or_lt_of_le h1 with e | h1
  · exact Itv.mem_of_le hgc.1 (e ▸ h.1)
  · rcases eq_or_lt_of_le h2 with e | h2
    · exact Itv.mem_of_le hgc.2 (e ▸ h.2.1)
    · exact h.2.2 t h1 h2

theorem evalItv_mem {T : Tube K} (h : T.WF) (hgc : T.GatesInEnvelopes) {f : K → K} (hf : T.Encloses f)
    {I : Itv K} {t : K} (ht : t ∈ I) : f t ∈ T.evalItv I := by
  match I, ht with
  | .mk (some a) (some b) hab, ht =>
    by_cases h0 : a < T.t0 ∨ b > T.tf
    · simp [Tube.evalItv, h0]
    · have h0' := h0
      push Not at h0
      have ht' : a ≤ t ∧ t ≤ b := ht
      by_cases e : a = b
      · have : t = a := le_antisymm (e ▸ ht'.2) ht'.1
        simp only [Tube.evalItv, if_neg h0', if_pos e]
        exact this ▸ evalAt_mem h hf t
      · have hlt : a < b := lt_of_le_of_ne hab e
        rw [← Itv.icc_eq_mk hab]
        have key := (evalItv_le_iff h hlt h0.1 h0.2 (X := T.evalItv (Itv.icc a b))).mp (le_refl _)
        rcases lt_or_eq_of_le ht'.2 with h3 | h3
        · obtain ⟨s, hs, h4, h5⟩ := h.tiles.exists_slice (g := T.g0) (le_trans h0.1 ht'.1) (lt_of_lt_of_le h3 h0.2)
          exact Itv.mem_of_le (key s hs (lt_of_le_of_lt h4 h3) (lt_of_le_of_lt ht'.1 h5))
            ((hf s hs).mem_cod (hgc s hs) h4 h5.le)
        · subst h3
          obtain ⟨s, hs, h4, h5⟩ := h.tiles.exists_slice' (g := T.g0) (lt_of_le_of_lt h0.1 hlt) h0.2
          exact Itv.mem_of_le (key s hs h4 (lt_of_lt_of_le hlt h5))
            ((hf s hs).mem_cod (hgc s hs) h4.le h5)
  | .mk none none _, _ => simp [Tube.evalItv]
  | .mk none (some _) _, _ => simp [Tube.evalItv]
  | .mk (some _) none _, _ => simp [Tube.evalItv]

/-! ### inversion -/

/-- `search.lb() < lb || search.ub() > ub` for a non-empty `search` (infinite bounds exceed) -/
def exceeds (I : Itv K) (lb ub : K) : Bool :=
  match I with
  | .mk (some a) (some b) _ => decide (a < lb ∨ b > ub)
  | .empty => false
  | _ => true

/-- `Slice::invert(y, search_tdomain)`, codac_Slice.cpp:239-275 -/
def Slice.invert (s : Slice K) (y search : Itv K) : Itv K :=
  if search.isEmpty then ⊥
  else if exceeds search s.lb s.ub then ⊤
  else if Itv.icc s.lb s.ub ⊓ search = Itv.icc s.lb s.ub ∧ s.cod ≤ y then Itv.icc s.lb s.ub
  else if search = Itv.point s.lb then (if y.intersects s.inG then Itv.point s.lb else ⊥)
  else if search = Itv.point s.ub then (if y.intersects s.outG then Itv.point s.ub else ⊥)
  else if y.intersects s.cod then search ⊓ Itv.icc s.lb s.ub else ⊥

/-- the loop of `Tube::invert(y, search_tdomain)`, codac_Tube.cpp:790-799 (`invert |= ...`; the union is
associative, it is accumulated from the right) -/
def invertLoop (y : Itv K) (a b : K) : List (Slice K) → Itv K
  | [] => ⊥
  | s :: ss =>
    if s.lb < b then s.invert y (Itv.icc a b ⊓ Itv.icc s.lb s.ub) ⊔ invertLoop y a b ss else ⊥

/-- `Tube::invert(y, search_tdomain)`, codac_Tube.cpp:771-802 (mode without synthesis tree) -/
def Tube.invert (T : Tube K) (y search : Itv K) : Itv K :=
  match search with
  | .empty => ⊥
  | .mk (some a) (some b) _ =>
    if a < T.t0 ∨ b > T.tf then ⊤ else invertLoop y a b (seek a T.slices)
  | _ => ⊤

/-- the loop of `Tube::invert(y, v_t, search_tdomain)`, codac_Tube.cpp:821-840, `acc` is the variable `invert` -/
def invertListLoop (y : Itv K) (a b : K) (acc : Itv K) : List (Slice K) → List (Itv K)
  | [] => if acc.isEmpty then [] else [acc]
  | s :: ss =>
    if s.lb ≤ b then
      let loc := s.invert y (Itv.icc a b ⊓ Itv.icc s.lb s.ub)
      if loc.isEmpty && !acc.isEmpty then acc :: invertListLoop y a b ⊥ ss
      else invertListLoop y a b (acc ⊔ loc) ss
    else if acc.isEmpty then [] else [acc]

/-- `Tube::invert(y, v_t, search_tdomain)`, codac_Tube.cpp:804-841 -/
def Tube.invertList (T : Tube K) (y search : Itv K) : List (Itv K) :=
  match search with
  | .empty => []
  | .mk (some a) (some b) _ =>
    if a < T.t0 ∨ b > T.tf then [⊤] else invertListLoop y a b ⊥ (seek a T.slices)
  | _ => [⊤]

theorem exceeds_top {I : Itv K} {lb ub : K} : exceeds I lb ub = false → ∀ t ∈ I, lb ≤ t ∧ t ≤ ub := by
  intro h t ht
  match I, h, ht with
  | .mk (some a) (some b) _, h, ht =>
    simp only [exceeds, decide_eq_false_iff_not] at h
    push Not at h
    exact ⟨le_trans h.1 ht.1, le_trans ht.2 h.2⟩

theorem Slice.invert_sound {s : Slice K} {f : K → K} (hf : s.Encloses f) (hgc : s.inG ≤ s.cod ∧ s.outG ≤ s.cod)
    {y search : Itv K} {t : K} (ht : t ∈ search) (hy : f t ∈ y) : t ∈ s.invert y search := by
  unfold Slice.invert
  split_ifs with h1 h2 h3 h4 h5 h6 h7 h8
  · rw [Itv.isEmpty_iff] at h1; subst h1; exact ht
  · simp
  · have := exceeds_top (Bool.eq_false_iff.mpr h2) t ht
    simpa using this
  · subst h4; exact ht
  · subst h4
    exfalso
    have e : t = s.lb := by simpa using ht
    exact h5 (Itv.intersects_of_mem hy (e ▸ hf.1))
  · subst h6; exact ht
  · subst h6
    exfalso
    have e : t = s.ub := by simpa using ht
    exact h7 (Itv.intersects_of_mem hy (e ▸ hf.2.1))
  · have := exceeds_top (Bool.eq_false_iff.mpr h2) t ht
    rw [Itv.mem_inf]; exact ⟨ht, by simpa using this⟩
  · exfalso
    have := exceeds_top (Bool.eq_false_iff.mpr h2) t ht
    exact h8 (Itv.intersects_of_mem hy (hf.mem_cod hgc this.1 this.2))

/-- a slice of the traversed list with `s.lb < b` contributes to the inversion -/
theorem le_invertLoop {y : Itv K} {a b a' b' : K} {g : Itv K} {cs : List (Cell K)} (htl : Tiles a' cs b')
    {s : Slice K} (hs : s ∈ slicesFrom g cs) (hb : s.lb < b) :
    s.invert y (Itv.icc a b ⊓ Itv.icc s.lb s.ub) ≤ invertLoop y a b (slicesFrom g cs) := by
  induction cs generalizing g a' with
  | nil => simp at hs
  | cons c cs ih =>
    obtain ⟨rfl, h3, h4⟩ := htl
    rw [slicesFrom_cons, List.mem_cons] at hs
    rw [slicesFrom_cons, invertLoop]
    rcases hs with rfl | hs
    · rw [if_pos hb]; exact le_sup_left
    · have : c.lb < b := lt_trans (lt_of_lt_of_le h3 (h4.mem_bounds hs).1) hb
      rw [if_pos this]
      exact le_trans (ih h4 hs) le_sup_right

theorem mem_invertListLoop_acc {y : Itv K} {a b t : K} {acc : Itv K} (h : t ∈ acc) (ss : List (Slice K)) :
    ∃ I ∈ invertListLoop y a b acc ss, t ∈ I := by
  have hne : acc.isEmpty = false := by rw [Itv.isEmpty_false_iff]; exact Itv.ne_bot_of_mem h
  induction ss generalizing acc with
  | nil => exact ⟨acc, by simp [invertListLoop, hne], h⟩
  | cons s ss ih =>
    simp only [invertListLoop]
    split_ifs with h1 h2
    · exact ⟨acc, by simp, h⟩
    · have := Itv.mem_sup_left (Y := s.invert y (Itv.icc a b ⊓ Itv.icc s.lb s.ub)) h
      exact ih this (by rw [Itv.isEmpty_false_iff]; exact Itv.ne_bot_of_mem this)
    · rename_i h2; rw [hne] at h2; exact absurd h2 (by simp)
    · exact ⟨acc, by simp, h⟩

theorem mem_invertListLoop {y : Itv K} {a b a' b' t : K} {acc g : Itv K} {cs : List (Cell K)} (htl : Tiles a' cs b')
    {s : Slice K} (hs : s ∈ slicesFrom g cs) (hb : s.lb ≤ b)
    (ht : t ∈ s.invert y (Itv.icc a b ⊓ Itv.icc s.lb s.ub)) :
    ∃ I ∈ invertListLoop y a b acc (slicesFrom g cs), t ∈ I := by
  induction cs generalizing g a' acc with
  | nil => simp at hs
  | cons c cs ih =>
    obtain ⟨rfl, h3, h4⟩ := htl
    rw [slicesFrom_cons, List.mem_cons] at hs
    rw [slicesFrom_cons]
    simp only [invertListLoop]
    rcases hs with rfl | hs
    · rw [if_pos hb, if_neg]
      · exact mem_invertListLoop_acc (Itv.mem_sup_right ht) _
      · have : (Slice.invert ⟨c.lb, c.ub, c.cod, g, c.out⟩ y
          (Itv.icc a b ⊓ Itv.icc c.lb c.ub)).isEmpty = false := by
          rw [Itv.isEmpty_false_iff]; exact Itv.ne_bot_of_mem ht
        simp [this]
    · have : c.lb ≤ b := le_trans (lt_of_lt_of_le h3 (h4.mem_bounds hs).1).le hb
      rw [if_pos this]
      split_ifs
      · obtain ⟨I, hI, h⟩ := ih (acc := ⊥) h4 hs
        exact ⟨I, List.mem_cons_of_mem _ hI, h⟩
      · exact ih h4 hs

theorem invertListLoop_nonempty {y : Itv K} {a b : K} (ss : List (Slice K)) (acc : Itv K) :
    ∀ I ∈ invertListLoop y a b acc ss, I ≠ ⊥ := by
  induction ss generalizing acc with
  | nil =>
    intro I hI
    simp only [invertListLoop] at hI
    split_ifs at hI with h
    · simp at hI
    · rw [List.mem_singleton] at hI; subst hI
      exact Itv.isEmpty_false_iff.mp (Bool.eq_false_iff.mpr h)
  | cons s ss ih =>
    intro I hI
    simp only [invertListLoop] at hI
    split_ifs at hI with h1 h2 h3
    · rw [List.mem_cons] at hI
      rcases hI with rfl | hI
      · simp only [Bool.and_eq_true, Bool.not_eq_true'] at h2
        exact Itv.isEmpty_false_iff.mp h2.2
      · exact ih _ I hI
    · exact ih _ I hI
    · simp at hI
    · rw [List.mem_singleton] at hI; subst hI
      exact Itv.isEmpty_false_iff.mp (Bool.eq_false_iff.mpr h3)

end Codac
