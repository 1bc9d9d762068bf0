import Verif.Tube.SetAt

/-! # Locating a slice: lemmas -/

namespace Codac
variable {K : Type*} [LinearOrder K]

/-- the end of a slice is not in the interior of a slice -/
theorem Tiles.no_interior_ub {a b : K} {g : Itv K} {cs : List (Cell K)} (ht : Tiles a cs b) {s s' : Slice K}
    (hs : s ∈ slicesFrom g cs) (hs' : s' ∈ slicesFrom g cs) (h1 : s.lb < s'.ub) (h2 : s'.ub < s.ub) : False := by
  induction cs generalizing a g with
  | nil => simp at hs
  | cons c cs ih =>
    obtain ⟨rfl, h3, h4⟩ := ht
    rw [slicesFrom_cons, List.mem_cons] at hs hs'
    rcases hs with rfl | hs <;> rcases hs' with rfl | hs'
    · exact absurd h2 (lt_irrefl _)
    · have := h4.mem_bounds hs'
      exact absurd h2 (not_lt.mpr (le_trans this.1 this.2.1.le))
    · have := h4.mem_bounds hs
      exact absurd h1 (not_lt.mpr this.1)
    · exact ih h4 hs hs'

/-- the start of a slice is not in the interior of a slice -/
theorem Tiles.no_interior_lb {a b : K} {g : Itv K} {cs : List (Cell K)} (ht : Tiles a cs b) {s s' : Slice K}
    (hs : s ∈ slicesFrom g cs) (hs' : s' ∈ slicesFrom g cs) (h1 : s.lb < s'.lb) (h2 : s'.lb < s.ub) : False := by
  induction cs generalizing a g with
  | nil => simp at hs
  | cons c cs ih =>
    obtain ⟨rfl, h3, h4⟩ := ht
    rw [slicesFrom_cons, List.mem_cons] at hs hs'
    rcases hs with rfl | hs <;> rcases hs' with rfl | hs'
    · exact absurd h1 (lt_irrefl _)
    · have := h4.mem_bounds hs'
      exact absurd h2 (not_lt.mpr this.1)
    · have := h4.mem_bounds hs
      exact absurd h1 (not_lt.mpr (le_trans h3.le this.1))
    · exact ih h4 hs hs'

theorem Tube.evalAt_eq {T : Tube K} {t : K} (h1 : T.t0 ≤ t) (h2 : t ≤ T.tf) {s : Slice K}
    (hs : (seek t T.slices).head? = some s) : T.evalAt t = s.evalAt t := by
  simp [Tube.evalAt, h1, h2, hs]

/-- `slice(t)` is the slice starting at `t` when there is one -/
theorem seek_lb {a b t : K} {g : Itv K} {cs : List (Cell K)} (ht : Tiles a cs b) {s : Slice K}
    (hs : s ∈ slicesFrom g cs) (e : s.lb = t) : (seek t (slicesFrom g cs)).head? = some s := by
  induction cs generalizing a g with
  | nil => simp at hs
  | cons c cs ih =>
    obtain ⟨rfl, h3, h4⟩ := ht
    rw [slicesFrom_cons, List.mem_cons] at hs
    rcases hs with rfl | hs
    · cases cs with
      | nil => rfl
      | cons c' cs => simp [seek, ← e, h3]
    · have := h4.mem_bounds hs
      cases cs with
      | nil => simp at hs
      | cons c' cs =>
        have hn : ¬ t < c.ub := not_lt.mpr (e ▸ this.1)
        have := ih h4 hs
        simpa [seek, hn] using this

/-- the gate at the end of a slice is seen by the evaluation there -/
theorem seek_ub {a b t : K} {g : Itv K} {cs : List (Cell K)} (ht : Tiles a cs b) {s : Slice K}
    (hs : s ∈ slicesFrom g cs) (e : s.ub = t) :
    ∃ s', (seek t (slicesFrom g cs)).head? = some s' ∧ s'.evalAt t = s.outG := by
  induction cs generalizing a g with
  | nil => simp at hs
  | cons c cs ih =>
    obtain ⟨rfl, h3, h4⟩ := ht
    rw [slicesFrom_cons, List.mem_cons] at hs
    rcases hs with rfl | hs
    · cases cs with
      | nil =>
        have e' : c.ub = t := e
        refine ⟨_, rfl, ?_⟩
        have hne : t ≠ c.lb := e' ▸ ne_of_gt h3
        have hle : c.lb ≤ t := e' ▸ h3.le
        simp only [Slice.evalAt]
        rw [if_pos ⟨hle, le_of_eq e'.symm⟩, if_neg hne, if_pos e'.symm]
      | cons c' cs =>
        obtain ⟨h5, h6, h7⟩ := h4
        have hn : ¬ t < c.ub := not_lt.mpr (e ▸ le_refl _)
        have h8 : c'.lb = t := h5.trans e
        refine ⟨⟨c'.lb, c'.ub, c'.cod, c.out, c'.out⟩, ?_, ?_⟩
        · cases cs with
          | nil => simp [seek, hn]
          | cons c'' cs => simp [seek, hn, show t < c'.ub from h8 ▸ h6]
        · simp [Slice.evalAt, h8, show t ≤ c'.ub from h8 ▸ h6.le]
    · have := h4.mem_bounds hs
      cases cs with
      | nil => simp at hs
      | cons c' cs =>
        have hn : ¬ t < c.ub := not_lt.mpr (e ▸ le_trans this.1 this.2.1.le)
        obtain ⟨s', e1, e2⟩ := ih h4 hs
        exact ⟨s', by simpa [seek, hn] using e1, e2⟩

theorem Tube.evalAt_lb {T : Tube K} (h : T.WF) {s : Slice K} (hs : s ∈ T.slices) : T.evalAt s.lb = s.inG := by
  have hb := h.tiles.mem_bounds hs
  rw [Tube.evalAt_eq hb.1 (le_trans hb.2.1.le hb.2.2) (seek_lb h.tiles hs rfl)]
  simp [Slice.evalAt, hb.2.1.le]

theorem Tube.evalAt_ub {T : Tube K} (h : T.WF) {s : Slice K} (hs : s ∈ T.slices) : T.evalAt s.ub = s.outG := by
  have hb := h.tiles.mem_bounds hs
  obtain ⟨s', e1, e2⟩ := seek_ub h.tiles hs rfl
  rw [Tube.evalAt_eq (le_trans hb.1 hb.2.1.le) hb.2.2 e1, e2]

theorem Tiles.unique_slice {a b t : K} {g : Itv K} {cs : List (Cell K)} (ht : Tiles a cs b) {s s' : Slice K}
    (hs : s ∈ slicesFrom g cs) (hs' : s' ∈ slicesFrom g cs) (h1 : s.lb < t) (h2 : t < s.ub) (h3 : s'.lb ≤ t)
    (h4 : t ≤ s'.ub) : s' = s := by
  induction cs generalizing a g with
  | nil => simp at hs
  | cons c cs ih =>
    obtain ⟨rfl, h5, h6⟩ := ht
    rw [slicesFrom_cons, List.mem_cons] at hs hs'
    rcases hs with rfl | hs <;> rcases hs' with rfl | hs'
    · rfl
    · have := h6.mem_bounds hs'
      exact absurd (le_trans this.1 h3) (not_le.mpr h2)
    · have := h6.mem_bounds hs
      exact absurd (lt_of_le_of_lt this.1 h1) (not_lt.mpr h4)
    · exact ih h6 hs hs'

theorem Tube.evalAt_interior {T : Tube K} (h : T.WF) {s : Slice K} (hs : s ∈ T.slices) {t : K} (h1 : s.lb < t)
    (h2 : t < s.ub) : T.evalAt t = s.cod := by
  have hb := h.tiles.mem_bounds hs
  have ht0 : T.t0 ≤ t := le_trans hb.1 h1.le
  have htf : t ≤ T.tf := le_trans h2.le hb.2.2
  obtain ⟨s', ss, e1, e2, e3, e4, e5⟩ := seek_spec (g := T.g0) h.tiles h.ne ht0 htf
  have hhead : (seek t T.slices).head? = some s' := by rw [Tube.slices, e1]; rfl
  have : s' = s := by
    exact Tiles.unique_slice h.tiles hs e2 h1 h2 e3 e4
  subst this
  rw [Tube.evalAt_eq ht0 htf hhead]
  simp [Slice.evalAt, h1.le, h2.le, ne_of_gt h1, ne_of_lt h2]

end Codac
