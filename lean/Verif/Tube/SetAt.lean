import Verif.Tube.Eval

/-! # Setting one instant: lemmas -/

namespace Codac
variable {K : Type*} [LinearOrder K]

/-- `f` goes through the slice, the constraint at the instant `t` being only the envelope -/
def Slice.EnclosesExcept (t : K) (f : K → K) (s : Slice K) : Prop :=
  (s.lb ≠ t → f s.lb ∈ s.inG) ∧ (s.ub ≠ t → f s.ub ∈ s.outG) ∧
  (∀ u, s.lb < u → u < s.ub → f u ∈ s.cod) ∧ (s.lb ≤ t → t ≤ s.ub → f t ∈ s.cod)

theorem sampleCells_except {t a b : K} {g : Itv K} {cs : List (Cell K)} {f : K → K} (ht : Tiles a cs b)
    (h1 : a ≤ t) (h2 : t ≤ b) :
    AllSl (Slice.EnclosesExcept t f) g (sampleCells t cs) ↔ AllSl (Slice.EnclosesExcept t f) g cs := by
  induction cs generalizing a g with
  | nil => simp [sampleCells]
  | cons c cs ih =>
    obtain ⟨rfl, h3, h4⟩ := ht
    simp only [sampleCells]
    split_ifs with h5 h6
    · exact Iff.rfl
    · push Not at h6
      have h7 : t < c.ub := by
        rcases h5 with h5 | h5
        · exact h5
        · subst h5
          have : c.ub = b := h4
          exact lt_of_le_of_ne (this ▸ h2) (fun e => h6.2 e.symm)
      have h8 : c.lb < t := lt_of_le_of_ne h1 h6.1
      simp only [inf_idem, allSl_cons, Slice.EnclosesExcept]
      constructor
      · rintro ⟨⟨e1, e2, e3, e4⟩, ⟨-, e5, e6, -⟩, e7⟩
        refine ⟨⟨e1, e5, ?_, fun _ _ => e4 h8.le (le_refl _)⟩, e7⟩
        intro u hu1 hu2
        rcases lt_trichotomy u t with h | h | h
        · exact e3 u hu1 h
        · exact h ▸ (e4 h8.le (le_refl _))
        · exact e6 u h hu2
      · rintro ⟨⟨e1, e2, e3, e4⟩, e5⟩
        exact ⟨⟨e1, fun h => absurd rfl h, fun u hu1 hu2 => e3 u hu1 (lt_trans hu2 h7), fun _ _ => e4 h8.le h7.le⟩,
          ⟨fun h => absurd rfl h, e2, fun u hu1 hu2 => e3 u (lt_trans h8 hu1) hu2, fun _ _ => e4 h8.le h7.le⟩, e5⟩
    · push Not at h5
      rw [allSl_cons, allSl_cons, ih h4 h5.1]

/-- beyond `t`, excepting `t` changes nothing -/
theorem allSl_except_of_lt {t a b : K} {g : Itv K} {cs : List (Cell K)} {f : K → K} (ht : Tiles a cs b)
    (h : t < a) : AllSl (Slice.EnclosesExcept t f) g cs ↔ AllSl (fun s => s.Encloses f) g cs := by
  unfold AllSl
  apply forall₂_congr
  intro s hs
  have := ht.mem_bounds hs
  have e1 : s.lb ≠ t := fun e => absurd (e ▸ this.1) (not_le.mpr h)
  have e2 : s.ub ≠ t := fun e => absurd (lt_of_le_of_lt this.1 (e ▸ this.2.1)) (not_lt.mpr h.le)
  have e3 : ¬ s.lb ≤ t := not_le.mpr (lt_of_lt_of_le h this.1)
  simp only [Slice.EnclosesExcept, Slice.Encloses]
  tauto

/-- the setter used by `Tube::sample(t, gate)` on the slice `s = slice(t)`, codac_Tube.cpp:574-578 -/
def gateSetter (t : K) (gate : Itv K) (s : Slice K) : Setter K :=
  if t = s.lb then Slice.setInputGate gate else Slice.setOutputGate gate

theorem gateSetter_spec {t a b : K} {p : Option (Itv K)} {g gate : Itv K} {cs : List (Cell K)} {f : K → K}
    (ht : Tiles a cs b) (h1 : a ≤ t) (h2 : t ≤ b) (hgate : t = a ∨ t ∈ cs.map Cell.ub) {s : Slice K}
    (hs : (slicesFrom g cs)[timeToIndex t (slicesFrom g cs)]? = some s) :
    AllSl (fun s => s.Encloses f)
        (updFrom (gateSetter t gate s) (timeToIndex t (slicesFrom g cs)) p g cs).1
        (updFrom (gateSetter t gate s) (timeToIndex t (slicesFrom g cs)) p g cs).2 ↔
      f t ∈ gate ∧ (t = a → ∀ e, p = some e → f t ∈ e) ∧ AllSl (Slice.EnclosesExcept t f) g cs := by
  induction cs generalizing a g p with
  | nil => simp at hs
  | cons c cs ih =>
    have ht0 := ht
    obtain ⟨rfl, h3, h4⟩ := ht
    by_cases h5 : t < c.ub
    · -- the first slice starts at `t`
      have hk : timeToIndex t (slicesFrom g (c :: cs)) = 0 := by
        cases cs <;> simp [timeToIndex, h5]
      rw [hk] at hs ⊢
      simp only [slicesFrom_cons, List.getElem?_cons_zero, Option.some.injEq] at hs
      subst hs
      have e : t = c.lb := by
        rcases hgate with h | h
        · exact h
        · exfalso
          rw [List.map_cons, List.mem_cons] at h
          rcases h with h | h
          · exact absurd h5 (by simp [h])
          · exact absurd (h4.sorted.2 t h) (not_lt.mpr h5.le)
      simp only [updFrom, allSl_cons, gateSetter, if_pos e, Slice.setInputGate, if_true]
      rw [← allSl_except_of_lt h4 h5]
      subst e
      simp only [Slice.Encloses, Slice.EnclosesExcept, mem_infOpt, Itv.mem_inf]
      have n1 : c.ub ≠ c.lb := ne_of_gt h3
      simp only [ne_eq, not_true_eq_false, false_imp_iff, n1, not_false_eq_true, true_imp_iff, le_refl, h3.le]
      tauto
    · push Not at h5
      have hlb : t ≠ c.lb := fun e => absurd h5 (not_le.mpr (e ▸ h3))
      cases cs with
      | nil =>
        have e : t = c.ub := le_antisymm (by rw [show c.ub = b from h4]; exact h2) h5
        simp only [slicesFrom_cons, slicesFrom_nil, timeToIndex, List.getElem?_cons_zero,
          Option.some.injEq] at hs ⊢
        subst hs
        simp only [updFrom, allSl_cons, gateSetter, if_neg hlb, Slice.setOutputGate, if_true,
          List.head?_nil, Option.map_none, infOpt, allSl_nil, and_true, Slice.Encloses,
          Slice.EnclosesExcept, Itv.mem_inf]
        subst e
        simp only [ne_eq, Ne.symm hlb, not_false_eq_true, true_imp_iff, not_true_eq_false, false_imp_iff, le_refl,
          h3.le, hlb]
        tauto
      | cons c' cs =>
        have hk : timeToIndex t (slicesFrom g (c :: c' :: cs)) =
            timeToIndex t (slicesFrom c.out (c' :: cs)) + 1 := by
          simp [timeToIndex, not_lt.mpr h5]
        rw [hk] at hs ⊢
        have hs' : (slicesFrom c.out (c' :: cs))[timeToIndex t (slicesFrom c.out (c' :: cs))]? = some s := by
          rw [slicesFrom_cons g, List.getElem?_cons_succ] at hs; exact hs
        have hg' : t = c.ub ∨ t ∈ (c' :: cs).map Cell.ub := by
          rcases hgate with h | h
          · exact absurd h hlb
          · rw [List.map_cons, List.mem_cons] at h; exact h
        have hi := ih (p := some c.cod) (g := c.out) h4 h5 hg' hs'
        simp only [updFrom] at hi ⊢
        rw [allSl_cons, allSl_cons, hi]
        have hfirst := hi.mpr
        simp only [Option.some.injEq, forall_eq', hlb, false_imp_iff, true_and] at hi hfirst ⊢
        constructor
        · rintro ⟨hc, e1, e2, e3⟩
          refine ⟨e1, ⟨fun _ => hc.1, ?_, hc.2.2, ?_⟩, e3⟩
          · intro hne
            rw [allSl_cons] at e3
            have := e3.1.1 (by rw [h4.1]; exact hne)
            rw [h4.1] at this
            exact this
          · intro _ h7
            exact e2 (le_antisymm h7 h5)
        · rintro ⟨e1, hc, e3⟩
          have e2 : t = c.ub → f t ∈ c.cod := fun h => hc.2.2.2 h1 (le_of_eq h)
          refine ⟨⟨hc.1 (Ne.symm hlb), ?_, hc.2.2.1⟩, e1, e2, e3⟩
          have hall := hfirst ⟨e1, e2, e3⟩
          -- the first slice of the updated tail starts at c.ub with the gate
          generalize hr : updFrom (gateSetter t gate s) (timeToIndex t (slicesFrom c.out (c' :: cs)))
            (some c.cod) c.out (c' :: cs) = r at hall ⊢
          have hb := updFrom_bounds (gateSetter t gate s) (timeToIndex t (slicesFrom c.out (c' :: cs)))
            (some c.cod) c.out (c' :: cs)
          rw [hr] at hb
          obtain ⟨r1, r2⟩ := r
          cases r2 with
          | nil => simp at hb
          | cons d ds =>
            simp only [List.map_cons, List.cons.injEq, Prod.mk.injEq] at hb
            rw [allSl_cons] at hall
            have := hall.1.1
            rw [hb.1.1, h4.1] at this
            exact this

theorem timeToIndex_lt {t : K} {ss : List (Slice K)} (h : ss ≠ []) : timeToIndex t ss < ss.length := by
  induction ss with
  | nil => exact absurd rfl h
  | cons s ss ih =>
    cases ss with
    | nil => simp [timeToIndex]
    | cons s' ss =>
      simp only [timeToIndex]
      split_ifs
      · simp
      · have := ih (by simp)
        simp only [List.length_cons] at this ⊢
        omega

theorem slices_ne_nil {T : Tube K} (h : T.WF) : T.slices ≠ [] := by
  intro h'
  have : (slicesFrom T.g0 T.cells).length = T.cells.length := length_slicesFrom _ _
  rw [show slicesFrom T.g0 T.cells = [] from h'] at this
  exact h.ne (List.length_eq_zero_iff.mp this.symm)

theorem sampleGate_encloses {T : Tube K} (h : T.WF) {t : K} (h1 : T.t0 ≤ t) (h2 : t ≤ T.tf)
    {gate : Itv K} {f : K → K} :
    (T.sampleGate t gate).Encloses f ↔ f t ∈ gate ∧ ∀ s ∈ T.slices, s.EnclosesExcept t f := by
  have hwf := sample_wf h h1 h2
  have hne := slices_ne_nil hwf
  have hlt := timeToIndex_lt (t := t) hne
  obtain ⟨s, hs⟩ : ∃ s, (T.sample t).slices[timeToIndex t (T.sample t).slices]? = some s :=
    ⟨_, List.getElem?_eq_getElem hlt⟩
  have hgate : t = (T.sample t).t0 ∨ t ∈ (T.sample t).cells.map Cell.ub := by
    rcases eq_or_lt_of_le h1 with e | h1'
    · exact Or.inl e.symm
    · exact Or.inr ((mem_ub_sampleCells h.tiles h1 h2).mpr (Or.inr ⟨rfl, h1'⟩))
  have key := gateSetter_spec (p := none) (f := f) (gate := gate) hwf.tiles h1 h2 hgate hs
  have he := sampleCells_except (g := T.g0) (f := f) h.tiles h1 h2
  have hdef : T.sampleGate t gate = (T.sample t).upd (timeToIndex t (T.sample t).slices) (gateSetter t gate s) := by
    simp only [Tube.sampleGate, hs, gateSetter]
    split_ifs <;> rfl
  rw [hdef]
  change AllSl _ _ _ ↔ _
  refine Iff.trans key ?_
  simp only [reduceCtorEq, false_imp_iff, implies_true, true_and]
  rw [show (T.sample t).g0 = T.g0 from rfl, show (T.sample t).cells = sampleCells t T.cells from rfl, he]
  rfl

end Codac
