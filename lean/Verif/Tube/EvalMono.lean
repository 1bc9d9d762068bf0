import Verif.Ctc.Delay
import Verif.Props.TubeOps

/-! # Order between tubes through their evaluations at all instants -/

set_option linter.unusedSectionVars false

namespace Codac
variable {K : Type*} [LinearOrder K]

/-- `T` is included in `T0` at all instants of their common time domain (whatever the slicings) -/
structure Tube.Within (T T0 : Tube K) : Prop where
  t0 : T.t0 = T0.t0
  tf : T.tf = T0.tf
  le : ∀ t, T0.t0 ≤ t → t ≤ T0.tf → T.evalAt t ≤ T0.evalAt t

theorem Tube.Within.refl (T : Tube K) : T.Within T := ⟨rfl, rfl, fun _ _ _ => le_rfl⟩

theorem Tube.Within.trans {T1 T2 T3 : Tube K} (h : T1.Within T2) (h' : T2.Within T3) : T1.Within T3 :=
  ⟨h.t0.trans h'.t0, h.tf.trans h'.tf, fun t h1 h2 =>
    (h.le t (h'.t0 ▸ h1) (h'.tf ▸ h2)).trans (h'.le t h1 h2)⟩

theorem Tube.WF.exists_slice {T : Tube K} (h : T.WF) {t : K} (h1 : T.t0 ≤ t) (h2 : t ≤ T.tf) :
    ∃ s ∈ T.slices, s.lb ≤ t ∧ t ≤ s.ub := by
  obtain ⟨s, ss, -, e2, e3, e4, -⟩ := seek_spec (g := T.g0) h.tiles h.ne h1 h2
  exact ⟨s, e2, e3, e4⟩

/-- evaluation of a well-formed tube at an instant of a slice -/
theorem evalAt_of_slice {T : Tube K} (h : T.WF) {s : Slice K} (hs : s ∈ T.slices) {t : K} (h1 : s.lb ≤ t) (h2 : t ≤ s.ub) :
    T.evalAt t = if t = s.lb then s.inG else if t = s.ub then s.outG else s.cod := by
  split_ifs with e1 e2
  · rw [e1, Tube.evalAt_lb h hs]
  · rw [e2, Tube.evalAt_ub h hs]
  · exact Tube.evalAt_interior h hs (lt_of_le_of_ne h1 (Ne.symm e1)) (lt_of_le_of_ne h2 e2)

theorem Tube.Below.within {T T0 : Tube K} (hb : T.Below T0) (h : T.WF) (h0 : T0.WF) : T.Within T0 := by
  refine ⟨hb.t0, hb.tf, fun t h1 h2 => ?_⟩
  obtain ⟨s, hs, h3, h4⟩ := h.exists_slice (hb.t0 ▸ h1) (hb.tf ▸ h2)
  obtain ⟨k, hk⟩ := List.getElem?_of_mem hs
  have hlen := hb.slices.length_eq
  have hk1 := (List.getElem?_eq_some_iff.mp hk).1
  obtain ⟨hk2, hk3⟩ : ∃ h : k < T0.slices.length, True := ⟨by omega, trivial⟩
  have hbs := List.forall₂_iff_get.mp hb.slices
  have := hbs.2 k hk1 hk2
  have e : T.slices.get ⟨k, hk1⟩ = s := (List.getElem?_eq_some_iff.mp hk).2
  rw [e] at this
  rw [evalAt_of_slice h hs h3 h4, evalAt_of_slice h0 (List.get_mem T0.slices ⟨k, hk2⟩) (this.lb ▸ h3) (this.ub ▸ h4),
    ← this.lb, ← this.ub]
  split_ifs
  · exact this.inG
  · exact this.outG
  · exact this.cod

theorem sampleCells_slice {t a b : K} {g : Itv K} {cs : List (Cell K)} (ht : Tiles a cs b) (h1 : a ≤ t) (h2 : t ≤ b) {s' : Slice K}
    (hs : s' ∈ slicesFrom g (sampleCells t cs)) : ∃ s ∈ slicesFrom g cs, s.lb ≤ s'.lb ∧ s'.ub ≤ s.ub ∧ s'.cod = s.cod ∧
      ((s'.lb = s.lb ∧ s'.inG = s.inG) ∨ (s.lb < s'.lb ∧ s'.inG = s.cod)) ∧
      ((s'.ub = s.ub ∧ s'.outG = s.outG) ∨ (s'.ub < s.ub ∧ s'.outG = s.cod)) := by
  induction cs generalizing a g with
  | nil => simp [sampleCells] at hs
  | cons c cs ih =>
    obtain ⟨rfl, h3, h4⟩ := ht
    have hk : s' ∈ slicesFrom g (c :: cs) → ∃ s ∈ slicesFrom g (c :: cs), s.lb ≤ s'.lb ∧ s'.ub ≤ s.ub ∧ s'.cod = s.cod ∧
        ((s'.lb = s.lb ∧ s'.inG = s.inG) ∨ (s.lb < s'.lb ∧ s'.inG = s.cod)) ∧
        ((s'.ub = s.ub ∧ s'.outG = s.outG) ∨ (s'.ub < s.ub ∧ s'.outG = s.cod)) := fun h =>
      ⟨s', h, le_rfl, le_rfl, rfl, Or.inl ⟨rfl, rfl⟩, Or.inl ⟨rfl, rfl⟩⟩
    unfold sampleCells at hs
    by_cases e1 : t < c.ub ∨ cs = []
    · rw [if_pos e1] at hs
      by_cases e2 : c.lb = t ∨ c.ub = t
      · rw [if_pos e2] at hs; exact hk hs
      · rw [if_neg e2] at hs
        push Not at e2
        have hlt : c.lb < t := lt_of_le_of_ne h1 e2.1
        have htu : t < c.ub := by
          rcases e1 with e | e
          · exact e
          · subst e
            have : c.ub = b := h4
            exact lt_of_le_of_ne (this ▸ h2) (Ne.symm e2.2)
        simp only [slicesFrom, List.mem_cons] at hs
        rcases hs with rfl | rfl | hs
        · exact ⟨⟨c.lb, c.ub, c.cod, g, c.out⟩, by simp [slicesFrom], le_rfl, htu.le, rfl, Or.inl ⟨rfl, rfl⟩,
            Or.inr ⟨htu, by simp⟩⟩
        · exact ⟨⟨c.lb, c.ub, c.cod, g, c.out⟩, by simp [slicesFrom], hlt.le, le_rfl, rfl, Or.inr ⟨hlt, by simp⟩,
            Or.inl ⟨rfl, rfl⟩⟩
        · exact hk (by simp [slicesFrom, hs])
    · rw [if_neg e1] at hs
      simp only [slicesFrom, List.mem_cons] at hs
      rcases hs with rfl | hs
      · exact hk (by simp [slicesFrom])
      · push Not at e1
        obtain ⟨s, hq, c2⟩ := ih h4 e1.1 hs
        exact ⟨s, by simp [slicesFrom, hq], c2⟩

/-- sampling changes no evaluation -/
theorem sample_evalAt {T : Tube K} (h : T.WF) {t : K} (h1 : T.t0 ≤ t) (h2 : t ≤ T.tf) (u : K) :
    (T.sample t).evalAt u = T.evalAt u := by
  by_cases hu : T.t0 ≤ u ∧ u ≤ T.tf
  · have hw := sample_wf h h1 h2
    obtain ⟨s', hs', h3, h4⟩ := hw.exists_slice (t := u) hu.1 hu.2
    obtain ⟨s, hs, c1, c2, c3, c4, c5⟩ := sampleCells_slice h.tiles h1 h2 hs'
    have hlt := (hw.tiles.mem_bounds hs').2.1
    rw [evalAt_of_slice hw hs' h3 h4, evalAt_of_slice h hs (c1.trans h3) (h4.trans c2), c3]
    rcases eq_or_lt_of_le h3 with e | e3
    · subst e
      rw [if_pos rfl]
      rcases c4 with ⟨d1, d2⟩ | ⟨d1, d2⟩
      · rw [if_pos d1, d2]
      · rw [if_neg d1.ne', if_neg (lt_of_lt_of_le hlt c2).ne, d2]
    · rw [if_neg e3.ne', if_neg (lt_of_le_of_lt c1 e3).ne']
      rcases eq_or_lt_of_le h4 with e | e4
      · subst e
        rw [if_pos rfl]
        rcases c5 with ⟨d1, d2⟩ | ⟨d1, d2⟩
        · rw [if_pos d1, d2]
        · rw [if_neg d1.ne, d2]
      · rw [if_neg e4.ne, if_neg (lt_of_lt_of_le e4 c2).ne]
  · simp only [Tube.evalAt]
    rw [if_neg (show ¬ ((T.sample t).t0 ≤ u ∧ u ≤ (T.sample t).tf) from hu), if_neg hu]

theorem sample_within {T : Tube K} (h : T.WF) {t : K} (h1 : T.t0 ≤ t) (h2 : t ≤ T.tf) : (T.sample t).Within T :=
  ⟨rfl, rfl, fun u _ _ => (sample_evalAt h h1 h2 u).le⟩

/-- inclusion of overlapping envelopes -/
theorem Tube.Within.cod [DenselyOrdered K] {T T0 : Tube K} (hw : T.Within T0) (h : T.WF) (h0 : T0.WF) {s s0 : Slice K}
    (hs : s ∈ T.slices) (hs0 : s0 ∈ T0.slices) (h1 : s.lb < s0.ub) (h2 : s0.lb < s.ub) : s.cod ≤ s0.cod := by
  have b1 := h.tiles.mem_bounds hs
  have b2 := h0.tiles.mem_bounds hs0
  obtain ⟨t, c1, c2⟩ := exists_between (show max s.lb s0.lb < min s.ub s0.ub from
    max_lt (lt_min b1.2.1 h1) (lt_min h2 b2.2.1))
  rw [max_lt_iff] at c1
  rw [lt_min_iff] at c2
  have := hw.le t (b2.1.trans c1.2.le) (c2.2.le.trans b2.2.2)
  rwa [Tube.evalAt_interior h hs c1.1 c2.1, Tube.evalAt_interior h0 hs0 c1.2 c2.2] at this

theorem opAssign_bounds (φ : Itv K → Itv K → Itv K) (T X : Tube K) :
    (T.opAssign φ X).cells.map (fun c => (c.lb, c.ub)) = T.cells.map fun c => (c.lb, c.ub) := by
  unfold Tube.opAssign
  split_ifs
  · exact zipCells_bounds φ T.cells T.cells X.cells
  · simp [Tube.mapWith]

theorem setEmpty_bounds {T : Tube K} (h : T.WF) :
    T.setEmpty.cells.map (fun c => (c.lb, c.ub)) = T.cells.map fun c => (c.lb, c.ub) := by
  unfold Tube.setEmpty
  rw [set_eq h.ne]
  exact constCells_bounds _ _

theorem setEmpty_dom {T : Tube K} (h : T.WF) : T.setEmpty.t0 = T.t0 ∧ T.setEmpty.tf = T.tf := by
  unfold Tube.setEmpty
  rw [set_eq h.ne]
  exact ⟨rfl, rfl⟩

theorem setEmpty_gc {T : Tube K} (h : T.WF) : T.setEmpty.GatesInEnvelopes := by
  intro s hs
  obtain ⟨-, h2, h3⟩ := setEmpty_slices h hs
  rw [h2, h3]
  exact ⟨bot_le, bot_le⟩

/-- a tube is below another one, slice by slice, when it is included in it and the slicings are the same -/
theorem within_of_slices {T T0 : Tube K} (h : T.WF) (h0 : T0.WF) (e0 : T.t0 = T0.t0) (e1 : T.tf = T0.tf)
    (hs : ∀ s ∈ T.slices, ∃ s0 ∈ T0.slices, s0.lb = s.lb ∧ s0.ub = s.ub ∧ s.cod ≤ s0.cod ∧ s.inG ≤ s0.inG ∧ s.outG ≤ s0.outG) :
    T.Within T0 := by
  refine ⟨e0, e1, fun t h1 h2 => ?_⟩
  obtain ⟨s, hm, h3, h4⟩ := h.exists_slice (e0 ▸ h1) (e1 ▸ h2)
  obtain ⟨s0, hm0, c1, c2, c3, c4, c5⟩ := hs s hm
  rw [evalAt_of_slice h hm h3 h4, evalAt_of_slice h0 hm0 (c1 ▸ h3) (c2 ▸ h4), c1, c2]
  split_ifs
  · exact c4
  · exact c5
  · exact c3

theorem exists_same_bounds {T T0 : Tube K} (h : SameB T T0) {s : Slice K} (hs : s ∈ T.slices) :
    ∃ s0 ∈ T0.slices, s0.lb = s.lb ∧ s0.ub = s.ub := by
  have := h.slices
  have hm : (s.lb, s.ub) ∈ T.slices.map fun s => (s.lb, s.ub) := List.mem_map.mpr ⟨s, hs, rfl⟩
  rw [this, List.mem_map] at hm
  obtain ⟨s0, h1, h2⟩ := hm
  simp only [Prod.mk.injEq] at h2
  exact ⟨s0, h1, h2⟩

/-- restoring the slicing of `T0` on a tube included in it gives a tube included in it -/
theorem restore_within [DenselyOrdered K] {T T0 : Tube K} (h : T.WF) (h0 : T0.WF) (hw : T.Within T0) :
    (T0.setEmpty.opAssign (· ⊔ ·) T).Within T0 := by
  have he := setEmpty_dom h0
  have hd : (T0.setEmpty.opAssign (· ⊔ ·) T).t0 = T0.t0 ∧ (T0.setEmpty.opAssign (· ⊔ ·) T).tf = T0.tf := by
    have : ∀ φ : Itv K → Itv K → Itv K, (T0.setEmpty.opAssign φ T).t0 = T0.setEmpty.t0 ∧ (T0.setEmpty.opAssign φ T).tf = T0.setEmpty.tf := by
      intro φ; unfold Tube.opAssign; split_ifs <;> exact ⟨rfl, rfl⟩
    rw [(this _).1, (this _).2, he.1, he.2]; exact ⟨rfl, rfl⟩
  refine within_of_slices (opAssign_wf (setEmpty_wf h0)) h0 hd.1 hd.2 ?_
  intro s hs
  have hsb : SameB T0.setEmpty T0 := setEmpty_bounds h0
  unfold Tube.opAssign at hs
  split_ifs at hs with hsl
  · rw [sameSlicing_iff] at hsl
    have hz := zipT_slices (φ := (· ⊔ ·)) (Y := T0.setEmpty) (X1 := T0.setEmpty) (X2 := T) rfl hsl
    unfold zipT at hz
    rw [hz, List.mem_map] at hs
    obtain ⟨p, hp, rfl⟩ := hs
    have hp1 := (List.of_mem_zip hp).1
    have hp2 := (List.of_mem_zip hp).2
    have hpb := mem_zip_bounds hsl.slices hp
    obtain ⟨c1, c2, c3⟩ := setEmpty_slices h0 hp1
    obtain ⟨s0, hs0, d1, d2⟩ := exists_same_bounds hsb hp1
    have b2 := h0.tiles.mem_bounds hs0
    refine ⟨s0, hs0, d1, d2, ?_, ?_, ?_⟩
    · simp only [c1, bot_sup_eq]
      exact hw.cod h h0 hp2 hs0 (by rw [d2, ← hpb.1, ← d1, ← d2]; exact b2.2.1) (by rw [d1, ← hpb.2, ← d1, ← d2]; exact b2.2.1)
    · simp only [c2, bot_sup_eq]
      rw [← Tube.evalAt_lb h hp2, ← Tube.evalAt_lb h0 hs0, ← hpb.1, d1]
      exact hw.le _ (d1 ▸ b2.1) (d1 ▸ b2.2.1.le.trans b2.2.2)
    · simp only [c3, bot_sup_eq]
      rw [← Tube.evalAt_ub h hp2, ← Tube.evalAt_ub h0 hs0, ← hpb.2, d2]
      exact hw.le _ (d2 ▸ b2.1.trans b2.2.1.le) (d2 ▸ b2.2.2)
  · rw [mapWith_slices _ _ (setEmpty_wf h0), List.mem_map] at hs
    obtain ⟨p, hp, rfl⟩ := hs
    obtain ⟨c1, c2, c3⟩ := setEmpty_slices h0 hp
    obtain ⟨s0, hs0, d1, d2⟩ := exists_same_bounds hsb hp
    have b2 := h0.tiles.mem_bounds hs0
    refine ⟨s0, hs0, d1, d2, ?_, ?_, ?_⟩
    · simp only [c1, bot_sup_eq]
      rw [← d1, ← d2, evalItv_le_iff h b2.2.1 (hw.t0 ▸ b2.1) (hw.tf ▸ b2.2.2)]
      intro s' hs' e1 e2
      exact hw.cod h h0 hs' hs0 e1 e2
    · simp only [c2, bot_sup_eq]
      rw [← Tube.evalAt_lb h0 hs0, d1]
      exact hw.le _ (d1 ▸ b2.1) (d1 ▸ b2.2.1.le.trans b2.2.2)
    · simp only [c3, bot_sup_eq]
      rw [← Tube.evalAt_ub h0 hs0, d2]
      exact hw.le _ (d2 ▸ b2.1.trans b2.2.1.le) (d2 ▸ b2.2.2)

theorem sample_bounds_congr {t : K} {cs ds : List (Cell K)}
    (h : cs.map (fun c => (c.lb, c.ub)) = ds.map fun c => (c.lb, c.ub)) :
    (sampleCells t cs).map (fun c => (c.lb, c.ub)) = (sampleCells t ds).map fun c => (c.lb, c.ub) := by
  induction cs generalizing ds with
  | nil =>
    have : ds = [] := by simpa using h.symm
    subst this; rfl
  | cons c cs ih =>
    cases ds with
    | nil => simp at h
    | cons d ds =>
      simp only [List.map_cons, List.cons.injEq, Prod.mk.injEq] at h
      obtain ⟨⟨h1, h2⟩, h3⟩ := h
      have e : cs = [] ↔ ds = [] := by
        rw [← List.length_eq_zero_iff, ← List.length_eq_zero_iff]
        have := congrArg List.length h3
        simp only [List.length_map] at this
        omega
      unfold sampleCells
      rw [← h1, ← h2]
      simp only [← e]
      split_ifs <;> simp [h1, h2, h3, ih h3]

/-- `&=` gives a tube included in the first one -/
theorem inter_assign_within {T X : Tube K} (h : T.WF) : (T.opAssign (· ⊓ ·) X).Within T := by
  have hd : (T.opAssign (· ⊓ ·) X).t0 = T.t0 ∧ (T.opAssign (· ⊓ ·) X).tf = T.tf := by
    have : ∀ φ : Itv K → Itv K → Itv K, (T.opAssign φ X).t0 = T.t0 ∧ (T.opAssign φ X).tf = T.tf := by
      intro φ; unfold Tube.opAssign; split_ifs <;> exact ⟨rfl, rfl⟩
    exact this _
  refine within_of_slices (opAssign_wf h) h hd.1 hd.2 ?_
  intro s hs
  unfold Tube.opAssign at hs
  split_ifs at hs with hsl
  · rw [sameSlicing_iff] at hsl
    have hz := zipT_slices (φ := (· ⊓ ·)) (Y := T) (X1 := T) (X2 := X) rfl hsl
    unfold zipT at hz
    rw [hz, List.mem_map] at hs
    obtain ⟨p, hp, rfl⟩ := hs
    exact ⟨p.1, (List.of_mem_zip hp).1, rfl, rfl, inf_le_left, inf_le_left, inf_le_left⟩
  · rw [mapWith_slices _ _ h, List.mem_map] at hs
    obtain ⟨p, hp, rfl⟩ := hs
    exact ⟨p, hp, rfl, rfl, inf_le_left, inf_le_left, inf_le_left⟩

end Codac
