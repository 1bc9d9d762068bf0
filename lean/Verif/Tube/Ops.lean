import Verif.Tube.Fold
import Verif.Tube.Locate

/-! # Operators on tubes: lemmas -/

namespace Codac
variable {K : Type*} [LinearOrder K]

/-! ### mapWith -/

theorem mapWith_cells_slices (e : K → K → Itv K → Itv K) (q : K → Itv K → Itv K) {a b : K} {g : Itv K}
    {cs : List (Cell K)} (h : Tiles a cs b) :
    slicesFrom (q a g) (cs.map fun c => ⟨c.lb, c.ub, e c.lb c.ub c.cod, q c.ub c.out⟩) =
      (slicesFrom g cs).map fun s => ⟨s.lb, s.ub, e s.lb s.ub s.cod, q s.lb s.inG, q s.ub s.outG⟩ := by
  induction cs generalizing a g with
  | nil => rfl
  | cons c cs ih =>
    obtain ⟨rfl, h2, h3⟩ := h
    simp only [List.map_cons, slicesFrom_cons, ih h3]

theorem mapWith_slices (e : K → K → Itv K → Itv K) (q : K → Itv K → Itv K) {T : Tube K} (h : T.WF) :
    (T.mapWith e q).slices =
      T.slices.map fun s => ⟨s.lb, s.ub, e s.lb s.ub s.cod, q s.lb s.inG, q s.ub s.outG⟩ := by
  have h1 := h.ne
  have h2 := h.tiles
  unfold Tube.slices Tube.mapWith
  cases hc : T.cells with
  | nil => exact absurd hc h1
  | cons c cs =>
    rw [hc] at h2
    have := mapWith_cells_slices e q (g := T.g0) h2
    rw [← h2.1] at this
    simpa using this

theorem mapWith_wf (e : K → K → Itv K → Itv K) (q : K → Itv K → Itv K) {T : Tube K} (h : T.WF) :
    (T.mapWith e q).WF := by
  refine ⟨by simpa [Tube.mapWith] using h.ne, ?_⟩
  refine (tiles_of_bounds ?_).mpr h.tiles
  simp [Tube.mapWith]

theorem mapWith_encloses {e : K → K → Itv K → Itv K} {q : K → Itv K → Itv K} {T : Tube K} (h : T.WF) {f f' : K → K}
    (he : ∀ s ∈ T.slices, ∀ t, s.lb < t → t < s.ub → f t ∈ s.cod → f' t ∈ e s.lb s.ub s.cod)
    (hq : ∀ t X, T.t0 ≤ t → t ≤ T.tf → f t ∈ X → f' t ∈ q t X) (hf : T.Encloses f) : (T.mapWith e q).Encloses f' := by
  intro s hs
  rw [mapWith_slices e q h, List.mem_map] at hs
  obtain ⟨s0, hs0, rfl⟩ := hs
  have hb := h.tiles.mem_bounds hs0
  have h1 := hf s0 hs0
  exact ⟨hq _ _ hb.1 (le_trans hb.2.1.le hb.2.2) h1.1, hq _ _ (le_trans hb.1 hb.2.1.le) hb.2.2 h1.2.1,
    fun t h2 h3 => he s0 hs0 t h2 h3 (h1.2.2 t h2 h3)⟩

theorem mapWith_gc {e : K → K → Itv K → Itv K} {q : K → Itv K → Itv K} {T : Tube K} (h : T.WF)
    (he : ∀ s ∈ T.slices, ∀ X, X ≤ s.cod → q s.lb X ≤ e s.lb s.ub s.cod ∧ q s.ub X ≤ e s.lb s.ub s.cod)
    (hg : T.GatesInEnvelopes) : (T.mapWith e q).GatesInEnvelopes := by
  intro s hs
  rw [mapWith_slices e q h, List.mem_map] at hs
  obtain ⟨s0, hs0, rfl⟩ := hs
  have h1 := hg s0 hs0
  exact ⟨(he s0 hs0 _ h1.1).1, (he s0 hs0 _ h1.2).2⟩

/-! ### zipCells -/

theorem zipCells_bounds (φ : Itv K → Itv K → Itv K) (ys as bs : List (Cell K)) :
    (zipCells φ ys as bs).map (fun c => (c.lb, c.ub)) = ys.map (fun c => (c.lb, c.ub)) := by
  fun_induction zipCells φ ys as bs <;> simp_all

theorem zipCells_slices (φ : Itv K → Itv K → Itv K) {ys as bs : List (Cell K)} {g g' : Itv K}
    (h1 : ys.map (fun c => (c.lb, c.ub)) = as.map (fun c => (c.lb, c.ub)))
    (h2 : as.map (fun c => (c.lb, c.ub)) = bs.map (fun c => (c.lb, c.ub))) :
    slicesFrom (φ g g') (zipCells φ ys as bs) =
      ((slicesFrom g as).zip (slicesFrom g' bs)).map fun p =>
        ⟨p.1.lb, p.1.ub, φ p.1.cod p.2.cod, φ p.1.inG p.2.inG, φ p.1.outG p.2.outG⟩ := by
  induction ys generalizing as bs g g' with
  | nil =>
    have : as = [] := by simpa using h1.symm
    subst this
    simp [zipCells]
  | cons y ys ih =>
    match as, bs, h1, h2 with
    | a :: as, b :: bs, h1, h2 =>
      simp only [List.map_cons, List.cons.injEq, Prod.mk.injEq] at h1 h2
      simp only [zipCells, slicesFrom_cons, List.zip_cons_cons, List.map_cons, ih h1.2 h2.2, h1.1.1, h1.1.2]
    | a :: as, [], _, h2 => simp at h2
    | [], _, h1, _ => simp at h1

theorem mem_zip_bounds {l l' : List (Slice K)}
    (h : l.map (fun s => (s.lb, s.ub)) = l'.map (fun s => (s.lb, s.ub))) {p : Slice K × Slice K} (hp : p ∈ l.zip l') :
    p.1.lb = p.2.lb ∧ p.1.ub = p.2.ub := by
  induction l generalizing l' with
  | nil => simp at hp
  | cons s l ih =>
    cases l' with
    | nil => simp at hp
    | cons s' l' =>
      simp only [List.map_cons, List.cons.injEq, Prod.mk.injEq] at h
      simp only [List.zip_cons_cons, List.mem_cons] at hp
      rcases hp with rfl | hp
      · exact h.1
      · exact ih h.2 hp

theorem exists_zip_left {l l' : List (Slice K)}
    (h : l.map (fun s => (s.lb, s.ub)) = l'.map (fun s => (s.lb, s.ub))) {s : Slice K} (hs : s ∈ l) :
    ∃ s', (s, s') ∈ l.zip l' ∧ s' ∈ l' := by
  induction l generalizing l' with
  | nil => simp at hs
  | cons a l ih =>
    cases l' with
    | nil => simp at h
    | cons a' l' =>
      simp only [List.map_cons, List.cons.injEq, Prod.mk.injEq] at h
      rcases List.mem_cons.mp hs with rfl | hs
      · exact ⟨a', by simp, by simp⟩
      · obtain ⟨s', e1, e2⟩ := ih h.2 hs
        exact ⟨s', by simp [e1], by simp [e2]⟩

theorem exists_zip_right {l l' : List (Slice K)}
    (h : l.map (fun s => (s.lb, s.ub)) = l'.map (fun s => (s.lb, s.ub))) {s' : Slice K} (hs : s' ∈ l') :
    ∃ s, (s, s') ∈ l.zip l' ∧ s ∈ l := by
  induction l generalizing l' with
  | nil =>
    have : l' = [] := by simpa using h.symm
    subst this; simp at hs
  | cons a l ih =>
    cases l' with
    | nil => simp at hs
    | cons a' l' =>
      simp only [List.map_cons, List.cons.injEq, Prod.mk.injEq] at h
      rcases List.mem_cons.mp hs with rfl | hs
      · exact ⟨a, by simp, by simp⟩
      · obtain ⟨s, e1, e2⟩ := ih h.2 hs
        exact ⟨s, by simp [e1], by simp [e2]⟩

/-- the slice-wise combination of two tubes of identical slicing; the bounds come from a third one -/
def zipT (φ : Itv K → Itv K → Itv K) (Y X1 X2 : Tube K) : Tube K :=
  ⟨Y.t0, Y.tf, φ X1.g0 X2.g0, zipCells φ Y.cells X1.cells X2.cells⟩

/-- same bounds of slices -/
def SameB (X Y : Tube K) : Prop := X.cells.map (fun c => (c.lb, c.ub)) = Y.cells.map (fun c => (c.lb, c.ub))

theorem sameSlicing_iff {X Y : Tube K} : X.sameSlicing Y = true ↔ SameB X Y := by
  simp [Tube.sameSlicing, Tube.slices_bounds, SameB]

theorem SameB.slices {X Y : Tube K} (h : SameB X Y) :
    X.slices.map (fun s => (s.lb, s.ub)) = Y.slices.map (fun s => (s.lb, s.ub)) := by
  rw [Tube.slices_bounds, Tube.slices_bounds]; exact h

theorem zipT_slices {φ : Itv K → Itv K → Itv K} {Y X1 X2 : Tube K} (h1 : SameB Y X1) (h2 : SameB X1 X2) :
    (zipT φ Y X1 X2).slices = (X1.slices.zip X2.slices).map fun p =>
        ⟨p.1.lb, p.1.ub, φ p.1.cod p.2.cod, φ p.1.inG p.2.inG, φ p.1.outG p.2.outG⟩ :=
  zipCells_slices φ h1 h2

theorem zipT_wf {φ : Itv K → Itv K → Itv K} {Y X1 X2 : Tube K} (h : Y.WF) : (zipT φ Y X1 X2).WF := by
  have hb := zipCells_bounds φ Y.cells X1.cells X2.cells
  refine ⟨?_, (tiles_of_bounds hb).mpr h.tiles⟩
  intro h0
  have h0' : zipCells φ Y.cells X1.cells X2.cells = [] := h0
  rw [h0'] at hb
  exact h.ne (by simpa using hb.symm)

theorem zipT_encloses {φ : Itv K → Itv K → Itv K} {Y X1 X2 : Tube K} (h1 : SameB Y X1) (h2 : SameB X1 X2)
    {f g k : K → K} (hφ : ∀ t X X', f t ∈ X → g t ∈ X' → k t ∈ φ X X') (hf : X1.Encloses f) (hg : X2.Encloses g) :
    (zipT φ Y X1 X2).Encloses k := by
  intro s hs
  rw [zipT_slices h1 h2, List.mem_map] at hs
  obtain ⟨p, hp, rfl⟩ := hs
  have hb := mem_zip_bounds h2.slices hp
  have e1 := hf p.1 (List.of_mem_zip hp).1
  have e2 := hg p.2 (List.of_mem_zip hp).2
  refine ⟨hφ _ _ _ e1.1 (by rw [hb.1]; exact e2.1), hφ _ _ _ e1.2.1 (by rw [hb.2]; exact e2.2.1), ?_⟩
  intro t h3 h4
  refine hφ _ _ _ (e1.2.2 t h3 h4) (e2.2.2 t ?_ ?_)
  · rw [← hb.1]; exact h3
  · rw [← hb.2]; exact h4

theorem zipT_gc {φ : Itv K → Itv K → Itv K} {Y X1 X2 : Tube K} (h1 : SameB Y X1) (h2 : SameB X1 X2)
    (hφ : ∀ {A A' B B' : Itv K}, A ≤ A' → B ≤ B' → φ A B ≤ φ A' B')
    (hf : X1.GatesInEnvelopes) (hg : X2.GatesInEnvelopes) : (zipT φ Y X1 X2).GatesInEnvelopes := by
  intro s hs
  rw [zipT_slices h1 h2, List.mem_map] at hs
  obtain ⟨p, hp, rfl⟩ := hs
  have e1 := hf p.1 (List.of_mem_zip hp).1
  have e2 := hg p.2 (List.of_mem_zip hp).2
  exact ⟨hφ e1.1 e2.1, hφ e1.2 e2.2⟩

/-! ### common resampling -/

theorem sampleLike_aux {a b : K} (l : List (Slice K)) (T : Tube K) (hT : T.WF) (ha : T.t0 = a) (hb : T.tf = b)
    (hl : ∀ s ∈ l, a < s.ub ∧ s.ub ≤ b) :
    (l.foldl (fun T s => T.sample s.ub) T).WF ∧ (l.foldl (fun T s => T.sample s.ub) T).t0 = a ∧
    (l.foldl (fun T s => T.sample s.ub) T).tf = b ∧
    (∀ f, (l.foldl (fun T s => T.sample s.ub) T).Encloses f ↔ T.Encloses f) ∧
    (T.GatesInEnvelopes → (l.foldl (fun T s => T.sample s.ub) T).GatesInEnvelopes) ∧
    (∀ u, u ∈ (l.foldl (fun T s => T.sample s.ub) T).cells.map Cell.ub ↔
      u ∈ T.cells.map Cell.ub ∨ u ∈ l.map Slice.ub) := by
  induction l generalizing T with
  | nil => simp [hT, ha, hb]
  | cons s l ih =>
    have hs := hl s (by simp)
    have h1 : T.t0 ≤ s.ub := by rw [ha]; exact hs.1.le
    have h2 : s.ub ≤ T.tf := by rw [hb]; exact hs.2
    obtain ⟨i1, i2, i3, i4, i5, i6⟩ := ih (T.sample s.ub) (sample_wf hT h1 h2) ha hb (fun s hs => hl s (by simp [hs]))
    simp only [List.foldl_cons]
    refine ⟨i1, i2, i3, fun f => (i4 f).trans (sample_encloses hT h1 h2), fun hg => i5 (sample_gc hg _), ?_⟩
    intro u
    rw [i6 u]
    have := mem_ub_sampleCells hT.tiles h1 h2 (u := u)
    rw [Tube.sample]
    simp only [this, List.map_cons, List.mem_cons]
    rw [ha]
    constructor
    · rintro ((h | h) | h)
      · exact Or.inl h
      · exact Or.inr (Or.inl h.1)
      · exact Or.inr (Or.inr h)
    · rintro (h | h | h)
      · exact Or.inl (Or.inl h)
      · exact Or.inl (Or.inr ⟨h, hs.1⟩)
      · exact Or.inr h

theorem slices_ub (X : Tube K) : X.slices.map Slice.ub = X.cells.map Cell.ub := by
  have := congrArg (List.map Prod.snd) (Tube.slices_bounds X)
  simpa [List.map_map, Function.comp_def] using this

theorem sampleLike_spec {T X : Tube K} (hT : T.WF) (hX : X.WF) (h0 : T.t0 = X.t0) (hf : T.tf = X.tf) :
    (T.sampleLike X).WF ∧ (T.sampleLike X).t0 = T.t0 ∧ (T.sampleLike X).tf = T.tf ∧
    (∀ f, (T.sampleLike X).Encloses f ↔ T.Encloses f) ∧
    (T.GatesInEnvelopes → (T.sampleLike X).GatesInEnvelopes) ∧
    (∀ u, u ∈ (T.sampleLike X).cells.map Cell.ub ↔ u ∈ T.cells.map Cell.ub ∨ u ∈ X.cells.map Cell.ub) := by
  have := sampleLike_aux X.slices T hT rfl rfl (by
    intro s hs
    have hb := hX.tiles.mem_bounds hs
    rw [h0, hf]
    exact ⟨lt_of_le_of_lt hb.1 hb.2.1, hb.2.2⟩)
  rw [slices_ub] at this
  exact this

/-- after mutual resampling the slicings are the same -/
theorem sampleLike_same {X1 X2 : Tube K} (h1 : X1.WF) (h2 : X2.WF) (h0 : X1.t0 = X2.t0) (hf : X1.tf = X2.tf) :
    SameB (X1.sampleLike (X2.sampleLike X1)) (X1.sampleLike X2) ∧
      SameB (X1.sampleLike X2) (X2.sampleLike X1) := by
  obtain ⟨a1, a2, a3, -, -, a6⟩ := sampleLike_spec h1 h2 h0 hf
  obtain ⟨b1, b2, b3, -, -, b6⟩ := sampleLike_spec h2 h1 h0.symm hf.symm
  obtain ⟨c1, c2, c3, -, -, c6⟩ := sampleLike_spec h1 b1 (h0.trans b2.symm) (hf.trans b3.symm)
  constructor
  · have t1 := c1.tiles
    have t2 := a1.tiles
    rw [c2, c3] at t1
    rw [a2, a3] at t2
    apply t1.bounds_ext_mem t2
    intro u
    rw [c6, a6, b6]; tauto
  · have t1 := a1.tiles
    have t2 := b1.tiles
    rw [a2, a3] at t1
    rw [b2, b3, ← h0, ← hf] at t2
    apply t1.bounds_ext_mem t2
    intro u
    rw [a6, b6]; tauto

/-! ### binary operators -/

/-- a binary operator is always a slice-wise combination of resampled operands -/
theorem binOp_eq {φ : Itv K → Itv K → Itv K} {X1 X2 : Tube K} (h1 : X1.WF) (h2 : X2.WF) (h0 : X1.t0 = X2.t0)
    (hf : X1.tf = X2.tf) :
    ∃ Y Y1 Y2 : Tube K, X1.binOp φ X2 = zipT φ Y Y1 Y2 ∧ Y.WF ∧ Y.t0 = X1.t0 ∧ Y.tf = X1.tf ∧
      SameB Y Y1 ∧ SameB Y1 Y2 ∧
      (∀ f, Y1.Encloses f ↔ X1.Encloses f) ∧ (∀ f, Y2.Encloses f ↔ X2.Encloses f) ∧
      (X1.GatesInEnvelopes → Y1.GatesInEnvelopes) ∧ (X2.GatesInEnvelopes → Y2.GatesInEnvelopes) := by
  unfold Tube.binOp
  split_ifs with hs
  · rw [sameSlicing_iff] at hs
    exact ⟨X1, X1, X2, rfl, h1, rfl, rfl, rfl, hs, fun _ => Iff.rfl, fun _ => Iff.rfl, id, id⟩
  · obtain ⟨a1, a2, a3, a4, a5, -⟩ := sampleLike_spec h1 h2 h0 hf
    obtain ⟨b1, b2, b3, b4, b5, -⟩ := sampleLike_spec h2 h1 h0.symm hf.symm
    obtain ⟨c1, c2, c3, -, -, -⟩ := sampleLike_spec h1 b1 (h0.trans b2.symm) (hf.trans b3.symm)
    have hsame := sampleLike_same h1 h2 h0 hf
    exact ⟨_, _, _, rfl, c1, c2, c3, hsame.1, hsame.2, a4, b4, a5, b5⟩

theorem opAssign_encloses {φ : Itv K → Itv K → Itv K} {T X : Tube K} (hT : T.WF) (hX : X.WF)
    (hXg : X.GatesInEnvelopes) {f g k : K → K} (hφ : ∀ t A B, f t ∈ A → g t ∈ B → k t ∈ φ A B)
    (hf : T.Encloses f) (hg : X.Encloses g) : (T.opAssign φ X).Encloses k := by
  unfold Tube.opAssign
  split_ifs with hs
  · rw [sameSlicing_iff] at hs
    exact zipT_encloses (Y := T) rfl hs hφ hf hg
  · refine mapWith_encloses hT ?_ ?_ hf
    · intro s hs t h1 h2 h3
      exact hφ _ _ _ h3 (evalItv_mem hX hXg hg (by rw [Itv.mem_icc]; exact ⟨h1.le, h2.le⟩))
    · intro t A _ _ h1
      exact hφ _ _ _ h1 (evalAt_mem hX hg t)

theorem opAssign_wf {φ : Itv K → Itv K → Itv K} {T X : Tube K} (hT : T.WF) : (T.opAssign φ X).WF := by
  unfold Tube.opAssign
  split_ifs with hs
  · exact zipT_wf (Y := T) hT
  · exact mapWith_wf _ _ hT

theorem opAssignTraj_encloses {φ : Itv K → Itv K → Itv K} {T : Tube K} (hT : T.WF) {ev : Itv K → Itv K}
    {f g k : K → K} (hφ : ∀ t A B, f t ∈ A → g t ∈ B → k t ∈ φ A B)
    (hev : ∀ I t, T.t0 ≤ t → t ≤ T.tf → t ∈ I → g t ∈ ev I)
    (hf : T.Encloses f) : (T.opAssignTraj φ ev).Encloses k := by
  refine mapWith_encloses hT ?_ ?_ hf
  · intro s hs t h1 h2 h3
    have hb := hT.tiles.mem_bounds hs
    exact hφ _ _ _ h3 (hev _ _ (le_trans hb.1 h1.le) (le_trans h2.le hb.2.2) (by rw [Itv.mem_icc]; exact ⟨h1.le, h2.le⟩))
  · intro t A h3 h4 h1
    exact hφ _ _ _ h1 (hev _ _ h3 h4 (by rw [Itv.mem_point]))

/-- evaluation at the bounds of a sub-interval is included in the evaluation on the sub-interval -/
theorem evalAt_le_evalItv {X : Tube K} (hX : X.WF) (hXg : X.GatesInEnvelopes) {a b : K} (hab : a < b)
    (h1 : X.t0 ≤ a) (h2 : b ≤ X.tf) :
    X.evalAt a ≤ X.evalItv (Itv.icc a b) ∧ X.evalAt b ≤ X.evalItv (Itv.icc a b) := by
  have key := fun Y => (evalItv_le_iff hX hab h1 h2 (X := Y)).mp
  have hle := key _ (le_refl (X.evalItv (Itv.icc a b)))
  constructor
  · obtain ⟨s, hs, h3, h4⟩ := hX.tiles.exists_slice (g := X.g0) h1 (lt_of_lt_of_le hab h2)
    refine le_trans ?_ (hle s hs (lt_of_le_of_lt h3 hab) h4)
    rcases eq_or_lt_of_le h3 with e | e
    · rw [← e, X.evalAt_lb hX hs]; exact (hXg s hs).1
    · rw [X.evalAt_interior hX hs e h4]
  · obtain ⟨s, hs, h3, h4⟩ := hX.tiles.exists_slice' (g := X.g0) (lt_of_le_of_lt h1 hab) h2
    refine le_trans ?_ (hle s hs h3 (lt_of_lt_of_le hab h4))
    rcases eq_or_lt_of_le h4 with e | e
    · rw [e, X.evalAt_ub hX hs]; exact (hXg s hs).2
    · rw [X.evalAt_interior hX hs h3 e]

theorem opAssign_gc {φ : Itv K → Itv K → Itv K} {T X : Tube K} (hT : T.WF) (hX : X.WF)
    (h0 : T.t0 = X.t0) (hf : T.tf = X.tf)
    (hφ : ∀ {A A' B B' : Itv K}, A ≤ A' → B ≤ B' → φ A B ≤ φ A' B')
    (hTg : T.GatesInEnvelopes) (hXg : X.GatesInEnvelopes) : (T.opAssign φ X).GatesInEnvelopes := by
  unfold Tube.opAssign
  split_ifs with hs
  · rw [sameSlicing_iff] at hs
    exact zipT_gc (Y := T) rfl hs hφ hTg hXg
  · refine mapWith_gc hT ?_ hTg
    intro s hs X' hX'
    have hb := hT.tiles.mem_bounds hs
    have := evalAt_le_evalItv hX hXg hb.2.1 (by rw [← h0]; exact hb.1) (by rw [← hf]; exact hb.2.2)
    exact ⟨hφ hX' this.1, hφ hX' this.2⟩

end Codac
