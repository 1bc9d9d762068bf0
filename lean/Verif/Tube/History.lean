import Verif.Tube.Merge
import Verif.Tube.SetAt
import Verif.Arith

/-! # Histories of updates of a tube -/

set_option linter.unusedSectionVars false

namespace Codac

section
variable {K : Type*} [LinearOrder K]

theorem Slice.set_gc (y : Itv K) (p n : Option (Itv K)) (s : Slice K) : LocalGC p n (Slice.set y p n s) :=
  ⟨infOpt_le _ _, infOpt_le _ _, fun _ h => infOpt_le' h, fun _ h => infOpt_le' h⟩

theorem Slice.setEnvelope_gc (e : Itv K) {p n : Option (Itv K)} {s : Slice K} (h : LocalGC p n s) :
    LocalGC p n (Slice.setEnvelope e true p n s) :=
  ⟨inf_le_right, inf_le_right, fun c hc => le_trans inf_le_left (h.inP c hc), fun c hc => le_trans inf_le_left (h.outN c hc)⟩

theorem Slice.setInputGate_gc (g : Itv K) {p n : Option (Itv K)} {s : Slice K} (h : LocalGC p n s) :
    LocalGC p n (Slice.setInputGate g true p n s) :=
  ⟨le_trans (infOpt_le _ _) inf_le_right, h.outC, fun _ hc => infOpt_le' hc, h.outN⟩

theorem Slice.setOutputGate_gc (g : Itv K) {p n : Option (Itv K)} {s : Slice K} (h : LocalGC p n s) :
    LocalGC p n (Slice.setOutputGate g true p n s) :=
  ⟨h.inC, le_trans (infOpt_le _ _) inf_le_right, h.inP, fun _ hc => infOpt_le' hc⟩

theorem LocalGC.andThen {u w : Setter K} (hu : ∀ p n s, LocalGC p n s → LocalGC p n (u p n s))
    (hw : ∀ p n s, LocalGC p n s → LocalGC p n (w p n s)) :
    ∀ p n s, LocalGC p n s → LocalGC p n (u.andThen w p n s) := fun p n s h => hw p n _ (hu p n s h)

theorem foldl_upd_inv (us : Nat → Setter K) (l : List Nat) {T : Tube K} (h : T.WF) :
    (l.foldl (fun T k => T.upd k (us k)) T).WF ∧ (l.foldl (fun T k => T.upd k (us k)) T).t0 = T.t0 ∧
      (l.foldl (fun T k => T.upd k (us k)) T).tf = T.tf ∧
      SameB (l.foldl (fun T k => T.upd k (us k)) T) T := by
  induction l generalizing T with
  | nil => exact ⟨h, rfl, rfl, rfl⟩
  | cons k l ih =>
    obtain ⟨i1, i2, i3, i4⟩ := ih (upd_wf h k (us k))
    exact ⟨i1, i2, i3, i4.trans (upd_bounds T k (us k))⟩

theorem foldl_upd_gc (us : Nat → Setter K) (hu : ∀ k p n s, LocalGC p n s → LocalGC p n (us k p n s)) (l : List Nat)
    {T : Tube K} (h : T.GatesInEnvelopes) : (l.foldl (fun T k => T.upd k (us k)) T).GatesInEnvelopes := by
  induction l generalizing T with
  | nil => exact h
  | cons k l ih => exact ih (upd_gc (hu k) h)

theorem sampleGate_wf {T : Tube K} (h : T.WF) {t : K} (h1 : T.t0 ≤ t) (h2 : t ≤ T.tf) (g : Itv K) :
    (T.sampleGate t g).WF := by
  unfold Tube.sampleGate
  simp only
  split
  · exact sample_wf h h1 h2
  · split_ifs
    · exact upd_wf (sample_wf h h1 h2) _ _
    · exact upd_wf (sample_wf h h1 h2) _ _

theorem sampleGate_gc {T : Tube K} (h : T.GatesInEnvelopes) (t : K) (g : Itv K) :
    (T.sampleGate t g).GatesInEnvelopes := by
  unfold Tube.sampleGate
  simp only
  split
  · exact sample_gc h t
  · split_ifs
    · exact upd_gc (fun _ _ _ h => Slice.setInputGate_gc g h) (sample_gc h t)
    · exact upd_gc (fun _ _ _ h => Slice.setOutputGate_gc g h) (sample_gc h t)

theorem sampleGate_dom (T : Tube K) (t : K) (g : Itv K) :
    (T.sampleGate t g).t0 = T.t0 ∧ (T.sampleGate t g).tf = T.tf := by
  unfold Tube.sampleGate
  simp only
  split
  · exact ⟨rfl, rfl⟩
  · split_ifs <;> exact ⟨rfl, rfl⟩

theorem setItv_wf {T : Tube K} (h : T.WF) {a b : K} (y : Itv K) (h1 : T.t0 ≤ a) (h2 : a ≤ b) (h3 : b ≤ T.tf) :
    (T.setItv y a b).WF ∧ (T.setItv y a b).t0 = T.t0 ∧ (T.setItv y a b).tf = T.tf := by
  have hw : ((T.sample a).sample b).WF := sample_wf (sample_wf h h1 (le_trans h2 h3)) (le_trans h1 h2) h3
  obtain ⟨i1, i2, i3, -⟩ := foldl_upd_inv (fun _ => Slice.set y) (List.range' (timeToIndex a ((T.sample a).sample b).slices)
    ((((T.sample a).sample b).slices.drop (timeToIndex a ((T.sample a).sample b).slices)).takeWhile
    fun s => !(Itv.icc a b ⊓ Itv.icc s.lb s.ub).isDegenerated).length) hw
  exact ⟨i1, i2, i3⟩

theorem setItv_gc {T : Tube K} (h : T.GatesInEnvelopes) {a b : K} (y : Itv K) : (T.setItv y a b).GatesInEnvelopes :=
  foldl_upd_gc (fun _ => Slice.set y) (fun _ p n s _ => Slice.set_gc y p n s) _ (sample_gc (sample_gc h a) b)

end

section
variable {K : Type*} [Field K] [LinearOrder K] [IsStrictOrderedRing K]

/-- The public updates of a tube. A tube given as operand is itself a well-formed tube. `mapI φ` stands for `op=`
with an interval operand for any other inclusion-isotonic interval function (`/=` with a fixed interval, …). -/
inductive Op (K : Type*) [Field K] [LinearOrder K] where
  | sample (t : K)
  | sampleGate (t : K) (g : Itv K)
  | sampleLike (X : Tube K) (h : X.WF)
  | set (y : Itv K)
  | setIdx (y : Itv K) (k : Nat)
  | setAt (y : Itv K) (t : K)
  | setItv (y : Itv K) (a b : K)
  | setEmpty
  | inflate (rad : K)
  | addI (y : Itv K)
  | subI (y : Itv K)
  | mulI (y : Itv K)
  | interI (y : Itv K)
  | unionI (y : Itv K)
  | mapI (φ : Itv K → Itv K) (h : Monotone φ)
  | addT (X : Tube K) (h : X.WF) (hg : X.GatesInEnvelopes)
  | subT (X : Tube K) (h : X.WF) (hg : X.GatesInEnvelopes)
  | mulT (X : Tube K) (h : X.WF) (hg : X.GatesInEnvelopes)
  | interT (X : Tube K) (h : X.WF) (hg : X.GatesInEnvelopes)
  | unionT (X : Tube K) (h : X.WF) (hg : X.GatesInEnvelopes)
  | removeGate (t : K)
  | mergeSimilar (near : Itv K → Itv K → Bool)
  | shift (d : K)

/-- the shift of the time domain is the only update that changes it -/
def Op.isShift : Op K → Bool
  | .shift _ => true
  | _ => false

/-- total displacement of the time domain by an update -/
def Op.offset : Op K → K
  | .shift d => d
  | _ => 0

/-- guard: the operation is asserted to have its argument in range (codac_Tube.cpp:527, 568, 583, 1163, 1170,
1177, 1203, codac_Tube_operators.cpp:63); `none` when the assert fails -/
def guardT (b : Bool) (T : Tube K) : Option (Tube K) := if b then some T else none

/-- one update; `A` is the interval arithmetic -/
def Op.step (A : IArith K) (T : Tube K) : Op K → Option (Tube K)
  | .sample t => guardT (decide (T.t0 ≤ t ∧ t ≤ T.tf)) (T.sample t)
  | .sampleGate t g => guardT (decide (T.t0 ≤ t ∧ t ≤ T.tf)) (T.sampleGate t g)
  | .sampleLike X _ => guardT (decide (T.t0 = X.t0 ∧ T.tf = X.tf)) (T.sampleLike X)
  | .set y => some (T.set y)
  | .setIdx y k => guardT (decide (k < T.nbSlices)) (T.setIdx y k)
  | .setAt y t => guardT (decide (T.t0 ≤ t ∧ t ≤ T.tf)) (T.setAt y t)
  | .setItv y a b => guardT (decide (T.t0 ≤ a ∧ a < b ∧ b ≤ T.tf)) (T.setItv y a b)
  | .setEmpty => some T.setEmpty
  | .inflate rad => guardT (decide (0 ≤ rad)) (T.map fun X => A.add X (Itv.icc (-rad) rad))
  | .addI y => some (T.map fun X => A.add X y)
  | .subI y => some (T.map fun X => A.sub X y)
  | .mulI y => some (T.map fun X => A.mul X y)
  | .interI y => some (T.map fun X => X ⊓ y)
  | .unionI y => some (T.map fun X => X ⊔ y)
  | .mapI φ _ => some (T.map φ)
  | .addT X _ _ => guardT (decide (T.t0 = X.t0 ∧ T.tf = X.tf)) (T.opAssign A.add X)
  | .subT X _ _ => guardT (decide (T.t0 = X.t0 ∧ T.tf = X.tf)) (T.opAssign A.sub X)
  | .mulT X _ _ => guardT (decide (T.t0 = X.t0 ∧ T.tf = X.tf)) (T.opAssign A.mul X)
  | .interT X _ _ => guardT (decide (T.t0 = X.t0 ∧ T.tf = X.tf)) (T.opAssign (· ⊓ ·) X)
  | .unionT X _ _ => guardT (decide (T.t0 = X.t0 ∧ T.tf = X.tf)) (T.opAssign (· ⊔ ·) X)
  | .removeGate t => T.removeGate t
  | .mergeSimilar near => some (T.mergeSimilar near)
  | .shift d => some (T.shift d)

/-- a history of updates; `none` when an assert failed on the way -/
def runOps (A : IArith K) : List (Op K) → Tube K → Option (Tube K)
  | [], T => some T
  | o :: os, T => (o.step A T).bind (runOps A os)

theorem guardT_eq_some {b : Bool} {T T' : Tube K} (h : guardT b T = some T') : b = true ∧ T' = T := by
  unfold guardT at h
  split_ifs at h with hb
  · exact ⟨hb, (Option.some.inj h).symm⟩

theorem map_wf {T : Tube K} (h : T.WF) (φ : Itv K → Itv K) : (T.map φ).WF := mapWith_wf _ _ h

theorem map_gc {T : Tube K} (h : T.WF) (hg : T.GatesInEnvelopes) {φ : Itv K → Itv K} (hφ : Monotone φ) :
    (T.map φ).GatesInEnvelopes :=
  mapWith_gc h (fun _ _ _ hX => ⟨hφ hX, hφ hX⟩) hg

theorem opAssign_dom {φ : Itv K → Itv K → Itv K} (T X : Tube K) :
    (T.opAssign φ X).t0 = T.t0 ∧ (T.opAssign φ X).tf = T.tf := by
  unfold Tube.opAssign; split_ifs <;> exact ⟨rfl, rfl⟩

theorem shift_tiles {a b d : K} {cs : List (Cell K)} (h : Tiles a cs b) :
    Tiles (a + d) (cs.map fun c => { c with lb := c.lb + d, ub := c.ub + d }) (b + d) := by
  induction cs generalizing a with
  | nil => exact congrArg (· + d) h
  | cons c cs ih =>
    obtain ⟨rfl, h2, h3⟩ := h
    exact ⟨rfl, by simpa using h2, ih h3⟩

omit [IsStrictOrderedRing K] in
theorem shift_slices (T : Tube K) (d : K) :
    (T.shift d).slices = T.slices.map fun s => { s with lb := s.lb + d, ub := s.ub + d } := by
  unfold Tube.slices Tube.shift
  simp only
  generalize T.g0 = g
  induction T.cells generalizing g with
  | nil => rfl
  | cons c cs ih => simp [ih]

theorem shift_wf {T : Tube K} (h : T.WF) (d : K) : (T.shift d).WF :=
  ⟨by simpa [Tube.shift] using h.ne, shift_tiles h.tiles⟩

omit [IsStrictOrderedRing K] in
theorem shift_gc {T : Tube K} (h : T.GatesInEnvelopes) (d : K) : (T.shift d).GatesInEnvelopes := by
  intro s hs
  rw [shift_slices, List.mem_map] at hs
  obtain ⟨s0, hs0, rfl⟩ := hs
  exact h s0 hs0

theorem removeGate_inv {T T' : Tube K} (h : T.WF) (hg : T.GatesInEnvelopes) {t : K} (ht : T.removeGate t = some T') :
    T'.WF ∧ T'.GatesInEnvelopes ∧ T'.t0 = T.t0 ∧ T'.tf = T.tf := by
  unfold Tube.removeGate at ht
  rw [Option.map_eq_some_iff] at ht
  obtain ⟨r, hr, rfl⟩ := ht
  obtain ⟨i1, i2, i3, i4, -⟩ := removeFrom_spec hr h.tiles hg
  exact ⟨⟨i1.ne_nil h.lt, i1⟩, i4, rfl, rfl⟩

theorem mergeSimilar_inv {T : Tube K} (h : T.WF) (hg : T.GatesInEnvelopes) (near : Itv K → Itv K → Bool) :
    (T.mergeSimilar near).WF ∧ (T.mergeSimilar near).GatesInEnvelopes ∧ (T.mergeSimilar near).t0 = T.t0 ∧
      (T.mergeSimilar near).tf = T.tf := by
  have h1 := h.ne
  have h2 := h.tiles
  have h3 : AllSl GC T.g0 T.cells := hg
  unfold Tube.mergeSimilar
  cases hc : T.cells with
  | nil => exact absurd hc h1
  | cons c cs =>
    rw [hc] at h2 h3
    obtain ⟨i1, i2, -, i4, i5, -⟩ := mergeLoop_spec (near := near) h2 h3
    exact ⟨⟨i2, i1⟩, i5, rfl, rfl⟩

/-- one step preserves the invariant -/
theorem step_inv (A : IArith K) {T T' : Tube K} (h : T.WF) (hg : T.GatesInEnvelopes) {o : Op K}
    (hs : o.step A T = some T') :
    T'.WF ∧ T'.GatesInEnvelopes ∧ T'.t0 = T.t0 + o.offset ∧ T'.tf = T.tf + o.offset := by
  have hmap : ∀ φ : Itv K → Itv K, Monotone φ → (T.map φ).WF ∧ (T.map φ).GatesInEnvelopes ∧
      (T.map φ).t0 = T.t0 + 0 ∧ (T.map φ).tf = T.tf + 0 :=
    fun φ hφ => ⟨map_wf h φ, map_gc h hg hφ, (add_zero _).symm, (add_zero _).symm⟩
  have hop : ∀ (φ : Itv K → Itv K → Itv K) (X : Tube K), X.WF → X.GatesInEnvelopes →
      (∀ {A A' B B' : Itv K}, A ≤ A' → B ≤ B' → φ A B ≤ φ A' B') → T.t0 = X.t0 ∧ T.tf = X.tf →
      (T.opAssign φ X).WF ∧ (T.opAssign φ X).GatesInEnvelopes ∧
      (T.opAssign φ X).t0 = T.t0 + 0 ∧ (T.opAssign φ X).tf = T.tf + 0 := by
    intro φ X hX hXg hφ hd
    refine ⟨opAssign_wf h, opAssign_gc h hX hd.1 hd.2 hφ hg hXg, ?_, ?_⟩
    · rw [add_zero]; exact (opAssign_dom T X).1
    · rw [add_zero]; exact (opAssign_dom T X).2
  cases o with
  | sample t =>
    obtain ⟨h1, rfl⟩ := guardT_eq_some hs
    rw [decide_eq_true_eq] at h1
    exact ⟨sample_wf h h1.1 h1.2, sample_gc hg t, (add_zero _).symm, (add_zero _).symm⟩
  | sampleGate t g =>
    obtain ⟨h1, rfl⟩ := guardT_eq_some hs
    rw [decide_eq_true_eq] at h1
    refine ⟨sampleGate_wf h h1.1 h1.2 g, sampleGate_gc hg t g, ?_, ?_⟩
    · show _ = T.t0 + 0; rw [add_zero]; exact (sampleGate_dom T t g).1
    · show _ = T.tf + 0; rw [add_zero]; exact (sampleGate_dom T t g).2
  | sampleLike X hX =>
    obtain ⟨h1, rfl⟩ := guardT_eq_some hs
    rw [decide_eq_true_eq] at h1
    obtain ⟨i1, i2, i3, -, i5, -⟩ := sampleLike_spec h hX h1.1 h1.2
    refine ⟨i1, i5 hg, ?_, ?_⟩
    · show _ = T.t0 + 0; rw [add_zero, i2]
    · show _ = T.tf + 0; rw [add_zero, i3]
  | set y =>
    cases hs
    obtain ⟨i1, i2, i3, -⟩ := foldl_upd_inv (fun _ => Slice.set y) (List.range T.nbSlices) h
    refine ⟨i1, foldl_upd_gc (fun _ => Slice.set y) (fun _ p n s _ => Slice.set_gc y p n s) _ hg, ?_, ?_⟩
    · show _ = T.t0 + 0; rw [add_zero]; exact i2
    · show _ = T.tf + 0; rw [add_zero]; exact i3
  | setIdx y k =>
    obtain ⟨-, rfl⟩ := guardT_eq_some hs
    exact ⟨upd_wf h _ _, upd_gc (fun p n s _ => Slice.set_gc y p n s) hg, (add_zero _).symm, (add_zero _).symm⟩
  | setAt y t =>
    obtain ⟨h1, rfl⟩ := guardT_eq_some hs
    rw [decide_eq_true_eq] at h1
    refine ⟨sampleGate_wf h h1.1 h1.2 y, sampleGate_gc hg t y, ?_, ?_⟩
    · show _ = T.t0 + 0; rw [add_zero]; exact (sampleGate_dom T t y).1
    · show _ = T.tf + 0; rw [add_zero]; exact (sampleGate_dom T t y).2
  | setItv y a b =>
    obtain ⟨h1, rfl⟩ := guardT_eq_some hs
    rw [decide_eq_true_eq] at h1
    obtain ⟨i1, i2, i3⟩ := setItv_wf h y h1.1 h1.2.1.le h1.2.2
    refine ⟨i1, setItv_gc hg y, ?_, ?_⟩
    · show _ = T.t0 + 0; rw [add_zero, i2]
    · show _ = T.tf + 0; rw [add_zero, i3]
  | setEmpty =>
    cases hs
    obtain ⟨i1, i2, i3, -⟩ := foldl_upd_inv (fun _ => Slice.set (⊥ : Itv K)) (List.range T.nbSlices) h
    refine ⟨i1, foldl_upd_gc (fun _ => Slice.set ⊥) (fun _ p n s _ => Slice.set_gc ⊥ p n s) _ hg, ?_, ?_⟩
    · show _ = T.t0 + 0; rw [add_zero]; exact i2
    · show _ = T.tf + 0; rw [add_zero]; exact i3
  | inflate rad =>
    obtain ⟨-, rfl⟩ := guardT_eq_some hs
    exact hmap _ fun _ _ hX => A.add_mono hX (le_refl _)
  | addI y => cases hs; exact hmap _ fun _ _ hX => A.add_mono hX (le_refl _)
  | subI y => cases hs; exact hmap _ fun _ _ hX => A.sub_mono hX (le_refl _)
  | mulI y => cases hs; exact hmap _ fun _ _ hX => A.mul_mono hX (le_refl _)
  | interI y => cases hs; exact hmap _ fun _ _ hX => inf_le_inf hX (le_refl _)
  | unionI y => cases hs; exact hmap _ fun _ _ hX => sup_le_sup hX (le_refl _)
  | mapI φ hφ => cases hs; exact hmap φ hφ
  | addT X hX hXg =>
    obtain ⟨h1, rfl⟩ := guardT_eq_some hs
    rw [decide_eq_true_eq] at h1
    exact hop _ X hX hXg A.add_mono h1
  | subT X hX hXg =>
    obtain ⟨h1, rfl⟩ := guardT_eq_some hs
    rw [decide_eq_true_eq] at h1
    exact hop _ X hX hXg A.sub_mono h1
  | mulT X hX hXg =>
    obtain ⟨h1, rfl⟩ := guardT_eq_some hs
    rw [decide_eq_true_eq] at h1
    exact hop _ X hX hXg A.mul_mono h1
  | interT X hX hXg =>
    obtain ⟨h1, rfl⟩ := guardT_eq_some hs
    rw [decide_eq_true_eq] at h1
    exact hop _ X hX hXg inf_le_inf h1
  | unionT X hX hXg =>
    obtain ⟨h1, rfl⟩ := guardT_eq_some hs
    rw [decide_eq_true_eq] at h1
    exact hop _ X hX hXg sup_le_sup h1
  | removeGate t =>
    obtain ⟨i1, i2, i3, i4⟩ := removeGate_inv h hg hs
    exact ⟨i1, i2, by simp [Op.offset, i3], by simp [Op.offset, i4]⟩
  | mergeSimilar near =>
    cases hs
    obtain ⟨i1, i2, i3, i4⟩ := mergeSimilar_inv h hg near
    exact ⟨i1, i2, by simp [Op.offset, i3], by simp [Op.offset, i4]⟩
  | shift d => cases hs; exact ⟨shift_wf h d, shift_gc hg d, rfl, rfl⟩

end
end Codac
