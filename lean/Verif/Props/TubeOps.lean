import Verif.Tube.History
import Verif.Tube.Examples

/-!
# C02, C08, C09, C10, C11, C12: updates and operators on tubes
-/

set_option linter.unusedSectionVars false

namespace Codac.Props
open Codac

/-! ## C02 -/

section C02
variable {K : Type*} [Field K] [LinearOrder K] [IsStrictOrderedRing K]

/-- After any finite history of public updates that violates no assert, starting from a well-formed tube, the
slices are adjacent, non-degenerate and tile the time domain, each gate is included in the envelopes around it, and the
time domain has only been moved by the shifts. -/
theorem C02_history_well_formed (A : IArith K) (ops : List (Op K)) {T T' : Tube K} (h : T.WF)
    (hg : T.GatesInEnvelopes) (hrun : runOps A ops T = some T') :
    T'.WF ∧ T'.GatesInEnvelopes ∧ T'.t0 = T.t0 + (ops.map Op.offset).sum ∧
      T'.tf = T.tf + (ops.map Op.offset).sum := by
  induction ops generalizing T with
  | nil => cases hrun; simp [h, hg]
  | cons o os ih =>
    rw [runOps, Option.bind_eq_some_iff] at hrun
    obtain ⟨T1, h1, h2⟩ := hrun
    obtain ⟨i1, i2, i3, i4⟩ := step_inv A h hg h1
    obtain ⟨j1, j2, j3, j4⟩ := ih i1 i2 h2
    refine ⟨j1, j2, ?_, ?_⟩
    · rw [j3, i3, List.map_cons, List.sum_cons, add_assoc]
    · rw [j4, i4, List.map_cons, List.sum_cons, add_assoc]

/-- Updates whose arguments are in range never violate an assert: sampling and setting inside the time domain,
and removing an inner gate that exists, always succeed. -/
theorem C02_in_range_succeeds (A : IArith K) {T : Tube K} (h : T.WF) {t : K} (h1 : T.t0 ≤ t) (h2 : t ≤ T.tf)
    (y : Itv K) :
    ((Op.sample t).step A T).isSome ∧ ((Op.sampleGate t y).step A T).isSome ∧ ((Op.setAt y t).step A T).isSome ∧
      (t ≠ T.tf → (∃ s ∈ T.slices, s.ub = t) → ((Op.removeGate t).step A T).isSome) := by
  refine ⟨by simp [Op.step, guardT, h1, h2], by simp [Op.step, guardT, h1, h2], by simp [Op.step, guardT, h1, h2], ?_⟩
  rintro hne ⟨s, hs, e⟩
  simp only [Op.step, Tube.removeGate, Option.isSome_map]
  apply removeFrom_isSome h.tiles hne
  rw [← slices_ub]
  exact List.mem_map.mpr ⟨s, hs, e⟩

/-- a non-trivial history that violates no assert -/
example : (runOps (IArith.exact ℚ) [.sample (1/2), .setAt (Ex.I 0 1) (3/2), .inflate 1, .removeGate 1,
    .unionT Ex.T Ex.T_wf Ex.T_gc, .setItv (Ex.I 0 2) (1/4) 3, .mulI (Ex.I (-1) 2), .shift 5,
    .mergeSimilar (fun X Y => decide (X = Y))] Ex.T).isSome := by decide +kernel

end C02

/-! ## C08 -/

section C08
variable {K : Type*} [LinearOrder K]

/-- `x & y`: a trajectory is in the result iff it is in both tubes, whatever the slicings -/
theorem C08_inter_exact {X Y : Tube K} (hX : X.WF) (hY : Y.WF) (h0 : X.t0 = Y.t0) (h1 : X.tf = Y.tf) (f : K → K) :
    (X.binOp (· ⊓ ·) Y).Encloses f ↔ X.Encloses f ∧ Y.Encloses f := by
  obtain ⟨Z, Y1, Y2, e, -, -, -, hs1, hs2, hf1, hf2, -⟩ := binOp_eq (φ := (· ⊓ ·)) hX hY h0 h1
  rw [e, ← hf1, ← hf2]
  constructor
  · intro h
    constructor
    · intro s hs
      obtain ⟨s', hp, -⟩ := exists_zip_left hs2.slices hs
      have := h ⟨s.lb, s.ub, s.cod ⊓ s'.cod, s.inG ⊓ s'.inG, s.outG ⊓ s'.outG⟩ (by
        rw [zipT_slices hs1 hs2, List.mem_map]; exact ⟨(s, s'), hp, rfl⟩)
      exact ⟨(Itv.mem_inf.mp this.1).1, (Itv.mem_inf.mp this.2.1).1, fun t h2 h3 => (Itv.mem_inf.mp (this.2.2 t h2 h3)).1⟩
    · intro s' hs'
      obtain ⟨s, hp, -⟩ := exists_zip_right hs2.slices hs'
      have hb := mem_zip_bounds hs2.slices hp
      have := h ⟨s.lb, s.ub, s.cod ⊓ s'.cod, s.inG ⊓ s'.inG, s.outG ⊓ s'.outG⟩ (by
        rw [zipT_slices hs1 hs2, List.mem_map]; exact ⟨(s, s'), hp, rfl⟩)
      simp only at hb
      unfold Slice.Encloses at this
      simp only [hb.1, hb.2] at this
      exact ⟨(Itv.mem_inf.mp this.1).2, (Itv.mem_inf.mp this.2.1).2, fun t h2 h3 => (Itv.mem_inf.mp (this.2.2 t h2 h3)).2⟩
  · rintro ⟨h2, h3⟩
    exact zipT_encloses hs1 hs2 (fun _ _ _ h h' => Itv.mem_inf.mpr ⟨h, h'⟩) h2 h3

/-- `x | y`: any trajectory that at each time follows one of a trajectory of `x` and a trajectory of `y` is in the
result, whatever the slicings; in particular the trajectories of `x` (when `y` is not empty) -/
theorem C08_union_outer {X Y : Tube K} (hX : X.WF) (hY : Y.WF) (h0 : X.t0 = Y.t0) (h1 : X.tf = Y.tf) {f : K → K}
    (h : X.Encloses f ∨ Y.Encloses f) : (X.binOp (· ⊔ ·) Y).Encloses f := by
  obtain ⟨Z, Y1, Y2, e, -, -, -, hs1, hs2, hf1, hf2, -⟩ := binOp_eq (φ := (· ⊔ ·)) hX hY h0 h1
  rw [← hf1, ← hf2] at h
  rw [e]
  intro s hs
  rw [zipT_slices hs1 hs2, List.mem_map] at hs
  obtain ⟨p, hp, rfl⟩ := hs
  have hb := mem_zip_bounds hs2.slices hp
  rcases h with h | h
  · have := h p.1 (List.of_mem_zip hp).1
    exact ⟨Itv.mem_sup_left this.1, Itv.mem_sup_left this.2.1, fun t h2 h3 => Itv.mem_sup_left (this.2.2 t h2 h3)⟩
  · have := h p.2 (List.of_mem_zip hp).2
    unfold Slice.Encloses
    simp only [hb.1, hb.2]
    exact ⟨Itv.mem_sup_right this.1, Itv.mem_sup_right this.2.1, fun t h2 h3 => Itv.mem_sup_right (this.2.2 t h2 h3)⟩

/-- `x &= y`: keeps the trajectories common to both, and adds none to `x`, whatever the slicings -/
theorem C08_inter_assign {X Y : Tube K} (hX : X.WF) (hY : Y.WF) (hYg : Y.GatesInEnvelopes) {f : K → K} :
    (X.Encloses f → Y.Encloses f → (X.opAssign (· ⊓ ·) Y).Encloses f) ∧
      ((X.opAssign (· ⊓ ·) Y).Encloses f → X.Encloses f) := by
  constructor
  · intro h1 h2
    exact opAssign_encloses hX hY hYg (fun _ _ _ h h' => Itv.mem_inf.mpr ⟨h, h'⟩) h1 h2
  · intro h
    unfold Tube.opAssign at h
    split_ifs at h with hs
    · rw [sameSlicing_iff] at hs
      intro s hs'
      obtain ⟨s', hp, -⟩ := exists_zip_left hs.slices hs'
      have := h ⟨s.lb, s.ub, s.cod ⊓ s'.cod, s.inG ⊓ s'.inG, s.outG ⊓ s'.outG⟩ (by
        have := zipT_slices (φ := (· ⊓ ·)) (Y := X) (X1 := X) (X2 := Y) rfl hs
        unfold zipT at this
        rw [this, List.mem_map]; exact ⟨(s, s'), hp, rfl⟩)
      exact ⟨(Itv.mem_inf.mp this.1).1, (Itv.mem_inf.mp this.2.1).1, fun t h2 h3 => (Itv.mem_inf.mp (this.2.2 t h2 h3)).1⟩
    · intro s hs'
      have := h _ (by rw [mapWith_slices _ _ hX]; exact List.mem_map_of_mem hs')
      exact ⟨(Itv.mem_inf.mp this.1).1, (Itv.mem_inf.mp this.2.1).1, fun t h2 h3 => (Itv.mem_inf.mp (this.2.2 t h2 h3)).1⟩

/-- `x |= y`: keeps the trajectories of `x` and adds those of `y`, whatever the slicings -/
theorem C08_union_assign {X Y : Tube K} (hX : X.WF) (hY : Y.WF) (hYg : Y.GatesInEnvelopes)
    (h0 : X.t0 = Y.t0) (h1 : X.tf = Y.tf) {f : K → K}
    (h : X.Encloses f ∨ Y.Encloses f) : (X.opAssign (· ⊔ ·) Y).Encloses f := by
  unfold Tube.opAssign
  split_ifs with hs
  · have := C08_union_outer hX hY h0 h1 h
    unfold Tube.binOp at this
    rw [if_pos hs] at this
    exact this
  · intro s hs'
    rw [mapWith_slices _ _ hX, List.mem_map] at hs'
    obtain ⟨s0, hs0, rfl⟩ := hs'
    have hb := hX.tiles.mem_bounds hs0
    rcases h with h | h
    · have := h s0 hs0
      exact ⟨Itv.mem_sup_left this.1, Itv.mem_sup_left this.2.1, fun t h2 h3 => Itv.mem_sup_left (this.2.2 t h2 h3)⟩
    · refine ⟨Itv.mem_sup_right (evalAt_mem hY h _), Itv.mem_sup_right (evalAt_mem hY h _), fun t h2 h3 => ?_⟩
      exact Itv.mem_sup_right (evalItv_mem hY hYg h (by rw [Itv.mem_icc]; exact ⟨h2.le, h3.le⟩))

end C08

/-- another tube on the time domain of `Ex.T`, with a different slicing -/
def U : Tube ℚ := ⟨0, 4, Ex.I 0 1, [⟨0, 3/2, Ex.I 0 4, Ex.I 1 2⟩, ⟨3/2, 4, Ex.I 1 6, Ex.I 3 4⟩]⟩

theorem U_wf : U.WF := ⟨by simp [U], by simp [U, Tiles]; norm_num⟩
theorem U_gc : U.GatesInEnvelopes := by
  intro s hs
  have : s = ⟨0, 3/2, Ex.I 0 4, Ex.I 0 1, Ex.I 1 2⟩ ∨ s = ⟨3/2, 4, Ex.I 1 6, Ex.I 1 2, Ex.I 3 4⟩ := by
    simpa [U, Tube.slices, slicesFrom] using hs
  rcases this with rfl | rfl <;> decide +kernel
theorem U_encl : U.Encloses (fun t => t) := by
  intro s hs
  have : s = ⟨0, 3/2, Ex.I 0 4, Ex.I 0 1, Ex.I 1 2⟩ ∨ s = ⟨3/2, 4, Ex.I 1 6, Ex.I 1 2, Ex.I 3 4⟩ := by
    simpa [U, Tube.slices, slicesFrom] using hs
  rcases this with rfl | rfl <;> refine ⟨by decide +kernel, by decide +kernel, ?_⟩ <;> intro t h1 h2 <;> simp <;>
    constructor <;> simp at h1 h2 <;> linarith

/-- hypotheses are met by two tubes of different slicings, and the intersection is non-trivial -/
example : Ex.T.t0 = U.t0 ∧ Ex.T.tf = U.tf ∧ Ex.T.sameSlicing U = false ∧ (Ex.T.binOp (· ⊓ ·) U).nbSlices = 4 ∧
    (Ex.T.binOp (· ⊓ ·) U).Encloses (fun t => t) ∧ (Ex.T.binOp (· ⊓ ·) U).evalAt 4 = Ex.I 4 4 :=
  ⟨rfl, rfl, by decide +kernel, by decide +kernel,
    (C08_inter_exact Ex.T_wf U_wf rfl rfl _).mpr ⟨Ex.T_encl, U_encl⟩, by decide +kernel⟩

/-! ## C09 -/

section C09
variable {K : Type*} [LinearOrder K]

/-- Binary functions on tubes. `R x y z` reads "`z` is the result of the operation on `x` and `y`" (it may be
undefined for some operands, as a quotient by zero). If the interval function `φ` is inclusion-correct for `R`, and if
`f`, `g` are trajectories of the operands, any trajectory `k` with `R (f t) (g t) (k t)` is in the result; the
slicings may differ. -/
theorem C09_binary {φ : Itv K → Itv K → Itv K} {R : K → K → K → Prop}
    (hφ : ∀ A B x y z, x ∈ A → y ∈ B → R x y z → z ∈ φ A B) {X Y : Tube K} (hX : X.WF) (hY : Y.WF)
    (h0 : X.t0 = Y.t0) (h1 : X.tf = Y.tf) {f g k : K → K} (hf : X.Encloses f) (hg : Y.Encloses g)
    (hk : ∀ t, X.t0 ≤ t → t ≤ X.tf → R (f t) (g t) (k t)) :
    (X.binOp φ Y).Encloses k ∧ (X.binOp φ Y).WF ∧ (X.binOp φ Y).t0 = X.t0 ∧ (X.binOp φ Y).tf = X.tf := by
  obtain ⟨Z, Y1, Y2, e, z1, z2, z3, hs1, hs2, hf1, hf2, -⟩ := binOp_eq (φ := φ) hX hY h0 h1
  rw [e]
  refine ⟨?_, zipT_wf z1, z2, z3⟩
  intro s hs
  have hb := (zipT_wf (φ := φ) (X1 := Y1) (X2 := Y2) z1).tiles.mem_bounds hs
  have hb1 : X.t0 ≤ s.lb := by rw [← z2]; exact hb.1
  have hb2 : s.ub ≤ X.tf := by rw [← z3]; exact hb.2.2
  rw [zipT_slices hs1 hs2, List.mem_map] at hs
  obtain ⟨p, hp, rfl⟩ := hs
  have hbb := mem_zip_bounds hs2.slices hp
  have e1 := (hf1 f).mpr hf p.1 (List.of_mem_zip hp).1
  have e2 := (hf2 g).mpr hg p.2 (List.of_mem_zip hp).2
  unfold Slice.Encloses at e2
  rw [← hbb.1, ← hbb.2] at e2
  exact ⟨hφ _ _ _ _ _ e1.1 e2.1 (hk _ hb1 (le_trans hb.2.1.le hb2)),
    hφ _ _ _ _ _ e1.2.1 e2.2.1 (hk _ (le_trans hb1 hb.2.1.le) hb2),
    fun t h3 h4 => hφ _ _ _ _ _ (e1.2.2 t h3 h4) (e2.2.2 t h3 h4) (hk t (le_trans hb1 h3.le) (le_trans h4.le hb2))⟩

/-- `op=` between tubes, whatever the slicings -/
theorem C09_op_assign {φ : Itv K → Itv K → Itv K} {R : K → K → K → Prop}
    (hφ : ∀ A B x y z, x ∈ A → y ∈ B → R x y z → z ∈ φ A B) {X Y : Tube K} (hX : X.WF) (hY : Y.WF)
    (hYg : Y.GatesInEnvelopes) {f g k : K → K} (hf : X.Encloses f) (hg : Y.Encloses g)
    (hk : ∀ t, R (f t) (g t) (k t)) :
    (X.opAssign φ Y).Encloses k ∧ (X.opAssign φ Y).WF :=
  ⟨opAssign_encloses hX hY hYg (fun t A B h1 h2 => hφ A B _ _ _ h1 h2 (hk t)) hf hg, opAssign_wf hX⟩

/-- Unary functions, functions with an interval operand and `op=` with an interval: `R x z` reads "`z` is a result
of the function on `x`" (for some value of the interval operand). -/
theorem C09_unary {φ : Itv K → Itv K} {R : K → K → Prop} (hφ : ∀ A x z, x ∈ A → R x z → z ∈ φ A) {X : Tube K}
    (hX : X.WF) {f k : K → K} (hf : X.Encloses f) (hk : ∀ t, X.t0 ≤ t → t ≤ X.tf → R (f t) (k t)) :
    (X.map φ).Encloses k ∧ (X.map φ).WF ∧ (X.map φ).t0 = X.t0 ∧ (X.map φ).tf = X.tf := by
  refine ⟨mapWith_encloses hX ?_ ?_ hf, mapWith_wf _ _ hX, rfl, rfl⟩
  · intro s hs t h1 h2 h3
    have hb := hX.tiles.mem_bounds hs
    exact hφ _ _ _ h3 (hk t (le_trans hb.1 h1.le) (le_trans h2.le hb.2.2))
  · intro t A h1 h2 h3
    exact hφ _ _ _ h3 (hk t h1 h2)

/-- `op=` with a trajectory `g`, and `inflate` with a trajectory: `ev` encloses the values of `g` on an interval -/
theorem C09_trajectory_operand {φ : Itv K → Itv K → Itv K} {R : K → K → K → Prop}
    (hφ : ∀ A B x y z, x ∈ A → y ∈ B → R x y z → z ∈ φ A B) {X : Tube K} (hX : X.WF) {ev : Itv K → Itv K}
    {f g k : K → K} (hev : ∀ I t, X.t0 ≤ t → t ≤ X.tf → t ∈ I → g t ∈ ev I) (hf : X.Encloses f)
    (hk : ∀ t, R (f t) (g t) (k t)) : (X.opAssignTraj φ ev).Encloses k ∧ (X.opAssignTraj φ ev).WF :=
  ⟨opAssignTraj_encloses hX (fun t A B h1 h2 => hφ A B _ _ _ h1 h2 (hk t)) hev hf, mapWith_wf _ _ hX⟩

end C09

section C09'
variable {K : Type*} [Field K] [LinearOrder K] [IsStrictOrderedRing K]

/-- sum, difference and product of two tubes, with any inclusion-correct interval arithmetic -/
theorem C09_sum_difference_product (A : IArith K) {X Y : Tube K} (hX : X.WF) (hY : Y.WF)
    (h0 : X.t0 = Y.t0) (h1 : X.tf = Y.tf) {f g : K → K} (hf : X.Encloses f) (hg : Y.Encloses g) :
    (X.binOp A.add Y).Encloses (fun t => f t + g t) ∧ (X.binOp A.sub Y).Encloses (fun t => f t - g t) ∧
      (X.binOp A.mul Y).Encloses (fun t => f t * g t) :=
  ⟨(C09_binary (R := fun x y z => z = x + y) (by rintro _ _ _ _ _ h h' rfl; exact A.add_mem h h') hX hY h0 h1 hf hg
      (fun _ _ _ => rfl)).1,
   (C09_binary (R := fun x y z => z = x - y) (by rintro _ _ _ _ _ h h' rfl; exact A.sub_mem h h') hX hY h0 h1 hf hg
      (fun _ _ _ => rfl)).1,
   (C09_binary (R := fun x y z => z = x * y) (by rintro _ _ _ _ _ h h' rfl; exact A.mul_mem h h') hX hY h0 h1 hf hg
      (fun _ _ _ => rfl)).1⟩

/-- `inflate(rad)`: every trajectory within `rad` of a trajectory of the tube is in the inflated tube -/
theorem C09_inflate (A : IArith K) {X : Tube K} (hX : X.WF) {f k : K → K} (hf : X.Encloses f) {rad : K}
    (hk : ∀ t, |k t - f t| ≤ rad) : (X.map fun Y => A.add Y (Itv.icc (-rad) rad)).Encloses k := by
  refine (C09_unary (R := fun x z => |z - x| ≤ rad) ?_ hX hf (fun t _ _ => hk t)).1
  intro B x z hx hz
  have h1 : z - x ∈ Itv.icc (-rad) rad := by rw [Itv.mem_icc]; exact abs_le.mp hz
  have h2 := A.add_mem hx h1
  rw [add_sub_cancel] at h2; exact h2

/-- a non-trivial instance: product of two tubes of different slicings -/
example : (Ex.T.binOp (IArith.exact ℚ).mul U).Encloses (fun t => t * t) ∧
    (Ex.T.binOp (IArith.exact ℚ).mul U).evalAt 4 = Ex.I 12 20 :=
  ⟨(C09_sum_difference_product _ Ex.T_wf U_wf rfl rfl Ex.T_encl U_encl).2.2, by decide +kernel⟩

end C09'

/-! ## C10 -/

section C10
variable {K : Type*} [LinearOrder K]

/-- `x.is_subset(y)`, when each bound of a slice of `y` is a bound of a slice of `x` (in particular with identical
slicings): every trajectory of `x` is a trajectory of `y`. Missing for the full property: arbitrary slicings, where it
is false (`C10_is_subset_fails`). -/
theorem C10_is_subset_partial {X Y : Tube K} (hX : X.WF) (hY : Y.WF)
    (h0 : X.t0 = Y.t0) (h1 : X.tf = Y.tf)
    (href : ∀ s ∈ Y.slices, ∃ s' ∈ X.slices, s'.ub = s.ub)
    (h : X.isSubset Y = true) {f : K → K} (hf : X.Encloses f) : Y.Encloses f := by
  unfold Tube.isSubset at h
  split_ifs at h with hs
  · rw [sameSlicing_iff] at hs
    rw [List.all_eq_true] at h
    intro s' hs'
    obtain ⟨s, hp, hsm⟩ := exists_zip_right hs.slices hs'
    have hb := mem_zip_bounds hs.slices hp
    have := h _ hp
    simp only [Slice.isSubset, Bool.and_eq_true, decide_eq_true_eq] at this
    have e := hf s hsm
    unfold Slice.Encloses at e ⊢
    simp only at hb
    rw [← hb.1, ← hb.2]
    exact ⟨Itv.mem_of_le this.1.2 e.1, Itv.mem_of_le this.2 e.2.1, fun t h2 h3 => Itv.mem_of_le this.1.1 (e.2.2 t h2 h3)⟩
  · rw [Bool.and_eq_true, List.all_eq_true] at h
    obtain ⟨ha, hlast⟩ := h
    rw [encloses_iff_evalAt hY]
    intro t h2 h3
    rw [← h0] at h2
    rw [← h1] at h3
    rcases eq_or_lt_of_le h3 with e | h3
    · -- the last instant
      cases hl : X.slices.getLast? with
      | none =>
        rw [List.getLast?_eq_none_iff] at hl
        exact absurd (by simpa [Tube.slices] using congrArg List.length hl) hX.ne
      | some s =>
        rw [hl] at hlast
        simp only [decide_eq_true_eq] at hlast
        have hsm : s ∈ X.slices := List.mem_of_getLast? hl
        obtain ⟨s1, hs1, h4, h5⟩ := hX.tiles.exists_slice' (g := X.g0) hX.lt (le_refl _)
        have hub : s.ub = X.tf := by
          have hb := hX.tiles.mem_bounds hsm
          have hb1 := hX.tiles.mem_bounds hs1
          by_contra hne
          have hlt : s.ub < X.tf := lt_of_le_of_ne hb.2.2 hne
          -- the bounds of slices increase along the list
          have hsort := hX.tiles.sorted.1
          rw [← slices_ub] at hsort
          have hlast' : ∀ u ∈ X.slices.map Slice.ub, u ≤ s.ub := by
            intro u hu
            obtain ⟨ys, e⟩ := List.getLast?_eq_some_iff.mp hl
            rw [e] at hu hsort
            simp only [List.map_append, List.map_cons, List.map_nil, List.mem_append, List.mem_singleton] at hu
            rw [List.map_append, List.pairwise_append] at hsort
            rcases hu with hu | rfl
            · exact (hsort.2.2 u hu s.ub (by simp)).le
            · exact le_refl _
          have := hlast' s1.ub (List.mem_map.mpr ⟨s1, hs1, rfl⟩)
          have e1 : s1.ub = X.tf := le_antisymm hb1.2.2 h5
          rw [e1] at this
          exact absurd this (not_le.mpr hlt)
        rw [e, ← hub]
        exact Itv.mem_of_le hlast (hf s hsm).2.1
    · obtain ⟨s, hsm, h4, h5⟩ := hX.tiles.exists_slice (g := X.g0) h2 h3
      have hh := ha s hsm
      rw [Bool.and_eq_true, decide_eq_true_eq, decide_eq_true_eq] at hh
      rcases eq_or_lt_of_le h4 with e | h4
      · rw [← e]; exact Itv.mem_of_le hh.1 (hf s hsm).1
      · -- inside the slice `s`, itself inside a slice `s'` of `Y`
        obtain ⟨s', hs', h6, h7⟩ := hY.tiles.exists_slice (g := Y.g0) (t := t) (by rw [← h0]; exact h2) (by rw [← h1]; exact h3)
        have hbs := hX.tiles.mem_bounds hsm
        have hin1 : s'.lb ≤ s.lb := by
          -- otherwise the bound `s'.lb` would be inside `s`
          by_contra hc
          rw [not_le] at hc
          obtain ⟨s2, hs2, h8, h9⟩ := hY.tiles.exists_slice' (g := Y.g0) (t := s'.lb)
            (by rw [← h0]; exact lt_of_le_of_lt hbs.1 hc) (le_trans h6 (by rw [← h1]; exact h3.le))
          have e2 : s2.ub = s'.lb := by
            rcases eq_or_lt_of_le h9 with e | h9
            · exact e.symm
            · exact (hY.tiles.no_interior_lb hs2 hs' h8 h9).elim
          obtain ⟨s3, hs3, e3⟩ := href s2 hs2
          exact (hX.tiles.no_interior_ub hsm hs3 (by rw [e3, e2]; exact hc) (by rw [e3, e2]; exact lt_of_le_of_lt h6 h5)).elim
        have hin2 : s.ub ≤ s'.ub := by
          by_contra hc
          rw [not_le] at hc
          obtain ⟨s3, hs3, e3⟩ := href s' hs'
          exact (hX.tiles.no_interior_ub hsm hs3 (by rw [e3]; exact lt_trans h4 h7) (by rw [e3]; exact hc)).elim
        have hle : Y.evalItv (Itv.icc s.lb s.ub) ≤ s'.cod := by
          rw [evalItv_le_iff hY hbs.2.1 (by rw [← h0]; exact hbs.1) (by rw [← h1]; exact hbs.2.2)]
          intro s2 hs2 h8 h9
          have : s2 = s' := by
            rcases le_or_gt s2.lb t with h10 | h10
            · rcases le_or_gt t s2.ub with h11 | h11
              · rcases eq_or_lt_of_le h6 with e | h6'
                · exact absurd (lt_of_le_of_lt hin1 h4) (by rw [e]; exact lt_irrefl _)
                · exact hY.tiles.unique_slice hs' hs2 h6' h7 h10 h11
              · exact (hY.tiles.no_interior_ub hs' hs2 (lt_of_le_of_lt hin1 h9) (lt_trans h11 h7)).elim
            · exact (hY.tiles.no_interior_lb hs' hs2 (lt_of_le_of_lt h6 h10) (lt_of_lt_of_le h8 hin2)).elim
          rw [this]
        rw [Y.evalAt_interior hY hs' (lt_of_le_of_lt hin1 h4) (lt_of_lt_of_le h5 hin2)]
        exact Itv.mem_of_le (le_trans hh.2 hle) ((hf s hsm).2.2 t h4 h5)

/-- With different slicings `is_subset` compares with the hull of `y` over the slice: it accepts tubes that are not
included. Here `x` is `[0,1]` on `[0,2]` and `y` is `[0,0]` on `[0,1]` then `[0,1]` on `[1,2]`. -/
theorem C10_is_subset_fails : ∃ (X Y : Tube ℚ) (f : ℚ → ℚ), X.WF ∧ X.GatesInEnvelopes ∧ Y.WF ∧ Y.GatesInEnvelopes ∧
    X.t0 = Y.t0 ∧ X.tf = Y.tf ∧ X.isSubset Y = true ∧ X.Encloses f ∧ ¬ Y.Encloses f := by
  refine ⟨⟨0, 2, Ex.I 0 0, [⟨0, 2, Ex.I 0 1, Ex.I 0 1⟩]⟩,
    ⟨0, 2, Ex.I 0 0, [⟨0, 1, Ex.I 0 0, Ex.I 0 0⟩, ⟨1, 2, Ex.I 0 1, Ex.I 0 1⟩]⟩, fun t => if t = 0 then 0 else 1,
    ⟨by simp, by simp [Tiles]⟩, ?_, ⟨by simp, by simp [Tiles]⟩, ?_, rfl, rfl, by decide +kernel, ?_, ?_⟩
  · intro s hs
    have : s = ⟨0, 2, Ex.I 0 1, Ex.I 0 0, Ex.I 0 1⟩ := by simpa [Tube.slices, slicesFrom] using hs
    subst this; decide +kernel
  · intro s hs
    have : s = ⟨0, 1, Ex.I 0 0, Ex.I 0 0, Ex.I 0 0⟩ ∨ s = ⟨1, 2, Ex.I 0 1, Ex.I 0 0, Ex.I 0 1⟩ := by
      simpa [Tube.slices, slicesFrom] using hs
    rcases this with rfl | rfl <;> decide +kernel
  · intro s hs
    have : s = ⟨0, 2, Ex.I 0 1, Ex.I 0 0, Ex.I 0 1⟩ := by simpa [Tube.slices, slicesFrom] using hs
    subst this
    refine ⟨by decide +kernel, by decide +kernel, ?_⟩
    intro t h1 h2
    simp only [if_neg (ne_of_gt h1)]
    decide +kernel
  · intro h
    have := (h ⟨0, 1, Ex.I 0 0, Ex.I 0 0, Ex.I 0 0⟩ (by simp [Tube.slices, slicesFrom])).2.1
    revert this
    decide +kernel

/-- `x == y`: same time domain, same trajectories -/
theorem C10_equal {X Y : Tube K} (hX : X.WF) (hY : Y.WF) (h : X.eqT Y = true) :
    (∀ f, X.Encloses f ↔ Y.Encloses f) ∧ X = Y := by
  have hs : X.slices = Y.slices := by simpa [Tube.eqT] using h
  refine ⟨fun f => by unfold Tube.Encloses; rw [hs], ?_⟩
  have key : ∀ (a b a' b' : K) (g g' : Itv K) (cs cs' : List (Cell K)), Tiles a cs b → Tiles a' cs' b' → cs ≠ [] →
      slicesFrom g cs = slicesFrom g' cs' → a = a' ∧ b = b' ∧ g = g' ∧ cs = cs' := by
    intro a b a' b' g g' cs
    induction cs generalizing a a' g g' with
    | nil => intro cs' _ _ h; exact absurd rfl h
    | cons c cs ih =>
      intro cs' ht ht' _ he
      cases cs' with
      | nil => simp at he
      | cons c' cs' =>
        simp only [slicesFrom_cons, List.cons.injEq, Slice.mk.injEq] at he
        obtain ⟨rfl, h2, h3⟩ := ht
        obtain ⟨rfl, h2', h3'⟩ := ht'
        obtain ⟨⟨e1, e2, e3, e4, e5⟩, e6⟩ := he
        have ec : c = c' := by cases c; cases c'; simp_all
        subst ec
        cases cs with
        | nil =>
          have : cs' = [] := by
            cases cs' with
            | nil => rfl
            | cons => simp at e6
          subst this
          exact ⟨rfl, (show c.ub = b from h3).symm.trans h3', e4, rfl⟩
        | cons c2 cs2 =>
          obtain ⟨-, k2, -, k4⟩ := ih c.ub c.ub c.out c.out cs' h3 h3' (by simp) e6
          exact ⟨rfl, k2, e4, by rw [k4]⟩
  obtain ⟨k1, k2, k3, k4⟩ := key _ _ _ _ _ _ _ _ hX.tiles hY.tiles hX.ne hs
  cases X; cases Y; simp_all

/-- `x.is_empty()` is true exactly when no function lies in the tube -/
theorem C10_is_empty [DenselyOrdered K] [NoMinOrder K] [NoMaxOrder K] [Nonempty K] {X : Tube K} (hX : X.WF) :
    X.isEmpty = true ↔ ¬ ∃ f, X.Encloses f := by
  constructor
  · rintro h ⟨f, hf⟩
    unfold Tube.isEmpty at h
    rw [Bool.or_eq_true, List.any_eq_true] at h
    rcases h with h | ⟨s, hs, h⟩
    · rw [Itv.isEmpty_iff] at h
      cases hc : X.cells with
      | nil => exact hX.ne hc
      | cons c cs =>
        have := (hf ⟨c.lb, c.ub, c.cod, X.g0, c.out⟩ (by simp [Tube.slices, hc])).1
        rw [h] at this; exact this
    · have hb := hX.tiles.mem_bounds hs
      rw [Bool.or_eq_true] at h
      rcases h with h | h
      · rw [Itv.isEmpty_iff] at h
        obtain ⟨t, h1, h2⟩ := exists_between hb.2.1
        have := (hf s hs).2.2 t h1 h2
        rw [h] at this; exact this
      · rw [Itv.isEmpty_iff] at h
        have := (hf s hs).2.1
        rw [h] at this; exact this
  · intro h
    by_contra hne
    apply h
    unfold Tube.isEmpty at hne
    rw [Bool.or_eq_true, List.any_eq_true] at hne
    push Not at hne
    obtain ⟨h1, h2⟩ := hne
    have hsl : ∀ s ∈ X.slices, s.cod ≠ ⊥ ∧ s.outG ≠ ⊥ := by
      intro s hs
      have := h2 s hs
      rw [Ne, Bool.or_eq_true, Itv.isEmpty_iff, Itv.isEmpty_iff] at this
      push Not at this; exact this
    have hin : ∀ s ∈ X.slices, s.inG ≠ ⊥ := by
      have key : ∀ (cs : List (Cell K)) (g : Itv K), g ≠ ⊥ → (∀ s ∈ slicesFrom g cs, s.outG ≠ ⊥) →
          ∀ s ∈ slicesFrom g cs, s.inG ≠ ⊥ := by
        intro cs
        induction cs with
        | nil => intro g _ _ s hs; simp at hs
        | cons c cs ih =>
          intro g hg ho s hs
          rw [slicesFrom_cons, List.mem_cons] at hs
          rcases hs with rfl | hs
          · exact hg
          · exact ih c.out (ho ⟨c.lb, c.ub, c.cod, g, c.out⟩ (by simp)) (fun s hs => ho s (by simp [hs])) s hs
      refine key X.cells X.g0 ?_ (fun s hs => (hsl s hs).2)
      intro h0; exact h1 (Itv.isEmpty_iff.mpr h0)
    have hne' : ∀ t, ∃ x, x ∈ X.evalAt t := by
      intro t
      by_cases ht : X.t0 ≤ t ∧ t ≤ X.tf
      · obtain ⟨s, ss, e1, e2, e3, e4, -⟩ := seek_spec (g := X.g0) hX.tiles hX.ne ht.1 ht.2
        rw [X.evalAt_eq ht.1 ht.2 (by rw [Tube.slices, e1]; rfl), Slice.evalAt, if_pos ⟨e3, e4⟩]
        split_ifs
        · exact Itv.exists_mem (hin s e2)
        · exact Itv.exists_mem (hsl s e2).2
        · exact Itv.exists_mem (hsl s e2).1
      · refine ⟨Classical.arbitrary K, ?_⟩
        rw [Tube.evalAt, if_neg ht]; exact Itv.mem_all _
    choose f hf using hne'
    exact ⟨f, (encloses_iff_evalAt hX).mpr fun t _ _ => hf t⟩

end C10

/-- a refined tube: `is_subset` is accepted and its hypotheses are met -/
example : let X := (Ex.T.binOp (· ⊓ ·) U); X.isSubset U = true ∧ X.sameSlicing U = false ∧ X.isEmpty = false ∧
    (∀ s ∈ U.slices, ∃ s' ∈ X.slices, s'.ub = s.ub) := by decide +kernel

/-! ## C11 -/

section C11
variable {K : Type*} [LinearOrder K]

/-- `x.truncate_tdomain([a,b])`: the result is a well-formed tube on `[a,b]`, and every trajectory of `x` still is
in it at all instants strictly between `a` and `b`; it is also in the gates at `a` and at `b` if `x` had gates there.
Missing for the full property: truncation strictly inside a slice, for which the gate of the removed part is kept
(`C11_truncate_fails`). -/
theorem C11_truncate_partial {T : Tube K} (hT : T.WF) {a b : K} (hab : a < b) (ha : T.t0 ≤ a) (hb : b ≤ T.tf) :
    (T.truncate a b).WF ∧ (T.truncate a b).t0 = a ∧ (T.truncate a b).tf = b ∧
    (T.GatesInEnvelopes → (T.truncate a b).GatesInEnvelopes) ∧
    ∀ f, T.Encloses f → (∀ t, a < t → t < b → f t ∈ (T.truncate a b).evalAt t) ∧
      ((a = T.t0 ∨ ∃ s ∈ T.slices, s.ub = a) → (∃ s ∈ T.slices, s.ub = b) → (T.truncate a b).Encloses f) := by
  obtain ⟨h1, h2, h3⟩ := truncate_spec hT hab ha hb
  refine ⟨h1, rfl, rfl, h2, fun f hf => ⟨?_, ?_⟩⟩
  · intro t hat htb
    obtain ⟨s, hs, h4, h5⟩ := h1.tiles.exists_slice (g := (T.truncate a b).g0) hat.le htb
    have := h3 f hf s hs
    rcases eq_or_lt_of_le h4 with e | h4
    · rw [← e, (T.truncate a b).evalAt_lb h1 hs]
      exact this.1 (Or.inl (by rw [e]; exact ne_of_gt hat))
    · rw [(T.truncate a b).evalAt_interior h1 hs h4 h5]
      exact this.2.2 t h4 h5
  · intro hA hB s hs
    have := h3 f hf s hs
    have hA' : a = T.t0 ∨ a ∈ T.cells.map Cell.ub := by
      rcases hA with h | ⟨s, hs, e⟩
      · exact Or.inl h
      · right; rw [← slices_ub]; exact List.mem_map.mpr ⟨s, hs, e⟩
    have hB' : b ∈ T.cells.map Cell.ub := by
      obtain ⟨s, hs, e⟩ := hB
      rw [← slices_ub]; exact List.mem_map.mpr ⟨s, hs, e⟩
    exact ⟨this.1 (Or.inr hA'), this.2.1 (Or.inr hB'), this.2.2⟩

/-- Truncating strictly inside a slice keeps the gate of the removed part: with one slice on `[0,2]`, envelope
`[0,10]` and initial gate `[0,0]`, the identity is a trajectory of the tube but not of the tube truncated to `[1,2]`,
whose gate at time 1 is `[0,0]`. -/
theorem C11_truncate_fails : ∃ (T : Tube ℚ) (a b : ℚ) (f : ℚ → ℚ), T.WF ∧ T.GatesInEnvelopes ∧ T.t0 ≤ a ∧ a < b ∧
    b ≤ T.tf ∧ T.Encloses f ∧ ¬ (T.truncate a b).Encloses f := by
  refine ⟨⟨0, 2, Ex.I 0 0, [⟨0, 2, Ex.I 0 10, Ex.I 0 10⟩]⟩, 1, 2, fun t => t,
    ⟨by simp, by simp [Tiles]⟩, ?_, by simp, by norm_num, by simp, ?_, ?_⟩
  · intro s hs
    have : s = ⟨0, 2, Ex.I 0 10, Ex.I 0 0, Ex.I 0 10⟩ := by simpa [Tube.slices, slicesFrom] using hs
    subst this; decide +kernel
  · intro s hs
    have : s = ⟨0, 2, Ex.I 0 10, Ex.I 0 0, Ex.I 0 10⟩ := by simpa [Tube.slices, slicesFrom] using hs
    subst this
    refine ⟨by decide +kernel, by decide +kernel, ?_⟩
    intro t h1 h2
    simp only [Itv.mem_icc]; simp only at h1 h2; constructor <;> linarith
  · intro h
    have := (h ⟨1, 2, Ex.I 0 10, Ex.I 0 0, Ex.I 0 10⟩ (by decide +kernel)).1
    revert this
    decide +kernel

end C11

/-- `x.shift_tdomain(d)`: `f` is in `x` iff `u ↦ f(u-d)` is in the shifted tube; the time domain is shifted -/
theorem C11_shift {K : Type*} [Field K] [LinearOrder K] [IsStrictOrderedRing K] {T : Tube K} (hT : T.WF) (d : K)
    (f : K → K) : ((T.shift d).Encloses (fun u => f (u - d)) ↔ T.Encloses f) ∧ (T.shift d).WF ∧
      (T.shift d).t0 = T.t0 + d ∧ (T.shift d).tf = T.tf + d := by
  refine ⟨?_, shift_wf hT d, rfl, rfl⟩
  have hs := shift_slices T d
  constructor
  · intro h s hs'
    have := h { s with lb := s.lb + d, ub := s.ub + d } (by rw [hs]; exact List.mem_map_of_mem hs')
    obtain ⟨h1, h2, h3⟩ := this
    simp only [add_sub_cancel_right] at h1 h2
    refine ⟨h1, h2, ?_⟩
    intro t h4 h5
    have := h3 (t + d) (by simpa using h4) (by simpa using h5)
    simpa only [add_sub_cancel_right] using this
  · intro h s hs'
    rw [hs, List.mem_map] at hs'
    obtain ⟨s0, hs0, rfl⟩ := hs'
    obtain ⟨h1, h2, h3⟩ := h s0 hs0
    refine ⟨by simpa only [add_sub_cancel_right] using h1, by simpa only [add_sub_cancel_right] using h2, ?_⟩
    intro t h4 h5
    simp only at h4 h5
    exact h3 (t - d) (by linarith) (by linarith)

/-- truncation at existing gates, and in the middle of slices -/
example : Ex.T.truncate 1 4 = ⟨1, 4, Ex.I 1 2, [⟨1, 2, Ex.I 1 3, Ex.I 2 3⟩, ⟨2, 4, Ex.I 2 5, Ex.I 4 5⟩]⟩ ∧
    (∃ s ∈ Ex.T.slices, s.ub = 1) ∧ (∃ s ∈ Ex.T.slices, s.ub = 4) ∧
    Ex.T.truncate (1/2) 3 =
      ⟨1/2, 3, Ex.I 0 1, [⟨1/2, 1, Ex.I 0 2, Ex.I 1 2⟩, ⟨1, 2, Ex.I 1 3, Ex.I 2 3⟩, ⟨2, 3, Ex.I 2 5, Ex.I 4 5⟩]⟩ := by
  decide +kernel

/-! ## C12 -/

section C12
variable {K : Type*} [LinearOrder K]

/-- `x.remove_gate(t)`: exactly the gate at `t` disappears (one slice less), the time domain is unchanged and every
trajectory is kept -/
theorem C12_remove_gate {T T' : Tube K} (hT : T.WF) (hg : T.GatesInEnvelopes) {t : K}
    (h : T.removeGate t = some T') :
    T'.WF ∧ T'.GatesInEnvelopes ∧ T'.t0 = T.t0 ∧ T'.tf = T.tf ∧ T'.nbSlices + 1 = T.nbSlices ∧
      (∀ u, (∃ s ∈ T'.slices, s.ub = u) ↔ (∃ s ∈ T.slices, s.ub = u) ∧ u ≠ t) ∧
      ∀ f, T.Encloses f → T'.Encloses f := by
  unfold Tube.removeGate at h
  rw [Option.map_eq_some_iff] at h
  obtain ⟨r, hr, rfl⟩ := h
  obtain ⟨i1, i2, i3, i4, i5, i6⟩ := removeFrom_spec hr hT.tiles hg
  refine ⟨⟨i1.ne_nil hT.lt, i1⟩, i4, rfl, rfl, i2, ?_, fun f hf => (i6 f hf).1⟩
  intro u
  have := i5 u
  rw [← slices_ub T] at this
  have e : ∀ (X : Tube K), (∃ s ∈ X.slices, s.ub = u) ↔ u ∈ X.slices.map Slice.ub := by
    intro X; rw [List.mem_map]
  rw [e, e, slices_ub]; exact this

/-- the inner gates can be removed -/
theorem C12_remove_gate_defined {T : Tube K} (hT : T.WF) {t : K} (h1 : t ≠ T.tf) (h2 : ∃ s ∈ T.slices, s.ub = t) :
    (T.removeGate t).isSome := by
  unfold Tube.removeGate
  rw [Option.isSome_map]
  apply removeFrom_isSome hT.tiles h1
  rw [← slices_ub]
  obtain ⟨s, hs, e⟩ := h2
  exact List.mem_map.mpr ⟨s, hs, e⟩

/-- `x.merge_similar_slices(d)`, for any distance and threshold: no new gate, the time domain is unchanged and every
trajectory is kept -/
theorem C12_merge_similar {T : Tube K} (hT : T.WF) (hg : T.GatesInEnvelopes) (near : Itv K → Itv K → Bool) :
    (T.mergeSimilar near).WF ∧ (T.mergeSimilar near).GatesInEnvelopes ∧ (T.mergeSimilar near).t0 = T.t0 ∧
      (T.mergeSimilar near).tf = T.tf ∧ (T.mergeSimilar near).nbSlices ≤ T.nbSlices ∧
      (∀ s' ∈ (T.mergeSimilar near).slices, ∃ s ∈ T.slices, s.ub = s'.ub) ∧
      ∀ f, T.Encloses f → (T.mergeSimilar near).Encloses f := by
  have h1 := hT.ne
  have h2 := hT.tiles
  have h3 : AllSl GC T.g0 T.cells := hg
  unfold Tube.mergeSimilar
  cases hc : T.cells with
  | nil => exact absurd hc h1
  | cons c cs =>
    rw [hc] at h2 h3
    obtain ⟨i1, i2, i3, i4, i5, i7, i6⟩ := mergeLoop_spec (near := near) h2 h3
    refine ⟨⟨i2, i1⟩, i5, rfl, rfl, ?_, ?_, fun f hf => (i6 f ?_).1⟩
    · rw [Tube.nbSlices, Tube.nbSlices, hc]; exact i3
    · intro s' hs'
      have : s'.ub ∈ T.cells.map Cell.ub := by
        rw [hc]
        apply i7
        have := List.mem_map_of_mem (f := Slice.ub) hs'
        rw [slices_ub] at this; exact this
      rw [← slices_ub, List.mem_map] at this
      exact this
    · have : AllSl (fun s => s.Encloses f) T.g0 T.cells := hf
      rw [hc] at this; exact this

end C12

example : Ex.T.removeGate 1 =
    some ⟨0, 4, Ex.I 0 1, [⟨0, 2, Ex.I 0 3, Ex.I 2 3⟩, ⟨2, 4, Ex.I 2 5, Ex.I 4 5⟩]⟩ ∧
    (Ex.T.mergeSimilar fun X Y => decide (X ≤ Ex.I 0 3 ∧ Y ≤ Ex.I 0 3)).nbSlices = 2 := by decide +kernel

end Codac.Props
