import Mathlib.Data.List.TakeWhile
import Verif.Tube.MiscProofs
import Verif.Tube.Examples
import Verif.Tube.EvalMono
import Verif.Ctc.Eval
import Verif.Props.TubeAccess
import Verif.Props.TubeOps
import Verif.Props.Deriv

/-!
# Tubes built from lists, bisection, hull, overlaps, primitive, bounds, diameters: properties C77 to C84
-/

set_option linter.unusedSectionVars false

namespace Codac.Props
open Codac

section C77
variable {K : Type*} [LinearOrder K]

/-- **C77**: `Tube(v_tdomains, v_codomains)` with contiguous domains. The slices of the tube have these domains; its time domain is their union; its
gates are in the envelopes around them; its trajectories are exactly those which stay in the `i`-th codomain over the whole `i`-th domain. -/
theorem C77_from_lists {l : List ((K × K) × Itv K)} {a b : K} (hl : l ≠ []) (hc : Contiguous a l b) :
    ∃ T, Tube.ofList l = some T ∧ T.WF ∧ T.t0 = a ∧ T.tf = b ∧ T.GatesInEnvelopes ∧
      T.slices.map (fun s => (s.lb, s.ub)) = l.map Prod.fst ∧
      ∀ f : K → K, T.Encloses f ↔ ∀ d ∈ l, ∀ t, d.1.1 ≤ t → t ≤ d.1.2 → f t ∈ d.2 := by
  obtain ⟨d, d', h1, h2, h3, h4⟩ := contiguous_last hl hc
  subst h2; subst h4
  obtain ⟨i1, i2, i3, -, i5, i6⟩ := listCells_spec l d.1.1 ⊤ hl hc
  refine ⟨⟨d.1.1, d'.1.2, (listCells d'.1.2 ⊤ l).1, (listCells d'.1.2 ⊤ l).2⟩, by simp only [Tube.ofList, h1, h3], ⟨i2, i1⟩, rfl, rfl, i5, i3, fun f => ?_⟩
  exact (i6 f).trans ⟨fun h => h.2, fun h => ⟨Itv.mem_top _, h⟩⟩

/-- two contiguous domains: the gate in between is the intersection of the codomains -/
example : Tube.ofList [(((0 : ℚ), (1 : ℚ)), Itv.icc 0 2), ((1, 3), Itv.icc 1 5)] =
    some ⟨0, 3, Itv.icc 0 2, [⟨0, 1, Itv.icc 0 2, Itv.icc 1 2⟩, ⟨1, 3, Itv.icc 1 5, Itv.icc 1 5⟩]⟩ ∧
    Contiguous (0 : ℚ) [((0, 1), Itv.icc 0 2), ((1, 3), Itv.icc 1 5)] 3 := by
  refine ⟨by decide +kernel, rfl, by norm_num, rfl, by norm_num, rfl⟩

/-- **C78**: `bisect(t)` splits the trajectories according to their values at `t`. When the bisection of an interval gives two intervals of union
`[x](t)`, every trajectory of the tube is in one of the two tubes, every trajectory of one of them is in the tube, and the first (second) tube
has the trajectories with a value in the first (second) part at `t`. -/
theorem C78_bisect {bis : Itv K → Option (Itv K × Itv K)} {T : Tube K} (h : T.WF) (hg : T.GatesInEnvelopes) {t : K} (h1 : T.t0 ≤ t) (h2 : t ≤ T.tf)
    {P Q : Itv K} (hb : bis (T.evalAt t) = some (P, Q)) (hle : P ≤ T.evalAt t ∧ Q ≤ T.evalAt t) (hcov : ∀ y ∈ T.evalAt t, y ∈ P ∨ y ∈ Q) :
    ∃ X Y, T.bisect bis t = some (X, Y) ∧ X.WF ∧ Y.WF ∧ (∀ f : K → K, T.Encloses f ↔ X.Encloses f ∨ Y.Encloses f) ∧
      (∀ f : K → K, X.Encloses f ↔ T.Encloses f ∧ f t ∈ P) ∧ ∀ f : K → K, Y.Encloses f ↔ T.Encloses f ∧ f t ∈ Q := by
  have e1 := fun f => C04_set_instant_inter h hg h1 h2 P hle.1 f
  have e2 := fun f => C04_set_instant_inter h hg h1 h2 Q hle.2 f
  refine ⟨T.setAt P t, T.setAt Q t, by unfold Tube.bisect; rw [hb]; rfl, sampleGate_wf h h1 h2 P, sampleGate_wf h h1 h2 Q, fun f => ?_, e1, e2⟩
  rw [e1, e2]
  constructor
  · intro hf
    have hm : f t ∈ T.evalAt t := evalAt_mem h hf t
    rcases hcov _ hm with hp | hq
    · exact .inl ⟨hf, hp⟩
    · exact .inr ⟨hf, hq⟩
  · rintro (hf | hf) <;> exact hf.1

/-- bisection in the middle of a slice -/
example : Tube.bisect (fun X => if X = Itv.icc 0 2 then some (Itv.icc 0 1, Itv.icc 1 2) else none)
    (⟨0, 2, Itv.icc 0 2, [⟨0, 2, Itv.icc 0 2, Itv.icc 0 2⟩]⟩ : Tube ℚ) 1 =
    some (⟨0, 2, Itv.icc 0 2, [⟨0, 1, Itv.icc 0 2, Itv.icc 0 1⟩, ⟨1, 2, Itv.icc 0 2, Itv.icc 0 2⟩]⟩,
      ⟨0, 2, Itv.icc 0 2, [⟨0, 1, Itv.icc 0 2, Itv.icc 1 2⟩, ⟨1, 2, Itv.icc 0 2, Itv.icc 0 2⟩]⟩) := by decide +kernel

/-- **C79**: the hull of a list of tubes with the same time domain contains every trajectory of every tube of the list; it has the slicing of the
first tube. -/
theorem C79_hull {l : List (Tube K)} {a b : K} (hwf : ∀ X ∈ l, X.WF) (hg : ∀ X ∈ l, X.GatesInEnvelopes) (hd : ∀ X ∈ l, X.t0 = a ∧ X.tf = b)
    {T : Tube K} (hT : l.head? = some T) : ∃ H, hullTubes l = some H ∧ H.WF ∧ H.t0 = a ∧ H.tf = b ∧
      H.slices.map (fun s => (s.lb, s.ub)) = T.slices.map (fun s => (s.lb, s.ub)) ∧
      ∀ X ∈ l, ∀ f : K → K, X.Encloses f → H.Encloses f := by
  cases l with
  | nil => cases hT
  | cons T' l =>
    simp only [List.head?_cons, Option.some.injEq] at hT
    subst hT
    refine ⟨_, rfl, ?_⟩
    have key : ∀ (l : List (Tube K)) (H : Tube K), H.WF → H.t0 = a → H.tf = b →
        (∀ X ∈ l, X.WF) → (∀ X ∈ l, X.GatesInEnvelopes) → (∀ X ∈ l, X.t0 = a ∧ X.tf = b) →
        (l.foldl (fun H X => H.opAssign (· ⊔ ·) X) H).WF ∧ (l.foldl (fun H X => H.opAssign (· ⊔ ·) X) H).t0 = a ∧
        (l.foldl (fun H X => H.opAssign (· ⊔ ·) X) H).tf = b ∧
        (l.foldl (fun H X => H.opAssign (· ⊔ ·) X) H).cells.map (fun c => (c.lb, c.ub)) = H.cells.map (fun c => (c.lb, c.ub)) ∧
        ∀ f : K → K, (H.Encloses f ∨ ∃ X ∈ l, X.Encloses f) → (l.foldl (fun H X => H.opAssign (· ⊔ ·) X) H).Encloses f := by
      intro l
      induction l with
      | nil => intro H h1 h2 h3 _ _ _; exact ⟨h1, h2, h3, rfl, fun f hf => by simpa using hf⟩
      | cons X l ih =>
        intro H h1 h2 h3 h4 h5 h6
        have hd : (H.opAssign (· ⊔ ·) X).t0 = H.t0 ∧ (H.opAssign (· ⊔ ·) X).tf = H.tf := by
          unfold Tube.opAssign; split_ifs <;> exact ⟨rfl, rfl⟩
        obtain ⟨i1, i2, i3, i4, i5⟩ := ih (H.opAssign (· ⊔ ·) X) (opAssign_wf h1) (hd.1.trans h2) (hd.2.trans h3)
          (fun Y hY => h4 Y (by simp [hY])) (fun Y hY => h5 Y (by simp [hY])) fun Y hY => h6 Y (by simp [hY])
        refine ⟨i1, i2, i3, by rw [List.foldl_cons, i4, opAssign_bounds], fun f hf => ?_⟩
        rw [List.foldl_cons]
        apply i5
        have hX := h6 X (by simp)
        have hu := fun h => C08_union_assign (f := f) h1 (h4 X (by simp)) (h5 X (by simp)) (h2.trans hX.1.symm) (h3.trans hX.2.symm) h
        rcases hf with hf | ⟨Y, hY, hf⟩
        · exact .inl (hu (.inl hf))
        · rcases List.mem_cons.mp hY with rfl | hY
          · exact .inl (hu (.inr hf))
          · exact .inr ⟨Y, hY, hf⟩
    obtain ⟨k1, k2, k3, k4, k5⟩ := key l T' (hwf _ (by simp)) (hd _ (by simp)).1 (hd _ (by simp)).2 (fun X hX => hwf X (by simp [hX]))
      (fun X hX => hg X (by simp [hX])) fun X hX => hd X (by simp [hX])
    refine ⟨k1, k2, k3, by rw [Tube.slices_bounds, Tube.slices_bounds, k4], fun X hX f hf => k5 f ?_⟩
    rcases List.mem_cons.mp hX with rfl | hX
    · exact .inl hf
    · exact .inr ⟨X, hX, hf⟩

/-- the hull of three tubes, of different slicings -/
example : hullTubes [(⟨0, 2, Itv.icc 0 1, [⟨0, 2, Itv.icc 0 1, Itv.icc 0 1⟩]⟩ : Tube ℚ),
    ⟨0, 2, Itv.icc 2 2, [⟨0, 1, Itv.icc 2 2, Itv.icc 2 2⟩, ⟨1, 2, Itv.icc 2 3, Itv.icc 3 3⟩]⟩, ⟨0, 2, Itv.icc (-1) 1, [⟨0, 2, Itv.icc (-1) 1, Itv.icc 0 0⟩]⟩] =
    some ⟨0, 2, Itv.icc (-1) 2, [⟨0, 2, Itv.icc (-1) 3, Itv.icc 0 3⟩]⟩ := by decide +kernel

end C77

section field
variable {K : Type*} [Field K] [LinearOrder K] [IsStrictOrderedRing K]

theorem overlap_sum {cs : List (Cell K)} {a b : K} (ht : Tiles a cs b) (g : Itv K) (acc : K) :
    (slicesFrom g cs).foldl (fun acc s => if s.cod.isEmpty then acc else acc + (s.ub - s.lb)) acc ≤ acc + (b - a) ∧
      ((slicesFrom g cs).foldl (fun acc s => if s.cod.isEmpty then acc else acc + (s.ub - s.lb)) acc = acc + (b - a) ↔
        ∀ s ∈ slicesFrom g cs, s.cod.isEmpty = false) := by
  induction cs generalizing a g acc with
  | nil =>
    have : a = b := ht
    subst this
    simp
  | cons c cs ih =>
    obtain ⟨h1, h2, h3⟩ := ht
    subst h1
    rw [slicesFrom_cons, List.foldl_cons]
    simp only [List.forall_mem_cons]
    cases he : c.cod.isEmpty with
    | true =>
      simp only [if_true]
      obtain ⟨i1, i2⟩ := ih h3 c.out acc
      have hlt : acc + (b - c.ub) < acc + (b - c.lb) := by linarith
      refine ⟨le_trans i1 hlt.le, ?_⟩
      simp only [Bool.true_eq_false, false_and, iff_false]
      exact (lt_of_le_of_lt i1 hlt).ne
    | false =>
      simp only [Bool.false_eq_true, if_false, true_and]
      obtain ⟨i1, i2⟩ := ih h3 c.out (acc + (c.ub - c.lb))
      have e : acc + (c.ub - c.lb) + (b - c.ub) = acc + (b - c.lb) := by ring
      rw [e] at i1 i2
      exact ⟨i1, i2⟩

/-- **C80**: two tubes which share a trajectory overlap, whatever the ratio up to 1: `overlaps` never answers `false` wrongly. -/
theorem C80_overlaps {X Y : Tube K} (hX : X.WF) (hY : Y.WF) (h0 : X.t0 = Y.t0) (h1 : X.tf = Y.tf) {f : K → K} (hf : X.Encloses f) (hg : Y.Encloses f)
    {ratio : K} (hr : ratio ≤ 1) : X.overlaps Y ratio = true := by
  obtain ⟨-, hw, e0, e1⟩ := C09_binary (φ := (· ⊓ ·)) (R := fun x y z => z = x ∧ z = y)
    (by rintro _ _ _ _ _ h h' ⟨rfl, rfl⟩; exact Itv.mem_inf.mpr ⟨h, h'⟩) hX hY h0 h1 hf hg (k := f) (fun _ _ _ => ⟨rfl, rfl⟩)
  have he := (C08_inter_exact hX hY h0 h1 f).mpr ⟨hf, hg⟩
  have hs := (overlap_sum hw.tiles (X.binOp (· ⊓ ·) Y).g0 0).2.mpr (fun s hs => by
    have hb := hw.tiles.mem_bounds hs
    obtain ⟨t, t1, t2⟩ := exists_between hb.2.1
    exact Itv.isEmpty_false_iff.mpr (Itv.ne_bot_of_mem ((he s hs).2.2 t t1 t2)))
  unfold Tube.overlaps
  rw [decide_eq_true_eq]
  have : (X.binOp (· ⊓ ·) Y).slices = slicesFrom (X.binOp (· ⊓ ·) Y).g0 (X.binOp (· ⊓ ·) Y).cells := rfl
  rw [this, hs, e0, e1, zero_add, div_self (sub_pos.mpr hX.lt).ne']
  exact hr

/-- **C80**: with the default ratio 1, `overlaps` answers `true` only when all the envelopes of the intersection of the two tubes are non-empty. -/
theorem C80_overlaps_all {X Y : Tube K} (hX : X.WF) (hY : Y.WF) (h0 : X.t0 = Y.t0) (h1 : X.tf = Y.tf) :
    X.overlaps Y 1 = true ↔ ∀ s ∈ (X.binOp (· ⊓ ·) Y).slices, ∃ y, y ∈ s.cod := by
  obtain ⟨Z, Y1, Y2, e, z1, z2, z3, -⟩ := binOp_eq (φ := (· ⊓ ·)) hX hY h0 h1
  have hw : (X.binOp (· ⊓ ·) Y).WF := by rw [e]; exact zipT_wf z1
  have e0 : (X.binOp (· ⊓ ·) Y).t0 = X.t0 := by rw [e]; exact z2
  have e1 : (X.binOp (· ⊓ ·) Y).tf = X.tf := by rw [e]; exact z3
  obtain ⟨k1, k2⟩ := overlap_sum hw.tiles (X.binOp (· ⊓ ·) Y).g0 0
  have hpos := sub_pos.mpr hX.lt
  unfold Tube.overlaps
  rw [decide_eq_true_eq, one_le_div hpos]
  rw [e0, e1, zero_add] at k1 k2
  show X.tf - X.t0 ≤ List.foldl _ 0 (slicesFrom (X.binOp (· ⊓ ·) Y).g0 (X.binOp (· ⊓ ·) Y).cells) ↔ _
  rw [show (X.binOp (· ⊓ ·) Y).slices = slicesFrom (X.binOp (· ⊓ ·) Y).g0 (X.binOp (· ⊓ ·) Y).cells from rfl]
  constructor
  · intro h s hs
    have := k2.mp (le_antisymm k1 h) s hs
    exact Itv.exists_mem (Itv.isEmpty_false_iff.mp this)
  · intro h
    refine (k2.mpr fun s hs => ?_).ge
    obtain ⟨y, hy⟩ := h s hs
    exact Itv.isEmpty_false_iff.mpr (Itv.ne_bot_of_mem hy)

/-- half of the time domain is shared -/
example : Tube.overlaps (⟨0, 2, Itv.icc 0 1, [⟨0, 2, Itv.icc 0 1, Itv.icc 0 1⟩]⟩ : Tube ℚ)
    ⟨0, 2, Itv.icc 2 2, [⟨0, 1, Itv.icc 2 2, ⊥⟩, ⟨1, 2, Itv.icc 0 3, Itv.icc 3 3⟩]⟩ (1 / 2) = true ∧
    Tube.overlaps (⟨0, 2, Itv.icc 0 1, [⟨0, 2, Itv.icc 0 1, Itv.icc 0 1⟩]⟩ : Tube ℚ)
    ⟨0, 2, Itv.icc 2 2, [⟨0, 1, Itv.icc 2 2, ⊥⟩, ⟨1, 2, Itv.icc 0 3, Itv.icc 3 3⟩]⟩ 1 = false := by decide +kernel

/-! ### C81: primitive -/

/-- **C81** (part): `primitive(c)` has the slicing of the tube and contains every function `F` with `F(t0)` in `c` and whose slopes are in the
tube, as long as it stays between `-B` and `B` (`BOUNDED_INFINITY`). The full property has no bound on `F`. -/
theorem C81_primitive_partial {A : IArith K} {B : K} {T : Tube K} (h : T.WF) {c : Itv K} {F : K → K} (hs : T.SlopeIn F) (hc : F T.t0 ∈ c)
    (hB : ∀ t, T.t0 ≤ t → t ≤ T.tf → -B ≤ F t ∧ F t ≤ B) :
    ∃ P, T.primitive A B c = some P ∧ P.WF ∧ P.GatesInEnvelopes ∧ P.Encloses F := by
  have e := set_eq h.ne (⊤ : Itv K)
  have hw : (T.set ⊤).WF := by
    rw [e]
    refine ⟨?_, (tiles_of_bounds (constCells_bounds _ _)).mpr h.tiles⟩
    intro hcon
    exact h.ne (by simpa [constCells] using hcon)
  have hsl : ∀ s ∈ (T.set ⊤).slices, s.cod = ⊤ ∧ s.inG = ⊤ ∧ s.outG = ⊤ := by
    have key : ∀ (cs : List (Cell K)), ∀ s ∈ slicesFrom (⊤ : Itv K) (constCells ⊤ cs), s.cod = ⊤ ∧ s.inG = ⊤ ∧ s.outG = ⊤ := by
      intro cs
      induction cs with
      | nil => simp [constCells]
      | cons c cs ih =>
        intro s hs
        rw [show constCells (⊤ : Itv K) (c :: cs) = ⟨c.lb, c.ub, ⊤, ⊤⟩ :: constCells ⊤ cs from rfl, slicesFrom_cons] at hs
        rcases List.mem_cons.mp hs with rfl | hs
        · exact ⟨rfl, rfl, rfl⟩
        · exact ih s hs
    rw [e]; exact key T.cells
  have d0 : (T.set ⊤).t0 = T.t0 := by rw [e]
  have df : (T.set ⊤).tf = T.tf := by rw [e]
  have hg : (T.set ⊤).GatesInEnvelopes := fun s hs => by
    obtain ⟨a1, a2, a3⟩ := hsl s hs
    rw [a1]; exact ⟨le_top, le_top⟩
  have hE : (T.set ⊤).Encloses F := fun s hs => by
    obtain ⟨a1, a2, a3⟩ := hsl s hs
    unfold Slice.Encloses
    rw [a1, a2, a3]
    exact ⟨Itv.mem_top _, Itv.mem_top _, fun _ _ _ => Itv.mem_top _⟩
  have ht1 : (T.set ⊤).t0 ≤ T.t0 := d0.le
  have ht2 : T.t0 ≤ (T.set ⊤).tf := df ▸ h.lt.le
  have x1 : ((T.set ⊤).setAt c T.t0).Encloses F := (C04_set_instant hw ht1 ht2 c F).mpr ⟨hc, fun s hs => by
    have := hE s hs
    obtain ⟨a1, a2, a3⟩ := hsl s hs
    refine ⟨fun _ => this.1, fun _ => this.2.1, this.2.2, fun _ _ => by rw [a1]; exact Itv.mem_top _⟩⟩
  have x2 : ((T.set ⊤).setAt c T.t0).WF := sampleGate_wf hw ht1 ht2 c
  have x3 : ((T.set ⊤).setAt c T.t0).GatesInEnvelopes := sampleGate_gc hg _ c
  have hd := sampleGate_dom (T.set ⊤) T.t0 c
  have hsame : ((T.set ⊤).setAt c T.t0).sameSlicing T = true := by
    unfold Tube.sameSlicing
    rw [decide_eq_true_eq, Tube.slices_bounds, Tube.slices_bounds]
    unfold Tube.setAt
    rw [sampleGate_bounds]
    show (sampleCells T.t0 (T.set ⊤).cells).map _ = _
    rw [sampleCells_eq_self hw.tiles (.inl d0.symm), e]
    exact constCells_bounds _ _
  obtain ⟨P, hP⟩ : ∃ P, T.primitive A B c = some P := by
    unfold Tube.primitive derivTube
    rw [if_pos ⟨hd.1.trans d0, hd.2.trans df, hsame⟩]
    exact ⟨_, rfl⟩
  refine ⟨P, hP, C18_deriv_sound_partial x2 x3 hP x1 hs ?_⟩
  intro t t1 t2
  exact hB t (by rw [← d0, ← hd.1]; exact t1) (by rw [← df, ← hd.2]; exact t2)

/-- the primitive of a tube of two slices -/
example : Tube.primitive (IArith.exact ℚ) 1000 (⟨0, 2, Itv.icc 1 2, [⟨0, 1, Itv.icc 1 2, Itv.icc 1 1⟩, ⟨1, 2, Itv.icc (-1) 1, Itv.icc 0 0⟩]⟩ : Tube ℚ) (Itv.icc 3 4) =
    some ⟨0, 2, Itv.icc 3 4, [⟨0, 1, Itv.icc 3 6, Itv.icc 4 6⟩, ⟨1, 2, Itv.icc 3 7, Itv.icc 3 7⟩]⟩ := by decide +kernel

/-- **C81** without the bound does not hold: with the value of `BOUNDED_INFINITY` (the largest `float`), the primitive of the null tube with the initial
value `2^128` is empty, although the constant `2^128` is a primitive -/
theorem C81_bound_fails :
    ∃ P : Tube ℚ, Tube.primitive (IArith.exact ℚ) ((2 ^ 24 - 1) * 2 ^ 104) (⟨0, 1, Itv.icc 0 0, [⟨0, 1, Itv.icc 0 0, Itv.icc 0 0⟩]⟩ : Tube ℚ) (Itv.icc (2 ^ 128) (2 ^ 128)) =
      some P ∧ (⟨0, 1, Itv.icc 0 0, [⟨0, 1, Itv.icc 0 0, Itv.icc 0 0⟩]⟩ : Tube ℚ).SlopeIn (fun _ => 2 ^ 128) ∧ ¬ P.Encloses (fun _ => 2 ^ 128) := by
  refine ⟨⟨0, 1, ⊥, [⟨0, 1, ⊥, ⊥⟩]⟩, by decide +kernel, ?_, ?_⟩
  · intro s hs t t' h1 h2 h3
    simp [Tube.slices, slicesFrom] at hs
    subst hs
    norm_num [Itv.mem_icc]
    exact ⟨0, by simp, .inl rfl⟩
  · intro h
    exact (h ⟨0, 1, ⊥, ⊥, ⊥⟩ (by simp [Tube.slices, slicesFrom])).1

end field

/-- **C81** (part) over the reals: every primitive of a signal of the tube, with an initial value in `c`, is in `primitive(c)`, under the same bound. -/
theorem C81_primitive_real_partial {A : IArith ℝ} {B : ℝ} {T : Tube ℝ} (h : T.WF) {c : Itv ℝ} {f F : ℝ → ℝ} (hf : T.Encloses f)
    (hcont : ContinuousOn F (Set.Icc T.t0 T.tf)) (hd : ∀ s ∈ T.slices, ∀ t, s.lb < t → t < s.ub → HasDerivAt F (f t) t) (hc : F T.t0 ∈ c)
    (hB : ∀ t, T.t0 ≤ t → t ≤ T.tf → -B ≤ F t ∧ F t ≤ B) :
    ∃ P, T.primitive A B c = some P ∧ P.WF ∧ P.GatesInEnvelopes ∧ P.Encloses F :=
  C81_primitive_partial h (C13_primitive_slope h hf hcont hd) hc hB

/-! ### C82: the trajectories `lb()` and `ub()` -/

section field
variable {K : Type*} [Field K] [LinearOrder K] [IsStrictOrderedRing K]

theorem boundTraj_encloses {β : Itv K → Option K} (hβ : ∀ X v, β X = some v → v ∈ X) {x : Traj K} (hx : TrajOk x) {f : K → K} :
    ∀ (cs : List (Cell K)) (vs : List K) (a b v0 : K) (g : Itv K) (l0 : List (K × K)), Tiles a cs b →
      x.pts = l0 ++ (a, v0) :: (cs.map Cell.ub).zip vs → List.Forall₂ (fun c v => β c.out = some v) cs vs → β g = some v0 →
      (∀ t, a ≤ t → t ≤ b → x.evalAt t = some (f t)) → (∀ s ∈ slicesFrom g cs, s.inG ≤ s.cod ∧ s.outG ≤ s.cod) →
      ∀ s ∈ slicesFrom g cs, s.Encloses f := by
  intro cs
  induction cs with
  | nil => intro vs a b v0 g l0 _ _ _ _ _ _; simp
  | cons c cs ih =>
    intro vs a b v0 g l0 ht hp hv h0 hf hg
    obtain ⟨h1, h2, h3⟩ := ht
    subst h1
    cases hv with
    | @cons _ v1 _ vs hv1 hvs =>
      rw [List.map_cons, List.zip_cons_cons] at hp
      have hub : c.ub ≤ b := h3.le
      have e0 : f c.lb = v0 := by
        have : x.evalAt c.lb = some v0 := (evalAt_iff hx).mpr (.inl (by rw [hp]; simp))
        rw [hf c.lb le_rfl (le_trans h2.le hub), Option.some.injEq] at this
        exact this
      have e1 : f c.ub = v1 := by
        have : x.evalAt c.ub = some v1 := (evalAt_iff hx).mpr (.inl (by rw [hp]; simp))
        rw [hf c.ub h2.le hub, Option.some.injEq] at this
        exact this
      rw [slicesFrom_cons] at hg ⊢
      rw [List.forall_mem_cons] at hg ⊢
      constructor
      · refine ⟨by rw [e0]; exact hβ _ _ h0, by rw [e1]; exact hβ _ _ hv1, fun t t1 t2 => ?_⟩
        have hm0 : v0 ∈ c.cod := Itv.mem_of_le hg.1.1 (hβ _ _ h0)
        have hm1 : v1 ∈ c.cod := Itv.mem_of_le hg.1.2 (hβ _ _ hv1)
        have hl : (lin (c.lb, v0) (c.ub, v1) t - v0) * (c.ub - c.lb) = (t - c.lb) * (v1 - v0) := (lin_spec (p := (c.lb, v0)) (q := (c.ub, v1)) h2).mp rfl
        have : x.evalAt t = some (lin (c.lb, v0) (c.ub, v1) t) :=
          (evalAt_iff hx).mpr (.inr ⟨l0, (c.lb, v0), (c.ub, v1), _, hp, t1, t2, hl⟩)
        rw [hf t t1.le (le_trans t2.le hub), Option.some.injEq] at this
        rw [this]
        exact interp_mem h2 t1.le t2.le hm0 hm1 hl
      · exact ih vs c.ub b v1 c.out (l0 ++ [(c.lb, v0)]) h3 (by rw [hp]; simp) hvs hv1
          (fun t t1 t2 => hf t (le_trans h2.le t1) t2) hg.2

theorem boundTraj_spec {β : Itv K → Option K} {T : Tube K} (h : T.WF) {x : Traj K} (hx : T.boundTraj β = some x) :
    TrajOk x ∧ x.dom = Itv.icc T.t0 T.tf ∧ ∃ v0 vs, β T.g0 = some v0 ∧ x.pts = (T.t0, v0) :: (T.cells.map Cell.ub).zip vs ∧
      List.Forall₂ (fun c v => β c.out = some v) T.cells vs := by
  obtain ⟨t0, tf, g0, cells⟩ := T
  have hne : cells ≠ [] := h.ne
  have ht : Tiles t0 cells tf := h.tiles
  cases cells with
  | nil => exact absurd rfl hne
  | cons c cs =>
    have hc : c.lb = t0 := ht.1
    unfold Tube.boundTraj at hx
    simp only [Tube.slices, slicesFrom_cons, Option.bind_eq_some_iff] at hx
    obtain ⟨v0, hv0, hx⟩ := hx
    rw [← slicesFrom_cons] at hx
    obtain ⟨i1, -, vs, i3, i4⟩ := boundLoop_spec (c :: cs) t0 tf g0 _ x ht (trajOk_empty.set v0 c.lb) (by
      rw [set_pts]; simp [Traj.empty, setPt, hc]) hx
    have hp : x.pts = (t0, v0) :: ((c :: cs).map Cell.ub).zip vs := by
      rw [i3, set_pts, hc]; rfl
    refine ⟨i1, i1.dom.unique (isHull_keys ht.le ⟨_, by rw [hp]; exact List.mem_cons_self, rfl⟩ ?_ ?_), v0, vs, hv0, hp, i4⟩
    · rw [hp]
      have key : ∀ (cs : List (Cell K)) (vs : List K) (a : K), cs ≠ [] → Tiles a cs tf → List.Forall₂ (fun c v => β c.out = some v) cs vs →
          ∃ p ∈ (cs.map Cell.ub).zip vs, p.1 = tf := by
        intro cs
        induction cs with
        | nil => intro _ _ h; exact absurd rfl h
        | cons c cs ih =>
          intro vs a _ ht hv
          cases hv with
          | @cons _ v _ vs hv hvs =>
            cases cs with
            | nil => exact ⟨(c.ub, v), by simp, ht.2.2⟩
            | cons d cs =>
              obtain ⟨p, hp, e⟩ := ih vs _ (by simp) ht.2.2 hvs
              exact ⟨p, by rw [List.map_cons, List.zip_cons_cons]; exact List.mem_cons_of_mem _ hp, e⟩
      obtain ⟨p, hp, e⟩ := key (c :: cs) vs t0 hne ht i4
      exact ⟨p, List.mem_cons_of_mem _ hp, e⟩
    · intro p hp'
      rw [hp] at hp'
      rcases List.mem_cons.mp hp' with rfl | hp'
      · exact ⟨le_rfl, ht.le⟩
      · have h1 := (List.of_mem_zip hp').1
        rw [List.mem_map] at h1
        obtain ⟨d, hd, e⟩ := h1
        have : ∃ s ∈ slicesFrom g0 (c :: cs), s.ub = d.ub := by
          have hb := slicesFrom_bounds g0 (c :: cs)
          have : (d.lb, d.ub) ∈ (slicesFrom g0 (c :: cs)).map fun s => (s.lb, s.ub) := by rw [hb]; exact List.mem_map.mpr ⟨d, hd, rfl⟩
          obtain ⟨s, hs, e⟩ := List.mem_map.mp this
          exact ⟨s, hs, (Prod.mk.inj e).2⟩
        obtain ⟨s, hs, e'⟩ := this
        have hb := ht.mem_bounds hs
        rw [← e, ← e']
        exact ⟨le_trans hb.1 hb.2.1.le, hb.2.2⟩

theorem boundTraj_gates {β : Itv K → Option K} {x : Traj K} (hx : TrajOk x) : ∀ (cs : List (Cell K)) (vs : List K) (a b v0 : K) (g : Itv K) (l0 : List (K × K)),
    Tiles a cs b → x.pts = l0 ++ (a, v0) :: (cs.map Cell.ub).zip vs → List.Forall₂ (fun c v => β c.out = some v) cs vs → β g = some v0 →
      ∀ s ∈ slicesFrom g cs, x.evalAt s.lb = β s.inG ∧ x.evalAt s.ub = β s.outG := by
  intro cs
  induction cs with
  | nil => intro vs a b v0 g l0 _ _ _ _; simp
  | cons c cs ih =>
    intro vs a b v0 g l0 ht hp hv h0
    obtain ⟨h1, h2, h3⟩ := ht
    subst h1
    cases hv with
    | @cons _ v1 _ vs hv1 hvs =>
      rw [List.map_cons, List.zip_cons_cons] at hp
      rw [slicesFrom_cons, List.forall_mem_cons]
      refine ⟨⟨?_, ?_⟩, ih vs c.ub b v1 c.out (l0 ++ [(c.lb, v0)]) h3 (by rw [hp]; simp) hvs hv1⟩
      · show x.evalAt c.lb = β g
        rw [h0]; exact (evalAt_iff hx).mpr (.inl (by rw [hp]; simp))
      · show x.evalAt c.ub = β c.out
        rw [hv1]; exact (evalAt_iff hx).mpr (.inl (by rw [hp]; simp))

/-- **C82**: the trajectory `x.lb()` is defined over the time domain of the tube, it is enclosed in the tube, its value at each slice bound is the
lower bound of the gate, and no trajectory of the tube is below it there. -/
theorem C82_lb {T : Tube K} (h : T.WF) (hg : T.GatesInEnvelopes) {x : Traj K} (hx : T.boundTraj Itv.lo? = some x) :
    x.dom = Itv.icc T.t0 T.tf ∧ (∀ f : K → K, (∀ t, T.t0 ≤ t → t ≤ T.tf → x.evalAt t = some (f t)) → T.Encloses f) ∧
      (∃ f : K → K, ∀ t, T.t0 ≤ t → t ≤ T.tf → x.evalAt t = some (f t)) ∧
      ∀ s ∈ T.slices, ∃ l u, x.evalAt s.lb = some l ∧ l ∈ s.inG ∧ x.evalAt s.ub = some u ∧ u ∈ s.outG ∧
        ∀ f : K → K, T.Encloses f → l ≤ f s.lb ∧ u ≤ f s.ub := by
  obtain ⟨h1, h2, v0, vs, h3, h4, h5⟩ := boundTraj_spec h hx
  refine ⟨h2, fun f hf => boundTraj_encloses (fun X v hv => (lo?_mem hv).1) h1 T.cells vs T.t0 T.tf v0 T.g0 [] h.tiles h4 h5 h3 hf hg, ?_, ?_⟩
  · refine ⟨fun t => (x.evalAt t).getD 0, fun t t1 t2 => ?_⟩
    obtain ⟨v, hv⟩ := evalAt_some h1 (t := t) (by rw [h2]; exact Itv.mem_icc.mpr ⟨t1, t2⟩)
    simp [hv]
  · intro s hs
    obtain ⟨k1, k2⟩ := boundTraj_gates (β := Itv.lo?) h1 T.cells vs T.t0 T.tf v0 T.g0 [] h.tiles h4 h5 h3 s hs
    have hb := h.tiles.mem_bounds hs
    obtain ⟨l, hl⟩ := evalAt_some h1 (t := s.lb) (by rw [h2]; exact Itv.mem_icc.mpr ⟨hb.1, le_trans hb.2.1.le hb.2.2⟩)
    obtain ⟨u, hu⟩ := evalAt_some h1 (t := s.ub) (by rw [h2]; exact Itv.mem_icc.mpr ⟨le_trans hb.1 hb.2.1.le, hb.2.2⟩)
    have m1 := lo?_mem (k1.symm.trans hl)
    have m2 := lo?_mem (k2.symm.trans hu)
    exact ⟨l, u, hl, m1.1, hu, m2.1, fun f hf => ⟨m1.2 _ (hf s hs).1, m2.2 _ (hf s hs).2.1⟩⟩

/-- **C82**: the same for `x.ub()` -/
theorem C82_ub {T : Tube K} (h : T.WF) (hg : T.GatesInEnvelopes) {x : Traj K} (hx : T.boundTraj Itv.hi? = some x) :
    x.dom = Itv.icc T.t0 T.tf ∧ (∀ f : K → K, (∀ t, T.t0 ≤ t → t ≤ T.tf → x.evalAt t = some (f t)) → T.Encloses f) ∧
      (∃ f : K → K, ∀ t, T.t0 ≤ t → t ≤ T.tf → x.evalAt t = some (f t)) ∧
      ∀ s ∈ T.slices, ∃ l u, x.evalAt s.lb = some l ∧ l ∈ s.inG ∧ x.evalAt s.ub = some u ∧ u ∈ s.outG ∧
        ∀ f : K → K, T.Encloses f → f s.lb ≤ l ∧ f s.ub ≤ u := by
  obtain ⟨h1, h2, v0, vs, h3, h4, h5⟩ := boundTraj_spec h hx
  refine ⟨h2, fun f hf => boundTraj_encloses (fun X v hv => (hi?_mem hv).1) h1 T.cells vs T.t0 T.tf v0 T.g0 [] h.tiles h4 h5 h3 hf hg, ?_, ?_⟩
  · refine ⟨fun t => (x.evalAt t).getD 0, fun t t1 t2 => ?_⟩
    obtain ⟨v, hv⟩ := evalAt_some h1 (t := t) (by rw [h2]; exact Itv.mem_icc.mpr ⟨t1, t2⟩)
    simp [hv]
  · intro s hs
    obtain ⟨k1, k2⟩ := boundTraj_gates (β := Itv.hi?) h1 T.cells vs T.t0 T.tf v0 T.g0 [] h.tiles h4 h5 h3 s hs
    have hb := h.tiles.mem_bounds hs
    obtain ⟨l, hl⟩ := evalAt_some h1 (t := s.lb) (by rw [h2]; exact Itv.mem_icc.mpr ⟨hb.1, le_trans hb.2.1.le hb.2.2⟩)
    obtain ⟨u, hu⟩ := evalAt_some h1 (t := s.ub) (by rw [h2]; exact Itv.mem_icc.mpr ⟨le_trans hb.1 hb.2.1.le, hb.2.2⟩)
    have m1 := hi?_mem (k1.symm.trans hl)
    have m2 := hi?_mem (k2.symm.trans hu)
    exact ⟨l, u, hl, m1.1, hu, m2.1, fun f hf => ⟨m1.2 _ (hf s hs).1, m2.2 _ (hf s hs).2.1⟩⟩

/-- **C82**: both are defined when the gates are bounded -/
theorem C82_defined {T : Tube K} (h : T.WF) (hb : ∀ s ∈ T.slices, (∃ l u : K, l ≤ u ∧ s.inG = Itv.icc l u) ∧ ∃ l u : K, l ≤ u ∧ s.outG = Itv.icc l u) :
    (∃ x, T.boundTraj Itv.lo? = some x) ∧ ∃ x, T.boundTraj Itv.hi? = some x := by
  have hicc : ∀ l u : K, l ≤ u → (Itv.icc l u).lo? = some l ∧ (Itv.icc l u).hi? = some u := fun l u hlu => by
    rw [Itv.icc_eq_mk hlu]; exact ⟨rfl, rfl⟩
  have key : ∀ (β : Itv K → Option K), (∀ l u : K, l ≤ u → ∃ v, β (Itv.icc l u) = some v) → ∃ x, T.boundTraj β = some x := by
    intro β hβ
    have loop : ∀ (ss : List (Slice K)) (x : Traj K), (∀ s ∈ ss, ∃ l u : K, l ≤ u ∧ s.outG = Itv.icc l u) → ∃ x', boundLoop β ss x = some x' := by
      intro ss
      induction ss with
      | nil => intro x _; exact ⟨x, rfl⟩
      | cons s ss ih =>
        intro x hs
        obtain ⟨l, u, hlu, e⟩ := hs s (by simp)
        obtain ⟨v, hv⟩ := hβ l u hlu
        rw [boundLoop, e, hv, Option.bind_some]
        exact ih _ fun s' hs' => hs s' (by simp [hs'])
    unfold Tube.boundTraj
    cases hs : T.slices with
    | nil =>
      exfalso
      have := congrArg List.length hs
      simp only [Tube.slices, length_slicesFrom, List.length_nil, List.length_eq_zero_iff] at this
      exact h.ne this
    | cons s ss =>
      rw [hs] at hb
      obtain ⟨l, u, hlu, e⟩ := (hb s (by simp)).1
      obtain ⟨v, hv⟩ := hβ l u hlu
      simp only
      rw [e, hv, Option.bind_some]
      exact loop _ _ fun s' hs' => (hb s' hs').2
  exact ⟨key _ fun l u hlu => ⟨l, (hicc l u hlu).1⟩, key _ fun l u hlu => ⟨u, (hicc l u hlu).2⟩⟩

/-- the lower trajectory of a tube of two slices -/
example : (Tube.boundTraj Itv.lo? (⟨0, 2, Itv.icc 1 2, [⟨0, 1, Itv.icc 0 2, Itv.icc 0 1⟩, ⟨1, 2, Itv.icc (-1) 3, Itv.icc 2 3⟩]⟩ : Tube ℚ)).map
    (fun x => (x.pts, x.dom, x.cod)) = some ([(0, 1), (1, 0), (2, 2)], Itv.icc 0 2, Itv.icc 0 2) := by decide +kernel

/-! ### C83: evaluation of the bounds of the tube over an interval of time -/

/-- **C83**: `x.eval([a,b])` is the pair of the smallest intervals which contain the lower (upper) bounds of `x(t)` for all `t` in `[a,b]`. -/
theorem C83_eval_bounds {T : Tube K} (h : T.WF) {a b : K} (ha : T.t0 ≤ a) (hab : a ≤ b) (hb : b ≤ T.tf) {P Q : Itv K} (he : T.evalPair a b = some (P, Q)) :
    (∀ t, a ≤ t → t ≤ b → ∃ l u : K, T.evalAt t = Itv.icc l u ∧ l ≤ u ∧ l ∈ P ∧ u ∈ Q) ∧
      ∀ Y Z : Itv K, (∀ t l u, a ≤ t → t ≤ b → l ≤ u → T.evalAt t = Itv.icc l u → l ∈ Y ∧ u ∈ Z) → P ≤ Y ∧ Q ≤ Z := by
  have key : ∀ Y Z : Itv K, (P ≤ Y ∧ Q ≤ Z) ↔ ∀ t, a ≤ t → t ≤ b → BoundsIn (T.evalAt t) Y Z := by
    intro Y Z
    obtain ⟨a', g', cs', e1, e2, e3, e4, e5, -, -, -, e9, e10⟩ := seek_suffix (t := a) (g := T.g0) h.tiles h.ne ha
    unfold Tube.evalPair at he
    obtain ⟨k1, k2⟩ := foldlM_pair (fun s : Slice K => s.evalPair (max a s.lb) (min b s.ub)) Y Z _ _ _ he
    rw [k2]
    rw [show seek a T.slices = slicesFrom g' cs' from e1] at k1 ⊢
    have hord : ∀ s ∈ (slicesFrom g' cs').takeWhile (fun s => decide (s.lb ≤ b)),
        s ∈ T.slices ∧ s.lb < s.ub ∧ s.lb ≤ max a s.lb ∧ max a s.lb ≤ min b s.ub ∧ min b s.ub ≤ s.ub := by
      intro s hs
      have hm : s ∈ slicesFrom g' cs' := (List.takeWhile_sublist _).mem hs
      have hle : s.lb ≤ b := of_decide_eq_true (List.mem_takeWhile_imp (p := fun s : Slice K => decide (s.lb ≤ b)) hs)
      have hlt := (e3.mem_bounds hm)
      have hau : a ≤ s.ub := by
        rcases lt_or_ge a T.tf with hc | hc
        · exact (e10 hc s hm).le
        · have hfin : a = T.tf := le_antisymm (le_trans hab hb) hc
          -- the last slice only
          obtain ⟨s0, ss, f1, f2, f3, f4, f5⟩ := seek_spec (g := T.g0) h.tiles h.ne ha (hfin.le)
          rw [show seek a (slicesFrom T.g0 T.cells) = slicesFrom g' cs' from e1] at f1
          rcases f5 with f5 | ⟨f5, f6⟩
          · exact absurd (lt_of_lt_of_le f5 (h.tiles.mem_bounds f2).2.2) (by rw [hfin]; exact lt_irrefl _)
          · rw [f1, f6, List.mem_singleton] at hm
            rw [hm]; exact f4
      exact ⟨e9 s hm, hlt.2.1, le_max_right _ _, max_le (le_min hab hau) (le_min hle hlt.2.1.le), min_le_right _ _⟩
    constructor
    · rintro ⟨-, hall⟩ t t1 t2
      obtain ⟨s, hs, u1, u2⟩ : ∃ s ∈ slicesFrom g' cs', s.lb ≤ t ∧ t ≤ s.ub := by
        obtain ⟨s, ss, f1, f2, f3, f4, -⟩ := seek_spec (g := g') e3 e2 (le_trans e5 t1) (le_trans t2 hb)
        exact ⟨s, f2, f3, f4⟩
      have hv : s ∈ (slicesFrom g' cs').takeWhile fun s => decide (s.lb ≤ b) := mem_visited_lb e3 hs (le_trans u1 t2)
      obtain ⟨m1, m2, m3, m4, m5⟩ := hord s hv
      obtain ⟨r, hr⟩ := k1 s hv
      rw [Tube.evalAt_slice h m1 u1 u2]
      exact (slice_evalPair_spec m2 m3 m4 m5 hr Y Z).mp (hall s hv r hr) t (max_le t1 u1) (le_min t2 u2)
    · intro hall
      refine ⟨⟨bot_le, bot_le⟩, fun s hs r hr => ?_⟩
      obtain ⟨m1, m2, m3, m4, m5⟩ := hord s hs
      refine (slice_evalPair_spec m2 m3 m4 m5 hr Y Z).mpr fun t t1 t2 => ?_
      rw [← Tube.evalAt_slice h m1 (le_trans m3 t1) (le_trans t2 m5)]
      exact hall t (le_trans (le_max_left _ _) t1) (le_trans t2 (min_le_left _ _))
  have hicc : ∀ (X : Itv K) (l u : K), X.lo? = some l → X.hi? = some u → X = Itv.icc l u ∧ l ≤ u := by
    intro X l u hl hu
    cases X with
    | empty => cases hl
    | mk lo hi hbb =>
      simp only [Itv.lo?, Itv.hi?] at hl hu
      subst hl; subst hu
      have hle : l ≤ u := hbb
      exact ⟨by rw [Itv.icc_eq_mk hle], hle⟩
  constructor
  · intro t t1 t2
    obtain ⟨⟨l, hl, hl'⟩, u, hu, hu'⟩ := (key P Q).mp ⟨le_rfl, le_rfl⟩ t t1 t2
    obtain ⟨c1, c2⟩ := hicc _ _ _ hl hu
    exact ⟨l, u, c1, c2, hl', hu'⟩
  · intro Y Z hYZ
    refine (key Y Z).mpr fun t t1 t2 => ?_
    obtain ⟨⟨l, hl, -⟩, u, hu, -⟩ := (key P Q).mp ⟨le_rfl, le_rfl⟩ t t1 t2
    obtain ⟨c1, c2⟩ := hicc _ _ _ hl hu
    obtain ⟨d1, d2⟩ := hYZ t l u t1 t2 c2 c1
    exact ⟨⟨l, hl, d1⟩, u, hu, d2⟩

/-- over an interval which ends on a slice bound, the next envelope is not used -/
example : Tube.evalPair (⟨0, 3, Itv.icc 1 2, [⟨0, 1, Itv.icc 0 2, Itv.icc 0 1⟩, ⟨1, 2, Itv.icc (-1) 3, Itv.icc 2 3⟩, ⟨2, 3, Itv.icc (-7) 9, Itv.icc 2 3⟩]⟩ : Tube ℚ)
    (1 / 2) 2 = some (Itv.icc (-1) 2, Itv.icc 1 3) := by decide +kernel

/-! ### C84: diameters and volume -/

theorem width?_nonneg {X : Itv K} {d : K} (h : X.width? = some d) : 0 ≤ d := by
  cases X with
  | empty => simp only [Itv.width?, Option.some.injEq] at h; exact h.le
  | mk lo hi hb =>
    cases lo with
    | none => cases h
    | some l =>
      cases hi with
      | none => cases h
      | some u =>
        simp only [Itv.width?, Option.some.injEq] at h
        have : l ≤ u := hb
        linarith

theorem width?_mono {X Y : Itv K} (hXY : X ≤ Y) {d : K} (h : Y.width? = some d) : ∃ e, X.width? = some e ∧ e ≤ d := by
  have hd := width?_nonneg h
  cases X with
  | empty => exact ⟨0, rfl, hd⟩
  | mk lo hi hb =>
    cases Y with
    | empty => exact absurd hXY (by intro h; exact h)
    | mk lo' hi' hb' =>
      cases lo' with
      | none => cases h
      | some l' =>
        cases hi' with
        | none => cases h
        | some u' =>
          simp only [Itv.width?, Option.some.injEq] at h
          have hl : ∀ x ∈ Itv.mk lo hi hb, l' ≤ x ∧ x ≤ u' := fun x hx => Itv.mem_of_le hXY hx
          cases lo with
          | none =>
            exfalso
            cases hi with
            | none => have := (hl (l' - 1) ⟨trivial, trivial⟩).1; linarith
            | some u =>
              have := (hl (min u (l' - 1)) ⟨trivial, min_le_left _ _⟩).1
              have := min_le_right u (l' - 1); linarith
          | some l =>
            cases hi with
            | none =>
              exfalso
              have := (hl (max l (u' + 1)) ⟨le_max_left _ _, trivial⟩).2
              have := le_max_right l (u' + 1); linarith
            | some u =>
              have hlu : l ≤ u := hb
              have h1 := (hl l ⟨le_rfl, hlu⟩).1
              have h2 := (hl u ⟨hlu, le_rfl⟩).2
              exact ⟨u - l, rfl, by linarith⟩

theorem largestLoop_spec : ∀ (ss : List (Slice K)) (best : Slice K) (m : K), (∀ d, best.cod.width? = some d → m = d) → best.cod.width? ≠ none →
    (largestLoop best m ss = best ∨ largestLoop best m ss ∈ ss) ∧
      ((largestLoop best m ss).cod.width? = none ↔ ∃ s ∈ ss, s.cod.width? = none) ∧
      ∀ d, (largestLoop best m ss).cod.width? = some d → m ≤ d ∧ ∀ s ∈ ss, ∃ e, s.cod.width? = some e ∧ e ≤ d := by
  intro ss
  induction ss with
  | nil =>
    intro best m hm hn
    refine ⟨.inl rfl, by simpa [largestLoop] using hn, fun d hd => ⟨(hm d hd).le, by simp⟩⟩
  | cons s ss ih =>
    intro best m hm hn
    cases hw : s.cod.width? with
    | none =>
      simp only [largestLoop, hw]
      refine ⟨.inr (by simp), by simp [hw], by simp⟩
    | some e =>
      simp only [largestLoop, hw]
      by_cases hlt : m < e
      · rw [if_pos hlt]
        obtain ⟨i1, i2, i3⟩ := ih s e (by rw [hw]; simp) (by rw [hw]; simp)
        refine ⟨?_, ?_, ?_⟩
        · rcases i1 with i1 | i1
          · rw [i1]; exact .inr (by simp)
          · exact .inr (by simp [i1])
        · rw [i2]; simp [hw]
        · intro d hd
          obtain ⟨j1, j2⟩ := i3 d hd
          refine ⟨hlt.le.trans j1, fun s' hs' => ?_⟩
          rcases List.mem_cons.mp hs' with rfl | hs'
          · exact ⟨e, hw, j1⟩
          · exact j2 s' hs'
      · rw [if_neg hlt]
        obtain ⟨i1, i2, i3⟩ := ih best m hm hn
        refine ⟨?_, ?_, ?_⟩
        · rcases i1 with i1 | i1
          · exact .inl i1
          · exact .inr (by simp [i1])
        · rw [i2]; simp [hw]
        · intro d hd
          obtain ⟨j1, j2⟩ := i3 d hd
          refine ⟨j1, fun s' hs' => ?_⟩
          rcases List.mem_cons.mp hs' with rfl | hs'
          · exact ⟨e, hw, (not_lt.mp hlt).trans j1⟩
          · exact j2 s' hs'

theorem largest_first (s : Slice K) (ss : List (Slice K)) :
    ∃ r, largestLoop s 0 (s :: ss) = r ∧ r ∈ s :: ss ∧ (r.cod.width? = none ↔ ∃ s' ∈ s :: ss, s'.cod.width? = none) ∧
      ∀ d, r.cod.width? = some d → ∀ s' ∈ s :: ss, ∃ e, s'.cod.width? = some e ∧ e ≤ d := by
  cases hw : s.cod.width? with
  | none => exact ⟨s, by simp only [largestLoop, hw], by simp, by simp [hw], by simp [hw]⟩
  | some e =>
    have h0 := width?_nonneg hw
    refine ⟨_, rfl, ?_⟩
    have hstep : largestLoop s 0 (s :: ss) = largestLoop s e ss := by
      simp only [largestLoop, hw]
      split_ifs with h
      · rfl
      · rw [le_antisymm (not_lt.mp h) h0]
    rw [hstep]
    obtain ⟨i1, i2, i3⟩ := largestLoop_spec ss s e (by rw [hw]; simp) (by rw [hw]; simp)
    refine ⟨?_, ?_, ?_⟩
    · rcases i1 with i1 | i1
      · rw [i1]; simp
      · simp [i1]
    · rw [i2]; simp [hw]
    · intro d hd
      obtain ⟨j1, j2⟩ := i3 d hd
      intro s' hs'
      rcases List.mem_cons.mp hs' with rfl | hs'
      · exact ⟨e, hw, j1⟩
      · exact j2 s' hs'

/-- **C84**: `max_diam()` is infinite exactly when an envelope of the tube is unbounded; otherwise it is reached by an envelope (the one of
`largest_slice()`) and every value `x(t)` of the tube is at most that wide. -/
theorem C84_max_diam {T : Tube K} (h : T.WF) (hg : T.GatesInEnvelopes) : ∃ r s, T.maxDiam = some r ∧ T.largestSlice = some s ∧ s ∈ T.slices ∧ s.cod.width? = r ∧
    (r = none ↔ ∃ s' ∈ T.slices, s'.cod.width? = none) ∧
    ∀ d, r = some d → ∀ t, T.t0 ≤ t → t ≤ T.tf → ∃ e, (T.evalAt t).width? = some e ∧ e ≤ d := by
  cases hs : T.slices with
  | nil =>
    exfalso
    have := congrArg List.length hs
    simp only [Tube.slices, length_slicesFrom, List.length_nil, List.length_eq_zero_iff] at this
    exact h.ne this
  | cons s ss =>
    obtain ⟨r, e1, e2, e3, e4⟩ := largest_first s ss
    have hl : T.largestSlice = some r := by unfold Tube.largestSlice; rw [hs]; simp only [e1]
    refine ⟨_, r, by unfold Tube.maxDiam; rw [hl]; rfl, hl, e2, rfl, e3, ?_⟩
    intro d hd t t1 t2
    obtain ⟨s', ss', f1, f2, f3, f4, -⟩ := seek_spec (g := T.g0) h.tiles h.ne t1 t2
    have hm : s' ∈ T.slices := f2
    obtain ⟨e, he, hed⟩ := e4 d hd s' (hs ▸ hm)
    rw [Tube.evalAt_slice h hm f3 f4]
    have hle : s'.evalAt t ≤ s'.cod := by
      unfold Slice.evalAt
      rw [if_pos ⟨f3, f4⟩]
      split_ifs
      · exact (hg s' hm).1
      · exact (hg s' hm).2
      · exact le_rfl
    obtain ⟨e', g1, g2⟩ := width?_mono hle he
    exact ⟨e', g1, g2.trans hed⟩

theorem gateDiamLoop_spec : ∀ (ss : List (Slice K)) (m t : K),
    (gateDiamLoop m t ss = (some m, t) ∨ ∃ s ∈ ss, (gateDiamLoop m t ss).2 = s.ub ∧ (gateDiamLoop m t ss).1 = s.outG.width?) ∧
      ((gateDiamLoop m t ss).1 = none ↔ ∃ s ∈ ss, s.outG.width? = none) ∧
      ∀ d, (gateDiamLoop m t ss).1 = some d → m ≤ d ∧ ∀ s ∈ ss, ∃ e, s.outG.width? = some e ∧ e ≤ d := by
  intro ss
  induction ss with
  | nil => intro m t; simp [gateDiamLoop]
  | cons s ss ih =>
    intro m t
    cases hw : s.outG.width? with
    | none =>
      simp only [gateDiamLoop, hw]
      exact ⟨.inr ⟨s, by simp, rfl, hw.symm⟩, by simp [hw], by simp⟩
    | some e =>
      simp only [gateDiamLoop, hw]
      by_cases hlt : m < e
      · rw [if_pos hlt]
        obtain ⟨i1, i2, i3⟩ := ih e s.ub
        refine ⟨.inr ?_, ?_, ?_⟩
        · rcases i1 with i1 | ⟨s', h1, h2⟩
          · exact ⟨s, by simp, by rw [i1], by rw [i1, hw]⟩
          · exact ⟨s', by simp [h1], h2⟩
        · rw [i2]; simp [hw]
        · intro d hd
          obtain ⟨j1, j2⟩ := i3 d hd
          refine ⟨hlt.le.trans j1, fun s' hs' => ?_⟩
          rcases List.mem_cons.mp hs' with rfl | hs'
          · exact ⟨e, hw, j1⟩
          · exact j2 s' hs'
      · rw [if_neg hlt]
        obtain ⟨i1, i2, i3⟩ := ih m t
        refine ⟨?_, ?_, ?_⟩
        · rcases i1 with i1 | ⟨s', h1, h2⟩
          · exact .inl i1
          · exact .inr ⟨s', by simp [h1], h2⟩
        · rw [i2]; simp [hw]
        · intro d hd
          obtain ⟨j1, j2⟩ := i3 d hd
          refine ⟨j1, fun s' hs' => ?_⟩
          rcases List.mem_cons.mp hs' with rfl | hs'
          · exact ⟨e, hw, (not_lt.mp hlt).trans j1⟩
          · exact j2 s' hs'

/-- the gates of a tube with their instants -/
def IsGate (T : Tube K) (t : K) (g : Itv K) : Prop := ∃ s ∈ T.slices, (t = s.lb ∧ g = s.inG) ∨ (t = s.ub ∧ g = s.outG)

/-- **C84**: `max_gate_diam(t)` returns the diameter of a gate, which is at `t`, and no gate is wider; it is infinite exactly when a gate is unbounded. -/
theorem C84_max_gate_diam {T : Tube K} (h : T.WF) : ∃ r t, T.maxGateDiam = some (r, t) ∧ (∃ g, IsGate T t g ∧ g.width? = r) ∧
    (r = none ↔ ∃ u g, IsGate T u g ∧ g.width? = none) ∧ ∀ d, r = some d → ∀ u g, IsGate T u g → ∃ e, g.width? = some e ∧ e ≤ d := by
  obtain ⟨t0, tf, g0, cells⟩ := T
  cases cells with
  | nil => exact absurd rfl h.ne
  | cons c cs =>
    -- a gate is the first one or an output gate
    have hin : ∀ (cs : List (Cell K)) (g : Itv K), ∀ s ∈ slicesFrom g cs, s.inG = g ∨ ∃ s' ∈ slicesFrom g cs, s'.outG = s.inG := by
      intro cs
      induction cs with
      | nil => simp
      | cons c cs ih =>
        intro g s hs
        rw [slicesFrom_cons] at hs ⊢
        rcases List.mem_cons.mp hs with rfl | hs
        · exact .inl rfl
        · rcases ih c.out s hs with e | ⟨s', h1, h2⟩
          · exact .inr ⟨_, List.mem_cons_self, e.symm⟩
          · exact .inr ⟨s', List.mem_cons_of_mem _ h1, h2⟩
    have hgate : ∀ u g, IsGate ⟨t0, tf, g0, c :: cs⟩ u g → g = g0 ∨ ∃ s' ∈ slicesFrom g0 (c :: cs), s'.outG = g := by
      rintro u g ⟨s, hs, ⟨-, e⟩ | ⟨-, e⟩⟩
      · rw [e]; exact hin _ _ s hs
      · exact .inr ⟨s, hs, e.symm⟩
    have hfirst : IsGate ⟨t0, tf, g0, c :: cs⟩ c.lb g0 := ⟨_, by rw [Tube.slices, slicesFrom_cons]; exact List.mem_cons_self, .inl ⟨rfl, rfl⟩⟩
    cases hw : g0.width? with
    | none =>
      refine ⟨none, c.lb, by simp only [Tube.maxGateDiam, Tube.slices, slicesFrom_cons, hw], ⟨g0, hfirst, hw⟩, ?_, by simp⟩
      exact ⟨fun _ => ⟨_, _, hfirst, hw⟩, fun _ => rfl⟩
    | some e =>
      obtain ⟨i1, i2, i3⟩ := gateDiamLoop_spec (slicesFrom g0 (c :: cs)) e c.lb
      refine ⟨(gateDiamLoop e c.lb (slicesFrom g0 (c :: cs))).1, (gateDiamLoop e c.lb (slicesFrom g0 (c :: cs))).2, by
        simp only [Tube.maxGateDiam, Tube.slices, slicesFrom_cons, hw], ?_, ?_, ?_⟩
      · rcases i1 with i1 | ⟨s, h1, h2, h3⟩
        · exact ⟨g0, by rw [i1]; exact hfirst, by rw [i1]; exact hw⟩
        · exact ⟨s.outG, ⟨s, h1, .inr ⟨h2, rfl⟩⟩, h3.symm⟩
      · rw [i2]
        constructor
        · rintro ⟨s, hs, hn⟩
          exact ⟨s.ub, s.outG, ⟨s, hs, .inr ⟨rfl, rfl⟩⟩, hn⟩
        · rintro ⟨u, g, hg, hn⟩
          rcases hgate u g hg with rfl | ⟨s', h1, rfl⟩
          · rw [hw] at hn; cases hn
          · exact ⟨s', h1, hn⟩
      · intro d hd u g hg
        obtain ⟨j1, j2⟩ := i3 d hd
        rcases hgate u g hg with rfl | ⟨s', h1, rfl⟩
        · exact ⟨e, hw, j1⟩
        · exact j2 s' h1

/-- the widest gate is the second one, the largest slice the last one -/
example : Tube.maxGateDiam (⟨0, 2, Itv.icc 1 2, [⟨0, 1, Itv.icc 0 2, Itv.icc 0 2⟩, ⟨1, 2, Itv.icc (-1) 3, Itv.icc 2 3⟩]⟩ : Tube ℚ) = some (some 2, 1) ∧
    Tube.maxDiam (⟨0, 2, Itv.icc 1 2, [⟨0, 1, Itv.icc 0 2, Itv.icc 0 2⟩, ⟨1, 2, Itv.icc (-1) 3, Itv.icc 2 3⟩]⟩ : Tube ℚ) = some (some 4) := by decide +kernel

/-- recursive form of the volume -/
def cellsVolume : List (Cell K) → Option K
  | [] => some 0
  | c :: cs => c.cod.width?.bind fun d => (cellsVolume cs).map fun r => (c.ub - c.lb) * d + r

theorem volume_eq (T : Tube K) : T.volume = cellsVolume T.cells := by
  have key : ∀ (cs : List (Cell K)) (g : Itv K) (acc : K), (slicesFrom g cs).foldlM (fun acc s => s.volume.map fun v => acc + v) acc =
      (cellsVolume cs).map fun r => acc + r := by
    intro cs
    induction cs with
    | nil => intro g acc; simp [cellsVolume]
    | cons c cs ih =>
      intro g acc
      rw [slicesFrom_cons, List.foldlM_cons]
      cases hw : c.cod.width? with
      | none => simp [Slice.volume, hw, cellsVolume]
      | some d =>
        have hv : (Slice.volume (⟨c.lb, c.ub, c.cod, g, c.out⟩ : Slice K)) = some ((c.ub - c.lb) * d) := by simp [Slice.volume, hw]
        rw [hv, Option.map_some, Option.bind_eq_bind, Option.bind_some, ih]
        simp only [hw, Option.bind_some, cellsVolume, Option.map_map]
        congr 1
        funext r
        simp only [Function.comp]
        ring
  unfold Tube.volume Tube.slices
  rw [key]
  cases cellsVolume T.cells <;> simp

/-- **C84**: sampling the tube does not change its volume. -/
theorem C84_volume_sample {T : Tube K} (t : K) : (T.sample t).volume = T.volume := by
  rw [volume_eq, volume_eq]
  show cellsVolume (sampleCells t T.cells) = _
  generalize T.cells = cs
  induction cs with
  | nil => rfl
  | cons c cs ih =>
    simp only [sampleCells]
    split_ifs with h1 h2
    · rfl
    · simp only [cellsVolume]
      cases c.cod.width? with
      | none => rfl
      | some d =>
        simp only [Option.bind_some, Option.map_map]
        congr 1
        funext r
        simp only [Function.comp]
        ring
    · simp only [cellsVolume, ih]

/-- **C84**: the volume of a tube is at most the one of a tube of the same slicing with larger envelopes; it is finite when the latter is. -/
theorem C84_volume_mono {X Y : Tube K} (hX : X.WF) (hs : X.sameSlicing Y = true) (hle : ∀ s ∈ X.slices, ∀ s' ∈ Y.slices, s.lb = s'.lb → s.cod ≤ s'.cod) {V : K}
    (hV : Y.volume = some V) : ∃ W, X.volume = some W ∧ W ≤ V := by
  unfold Tube.sameSlicing at hs
  rw [decide_eq_true_eq, Tube.slices_bounds, Tube.slices_bounds] at hs
  rw [volume_eq] at hV ⊢
  have key : ∀ (cs ds : List (Cell K)) (a b : K) (g g' : Itv K), Tiles a cs b → cs.map (fun c => (c.lb, c.ub)) = ds.map (fun c => (c.lb, c.ub)) →
      (∀ s ∈ slicesFrom g cs, ∀ s' ∈ slicesFrom g' ds, s.lb = s'.lb → s.cod ≤ s'.cod) → ∀ V, cellsVolume ds = some V →
      ∃ W, cellsVolume cs = some W ∧ W ≤ V := by
    intro cs
    induction cs with
    | nil =>
      intro ds a b g g' _ hb _ V hV
      have : ds = [] := by simpa using hb.symm
      subst this
      exact ⟨V, hV, le_rfl⟩
    | cons c cs ih =>
      intro ds a b g g' ht hb hle V hV
      cases ds with
      | nil => simp at hb
      | cons d ds =>
        rw [List.map_cons, List.map_cons, List.cons.injEq, Prod.mk.injEq] at hb
        obtain ⟨⟨b1, b2⟩, b3⟩ := hb
        obtain ⟨h1, h2, h3⟩ := ht
        simp only [cellsVolume, Option.bind_eq_some_iff, Option.map_eq_some_iff] at hV
        obtain ⟨w, hw, r, hr, rfl⟩ := hV
        have hc : c.cod ≤ d.cod := hle _ (by rw [slicesFrom_cons]; exact List.mem_cons_self) _ (by rw [slicesFrom_cons]; exact List.mem_cons_self) b1
        obtain ⟨e, he, hew⟩ := width?_mono hc hw
        obtain ⟨W, hW, hWr⟩ := ih ds c.ub b c.out d.out h3 b3 (fun s hs s' hs' e => hle s (by rw [slicesFrom_cons]; exact List.mem_cons_of_mem _ hs) s'
          (by rw [slicesFrom_cons]; exact List.mem_cons_of_mem _ hs') e) r hr
        refine ⟨(c.ub - c.lb) * e + W, by simp [cellsVolume, he, hW], ?_⟩
        rw [← b1, ← b2]
        exact add_le_add (mul_le_mul_of_nonneg_left hew (sub_nonneg.mpr h2.le)) hWr
  exact key _ _ _ _ X.g0 Y.g0 hX.tiles hs hle V hV

/-- **C84** fails as documented: `volume()` is not `w([t0,tf]) × w([x]([t0,tf]))`; here the two slices have the volumes 1 and 2, and the box around
the tube has the volume 8. -/
theorem C84_volume_box_fails : ∃ T : Tube ℚ, T.WF ∧ T.GatesInEnvelopes ∧ T.volume = some 3 ∧ T.evalItv (Itv.icc T.t0 T.tf) = Itv.icc 0 4 ∧ T.tf - T.t0 = 2 := by
  refine ⟨⟨0, 2, Itv.icc 0 1, [⟨0, 1, Itv.icc 0 1, ⊥⟩, ⟨1, 2, Itv.icc 2 4, Itv.icc 2 4⟩]⟩, ⟨by simp, rfl, by norm_num, rfl, by norm_num, rfl⟩, ?_, by decide +kernel,
    by decide +kernel, by norm_num⟩
  intro s hs
  simp only [Tube.slices, slicesFrom_cons, slicesFrom_nil, List.mem_cons, List.not_mem_nil, or_false] at hs
  rcases hs with rfl | rfl <;> decide +kernel

/-- **C84** fails for `diam(v)`: the trajectory of the diameters is not defined over the time domain of the tube; the values of the tube are used
as instants. Here the tube is over `[0,1]` with values in `[5,7]`, and the trajectory of its diameters is over `[5,7]`. -/
theorem C84_diam_fails : ∃ (x v : Tube ℚ) (d : Traj ℚ), x.WF ∧ x.t0 = 0 ∧ x.tf = 1 ∧ x.sameSlicing v = true ∧ x.diamV (IArith.exact ℚ) v = some d ∧
    d.dom = Itv.icc 5 7 ∧ d.evalAt (1 / 2) = none := by
  refine ⟨⟨0, 1, Itv.icc 5 7, [⟨0, 1, Itv.icc 5 7, Itv.icc 5 7⟩]⟩, ⟨0, 1, Itv.icc (-1) 1, [⟨0, 1, Itv.icc (-1) 1, Itv.icc (-1) 1⟩]⟩,
    ⟨[(5, 2), (7, 2)], Itv.icc 5 7, Itv.icc 2 2⟩, ⟨by simp, rfl, by norm_num, rfl⟩, rfl, rfl, by decide +kernel, ?_, rfl, by decide +kernel⟩
  decide +kernel

end field

end Codac.Props
