import Verif.Ctc.Delay
import Verif.Tube.Examples

/-!
# C20: `CtcDelay` loses no solution of `x(t) = y(t+a)`

`IsDelayed x y a f g`: the delay constraint, at the instants `t` of `[x]` such that `t+a` is an instant of `[y]`.
-/

set_option linter.unusedSectionVars false

namespace Codac.Props
open Codac Codac.Ex

section
variable {K : Type*} [Field K] [LinearOrder K] [IsStrictOrderedRing K]

/-- `f(t) = g(t+a)` whenever both instants are in the time domains -/
def IsDelayed (x y : Tube K) (a : K) (f g : K → K) : Prop :=
  ∀ t, x.t0 ≤ t → t ≤ x.tf → y.t0 ≤ t + a → t + a ≤ y.tf → f t = g (t + a)

/-- **C20**: for all tubes of any slicings, all sets of delays and any outward arithmetic, a solution `(a, f, g)` is still
enclosed after the contraction, and the tubes remain well formed. -/
theorem C20_delay_sound (A : IArith K) {I : Itv K} {x y : Tube K} (hx : x.WF) (hxg : x.GatesInEnvelopes) (hy : y.WF)
    (hyg : y.GatesInEnvelopes) {a : K} {f g : K → K} (ha : a ∈ I) (hf : x.Encloses f) (hg : y.Encloses g)
    (hs : IsDelayed x y a f g) :
    let r := delay A I x y
    a ∈ r.1 ∧ r.2.1.Encloses f ∧ r.2.2.Encloses g ∧
      r.2.1.WF ∧ r.2.1.GatesInEnvelopes ∧ r.2.2.WF ∧ r.2.2.GatesInEnvelopes := by
  have nonempty : ∀ (J : Itv K) (u v : Tube K), a ∈ J → u.WF → u.GatesInEnvelopes → u.Encloses f → v.WF →
      v.GatesInEnvelopes → v.Encloses g → (J.isEmpty || u.isEmpty || v.isEmpty) = false := by
    intro J u v hJ hu hug huf hv hvg hvg'
    have : ∀ (w : Tube K) (φ : K → K), w.WF → w.GatesInEnvelopes → w.Encloses φ → w.isEmpty = false := by
      intro w φ hw hwg hwf
      unfold Tube.isEmpty
      rw [Bool.or_eq_false_iff]
      constructor
      · rw [Itv.isEmpty_false_iff]
        have := evalAt_mem hw hwf w.t0
        obtain ⟨s, hs, h1, h2⟩ := hw.tiles.exists_slice (g := w.g0) le_rfl hw.lt
        match hc : w.cells with
        | [] => exact absurd hc hw.ne
        | c :: cs =>
          have := hwf ⟨c.lb, c.ub, c.cod, w.g0, c.out⟩ (by rw [Tube.slices, hc]; simp)
          exact Itv.ne_bot_of_mem this.1
      · rw [List.any_eq_false]
        intro s hs
        have h1 := hwf s hs
        have h2 := Itv.mem_of_le (hwg s hs).1 h1.1
        rw [Itv.isEmpty_false_iff.mpr (Itv.ne_bot_of_mem h2), Itv.isEmpty_false_iff.mpr (Itv.ne_bot_of_mem h1.2.1)]
        simp
    rw [Itv.isEmpty_false_iff.mpr (Itv.ne_bot_of_mem hJ), this u f hu hug huf, this v g hv hvg hvg']
    rfl
  have l1 := delayLoop_inv (sh := A.add) (un := fun t i => A.sub i t) (φ := fun t => t + a) (a0 := I) (w0 := x)
    (r := some (I, x)) (f := f) hy hyg hg (fun t t' h e => h (add_right_cancel e))
    (fun T J t ht hJ => A.add_mem ht hJ) (fun T J t ht hJ => by have := A.sub_mem hJ ht; simpa using this)
    (fun t h1 h2 h3 h4 => hs t h3 h4 h1 h2) (List.range x.nbSlices) (fun k hk => List.mem_range.mp hk)
    (by rintro _ _ ⟨⟩; exact ⟨le_rfl, Tube.Below.refl _, rfl⟩) ⟨I, x, rfl, ha, hx, hxg, hf, rfl⟩
  obtain ⟨I1, x1, e1, hI1, hx1, hx1g, hx1f, -⟩ := l1.ex
  have b1 := delayLoop_below (sh := A.add) (un := fun t i => A.sub i t) (o := y) (List.range x.nbSlices) (a0 := I) (w0 := x)
    (r := some (I, x)) (by rintro _ _ ⟨⟩; exact ⟨le_rfl, Tube.Below.refl _, rfl⟩) I1 x1 e1
  have l2 := delayLoop_inv (sh := A.sub) (un := fun t i => A.sub t i) (φ := fun t => t - a) (a0 := I1) (w0 := y)
    (r := some (I1, y)) (f := g) hx1 hx1g hx1f (fun t t' h e => h (sub_left_injective e))
    (fun T J t ht hJ => A.sub_mem ht hJ) (fun T J t ht hJ => by have := A.sub_mem ht hJ; simpa using this)
    (fun t h1 h2 h3 h4 => by
      rw [b1.2.1.t0] at h1
      rw [b1.2.1.tf] at h2
      have := hs (t - a) h1 h2 (by simpa using h3) (by simpa using h4)
      simpa using this.symm)
    (List.range y.nbSlices) (fun k hk => List.mem_range.mp hk)
    (by rintro _ _ ⟨⟩; exact ⟨le_rfl, Tube.Below.refl _, rfl⟩) ⟨I1, y, rfl, hI1, hy, hyg, hg, rfl⟩
  obtain ⟨I2, y1, e2, hI2, hy1, hy1g, hy1f, -⟩ := l2.ex
  unfold delay
  rw [nonempty I x y ha hx hxg hf hy hyg hg, e1]
  dsimp only
  rw [e2]
  dsimp only
  rw [nonempty I2 x1 y1 hI2 hx1 hx1g hx1f hy1 hy1g hy1f]
  exact ⟨hI2, hx1f, hy1f, hx1, hx1g, hy1, hy1g⟩

/-- **C20**, contraction: without any hypothesis on the constraint, the delays and both tubes only shrink. -/
theorem C20_delay_contracts (A : IArith K) (I : Itv K) (x y : Tube K) :
    let r := delay A I x y
    r.1 ≤ I ∧ r.2.1.Below x ∧ r.2.2.Below y := by
  have b1 := delayLoop_below (sh := A.add) (un := fun t i => A.sub i t) (o := y) (List.range x.nbSlices) (a0 := I) (w0 := x)
    (r := some (I, x)) (by rintro _ _ ⟨⟩; exact ⟨le_rfl, Tube.Below.refl _, rfl⟩)
  have b2 := fun (I1 : Itv K) (x1 : Tube K) => delayLoop_below (sh := A.sub) (un := fun t i => A.sub t i) (o := x1)
    (List.range y.nbSlices) (a0 := I1) (w0 := y)
    (r := some (I1, y)) (by rintro _ _ ⟨⟩; exact ⟨le_rfl, Tube.Below.refl _, rfl⟩)
  unfold delay
  dsimp only
  split_ifs
  · exact ⟨bot_le, setEmpty_below x, setEmpty_below y⟩
  · cases h1 : (List.range x.nbSlices).foldl (fun r k => delayStep A.add (fun t i => A.sub i t) y k r) (some (I, x)) with
    | none => exact ⟨bot_le, setEmpty_below x, setEmpty_below y⟩
    | some p =>
      obtain ⟨I1, x1⟩ := p
      have c1 := b1 I1 x1 h1
      dsimp only
      cases h2 : (List.range y.nbSlices).foldl (fun r k => delayStep A.sub (fun t i => A.sub t i) x1 k r) (some (I1, y)) with
      | none => exact ⟨bot_le, (setEmpty_below x1).trans c1.2.1, setEmpty_below y⟩
      | some q =>
        obtain ⟨I2, y1⟩ := q
        have c2 := b2 I1 x1 I2 y1 h2
        dsimp only
        split_ifs
        · exact ⟨bot_le, (setEmpty_below x1).trans c1.2.1, (setEmpty_below y1).trans c2.2.1⟩
        · exact ⟨c2.1.trans c1.1, c1.2.1, c2.2.1⟩

/-- **C20**, effect: after the contraction, the envelope and gates of each slice of `[x]` are included in the initial `[y]`
evaluated with the initial delays. -/
theorem C20_delay_effect_x (A : IArith K) {I : Itv K} {x y : Tube K} (hx : x.WF) (hy : y.WF) (hyg : y.GatesInEnvelopes) :
    ∀ s ∈ (delay A I x y).2.1.slices,
      s.cod ≤ y.evalItv (A.add (.icc s.lb s.ub) I) ∧ s.inG ≤ y.evalItv (A.add (.point s.lb) I) ∧
        s.outG ≤ y.evalItv (A.add (.point s.ub) I) := by
  have b1 := delayLoop_effect (sh := A.add) (un := fun t i => A.sub i t) (o := y) (fun T J J' h => A.add_mono le_rfl h) hy hyg
    (List.range x.nbSlices) (a0 := I) (P := fun _ => False) (r := some (I, x)) (by rintro _ _ ⟨⟩; exact ⟨le_rfl, by simp⟩)
  have b0 := delayLoop_below (sh := A.add) (un := fun t i => A.sub i t) (o := y) (List.range x.nbSlices) (a0 := I) (w0 := x)
    (r := some (I, x)) (by rintro _ _ ⟨⟩; exact ⟨le_rfl, Tube.Below.refl _, rfl⟩)
  have hemp : ∀ w : Tube K, w.WF → ∀ s ∈ w.setEmpty.slices,
      s.cod ≤ y.evalItv (A.add (.icc s.lb s.ub) I) ∧ s.inG ≤ y.evalItv (A.add (.point s.lb) I) ∧
        s.outG ≤ y.evalItv (A.add (.point s.ub) I) := by
    intro w hw s hs
    obtain ⟨h1, h2, h3⟩ := setEmpty_slices hw hs
    rw [h1, h2, h3]
    exact ⟨bot_le, bot_le, bot_le⟩
  unfold delay
  split_ifs
  · exact hemp x hx
  · cases h1 : (List.range x.nbSlices).foldl (fun r k => delayStep A.add (fun t i => A.sub i t) y k r) (some (I, x)) with
    | none => exact hemp x hx
    | some p =>
      obtain ⟨I1, x1⟩ := p
      have c0 := b0 I1 x1 h1
      have hx1 : x1.WF := c0.2.1.wf hx c0.2.2
      have key : ∀ s ∈ x1.slices,
          s.cod ≤ y.evalItv (A.add (.icc s.lb s.ub) I) ∧ s.inG ≤ y.evalItv (A.add (.point s.lb) I) ∧
            s.outG ≤ y.evalItv (A.add (.point s.ub) I) := by
        intro s hs
        obtain ⟨j, hj⟩ := List.mem_iff_getElem?.mp hs
        refine (b1 I1 x1 h1).2 j s (Or.inr (List.mem_range.mpr ?_)) hj
        have hl : x1.slices.length = x.nbSlices := by
          rw [nbSlices_eq]; exact c0.2.1.slices.length_eq
        have := (List.getElem?_eq_some_iff.mp hj).1
        omega
      dsimp only
      cases h2 : (List.range y.nbSlices).foldl (fun r k => delayStep A.sub (fun t i => A.sub t i) x1 k r) (some (I1, y)) with
      | none => exact hemp x1 hx1
      | some q =>
        dsimp only
        split_ifs
        · exact hemp x1 hx1
        · exact key

/-- **C20**, effect: after the contraction, the envelope and gates of each slice of `[y]` are included in the contracted `[x]`
evaluated with the initial delays. -/
theorem C20_delay_effect_y (A : IArith K) {I : Itv K} {x y : Tube K} (hx : x.WF) (hxg : x.GatesInEnvelopes) (hy : y.WF) :
    let r := delay A I x y
    ∀ s ∈ r.2.2.slices,
      s.cod ≤ r.2.1.evalItv (A.sub (.icc s.lb s.ub) I) ∧ s.inG ≤ r.2.1.evalItv (A.sub (.point s.lb) I) ∧
        s.outG ≤ r.2.1.evalItv (A.sub (.point s.ub) I) := by
  have b0 := delayLoop_below (sh := A.add) (un := fun t i => A.sub i t) (o := y) (List.range x.nbSlices) (a0 := I) (w0 := x)
    (r := some (I, x)) (by rintro _ _ ⟨⟩; exact ⟨le_rfl, Tube.Below.refl _, rfl⟩)
  have hemp : ∀ v w : Tube K, w.WF → ∀ s ∈ w.setEmpty.slices,
      s.cod ≤ v.evalItv (A.sub (.icc s.lb s.ub) I) ∧ s.inG ≤ v.evalItv (A.sub (.point s.lb) I) ∧
        s.outG ≤ v.evalItv (A.sub (.point s.ub) I) := by
    intro v w hw s hs
    obtain ⟨h1, h2, h3⟩ := setEmpty_slices hw hs
    rw [h1, h2, h3]
    exact ⟨bot_le, bot_le, bot_le⟩
  unfold delay
  dsimp only
  split_ifs
  · exact hemp _ y hy
  · cases h1 : (List.range x.nbSlices).foldl (fun r k => delayStep A.add (fun t i => A.sub i t) y k r) (some (I, x)) with
    | none => exact hemp _ y hy
    | some p =>
      obtain ⟨I1, x1⟩ := p
      have c0 := b0 I1 x1 h1
      have hx1 := c0.2.1.wf hx c0.2.2
      have hx1g := delayLoop_gc (List.range x.nbSlices) (r := some (I, x)) (by rintro _ _ ⟨⟩; exact hxg) I1 x1 h1
      dsimp only
      cases h2 : (List.range y.nbSlices).foldl (fun r k => delayStep A.sub (fun t i => A.sub t i) x1 k r) (some (I1, y)) with
      | none => exact hemp _ y hy
      | some q =>
        obtain ⟨I2, y1⟩ := q
        have c1 := delayLoop_below (sh := A.sub) (un := fun t i => A.sub t i) (o := x1) (List.range y.nbSlices) (a0 := I)
          (w0 := y) (r := some (I1, y)) (by rintro _ _ ⟨⟩; exact ⟨c0.1, Tube.Below.refl _, rfl⟩) I2 y1 h2
        have c2 := delayLoop_effect (sh := A.sub) (un := fun t i => A.sub t i) (o := x1)
          (fun T J J' h => A.sub_mono le_rfl h) hx1 hx1g (List.range y.nbSlices) (a0 := I) (P := fun _ => False)
          (r := some (I1, y)) (by rintro _ _ ⟨⟩; exact ⟨c0.1, by simp⟩) I2 y1 h2
        dsimp only
        split_ifs
        · exact hemp _ y1 (c1.2.1.wf hy c1.2.2)
        · intro s hs
          obtain ⟨j, hj⟩ := List.mem_iff_getElem?.mp hs
          refine c2.2 j s (Or.inr (List.mem_range.mpr ?_)) hj
          have hl : y1.slices.length = y.nbSlices := by
            rw [nbSlices_eq]; exact c1.2.1.slices.length_eq
          have := (List.getElem?_eq_some_iff.mp hj).1
          dsimp only at this
          omega

/-- **C20**: when no solution remains, the three domains are all empty; otherwise none is. -/
theorem C20_delay_empty (A : IArith K) {I : Itv K} {x y : Tube K} (hx : x.WF) (hy : y.WF) :
    let r := delay A I x y
    (r.1 = ⊥ ∧ r.2.1.isEmpty = true ∧ r.2.2.isEmpty = true) ∨ (r.1 ≠ ⊥ ∧ r.2.1.isEmpty = false ∧ r.2.2.isEmpty = false) := by
  have b1 := delayLoop_below (sh := A.add) (un := fun t i => A.sub i t) (o := y) (List.range x.nbSlices) (a0 := I) (w0 := x)
    (r := some (I, x)) (by rintro _ _ ⟨⟩; exact ⟨le_rfl, Tube.Below.refl _, rfl⟩)
  have b2 := fun (I1 : Itv K) (x1 : Tube K) => delayLoop_below (sh := A.sub) (un := fun t i => A.sub t i) (o := x1)
    (List.range y.nbSlices) (a0 := I1) (w0 := y)
    (r := some (I1, y)) (by rintro _ _ ⟨⟩; exact ⟨le_rfl, Tube.Below.refl _, rfl⟩)
  unfold delay
  dsimp only
  split_ifs
  · exact Or.inl ⟨rfl, setEmpty_isEmpty hx, setEmpty_isEmpty hy⟩
  · cases h1 : (List.range x.nbSlices).foldl (fun r k => delayStep A.add (fun t i => A.sub i t) y k r) (some (I, x)) with
    | none => exact Or.inl ⟨rfl, setEmpty_isEmpty hx, setEmpty_isEmpty hy⟩
    | some p =>
      obtain ⟨I1, x1⟩ := p
      have c1 := b1 I1 x1 h1
      dsimp only
      cases h2 : (List.range y.nbSlices).foldl (fun r k => delayStep A.sub (fun t i => A.sub t i) x1 k r) (some (I1, y)) with
      | none => exact Or.inl ⟨rfl, setEmpty_isEmpty (c1.2.1.wf hx c1.2.2), setEmpty_isEmpty hy⟩
      | some q =>
        obtain ⟨I2, y1⟩ := q
        have c2 := b2 I1 x1 I2 y1 h2
        dsimp only
        split_ifs with h3
        · exact Or.inl ⟨rfl, setEmpty_isEmpty (c1.2.1.wf hx c1.2.2), setEmpty_isEmpty (c2.2.1.wf hy c2.2.2)⟩
        · refine Or.inr ?_
          simp only [Bool.or_eq_true, not_or, Bool.not_eq_true] at h3
          exact ⟨Itv.isEmpty_false_iff.mp h3.1.1, h3.1.2, h3.2⟩

/-- **C20**, vector version: a common delay to all components -/
theorem C20_delay_vector (A : IArith K) {I : Itv K} {l : List (Tube K × Tube K)} {φ : List ((K → K) × (K → K))} {a : K}
    (ha : a ∈ I)
    (h : List.Forall₂ (fun (p : Tube K × Tube K) (q : (K → K) × (K → K)) =>
      p.1.WF ∧ p.1.GatesInEnvelopes ∧ p.2.WF ∧ p.2.GatesInEnvelopes ∧ p.1.Encloses q.1 ∧ p.2.Encloses q.2 ∧
        IsDelayed p.1 p.2 a q.1 q.2) l φ) :
    a ∈ (delayVec A I l).1 ∧
      List.Forall₂ (fun (p : Tube K × Tube K) (q : (K → K) × (K → K)) => p.1.Encloses q.1 ∧ p.2.Encloses q.2)
        (delayVec A I l).2 φ := by
  induction h generalizing I with
  | nil => exact ⟨ha, .nil⟩
  | cons h0 _ ih =>
    obtain ⟨h1, h2, h3, h4, h5, h6, h7⟩ := h0
    have := C20_delay_sound A h1 h2 h3 h4 ha h5 h6 h7
    have r := ih this.1
    exact ⟨r.1, .cons ⟨this.2.1, this.2.2.1⟩ r.2⟩

end

/-! ### Concrete cases -/

/-- the tube of the delayed signal: around `t ↦ t - 1` -/
def delayY : Tube ℚ where
  t0 := 0
  tf := 5
  g0 := I (-1) (-1/2)
  cells := [⟨0, 2, I (-1) 2, I 1 2⟩, ⟨2, 5, I 1 4, I 3 4⟩]

theorem delayY_wf : delayY.WF := ⟨by simp [delayY], by simp [delayY, Tiles]; norm_num⟩
theorem delayY_gc : delayY.GatesInEnvelopes := by
  intro s hs
  have : s = ⟨0, 2, I (-1) 2, I (-1) (-1/2), I 1 2⟩ ∨ s = ⟨2, 5, I 1 4, I 1 2, I 3 4⟩ := by
    simpa [delayY, Tube.slices, slicesFrom] using hs
  rcases this with rfl | rfl <;> decide +kernel
theorem delayY_encl : delayY.Encloses (fun t => t - 1) := by
  intro s hs
  have : s = ⟨0, 2, I (-1) 2, I (-1) (-1/2), I 1 2⟩ ∨ s = ⟨2, 5, I 1 4, I 1 2, I 3 4⟩ := by
    simpa [delayY, Tube.slices, slicesFrom] using hs
  rcases this with rfl | rfl <;> refine ⟨by decide +kernel, by decide +kernel, ?_⟩ <;> intro t h1 h2 <;> simp <;>
    constructor <;> simp at h1 h2 <;> linarith

example : IsDelayed Ex.T delayY 1 (fun t => t) (fun t => t - 1) := by
  intro t _ _ _ _; simp

/-- hypotheses of `C20_delay_sound` met, with a delay to contract -/
example : 1 ∈ (delay (IArith.exact ℚ) (I (1/2) 1) Ex.T delayY).1 :=
  (C20_delay_sound (IArith.exact ℚ) T_wf T_gc delayY_wf delayY_gc (f := fun t => t) (g := fun t => t - 1)
    (by decide +kernel) T_encl delayY_encl (by intro t _ _ _ _; simp)).1

/-- the tube `x` is contracted by `y` with a known delay -/
example : (delay (IArith.exact ℚ) (I 1 1) Ex.T delayY).2.1 ≠ Ex.T := by decide +kernel

/-- the set of delays is contracted: `x` is in `[3,4]` on `[0,1]` and `y` may be there from time 2 only -/
example : (delay (IArith.exact ℚ) (I 0 4) ⟨0, 1, I 3 4, [⟨0, 1, I 3 4, I 3 4⟩]⟩ delayY).1 = I 1 4 := by decide +kernel

/-- no solution: everything is emptied -/
example : (delay (IArith.exact ℚ) (I 0 4) ⟨0, 1, I 7 8, [⟨0, 1, I 7 8, I 7 8⟩]⟩ delayY).1 = ⊥ := by decide +kernel

end Codac.Props
