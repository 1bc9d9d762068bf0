import Verif.Ctc.Deriv
import Verif.Tube.Examples
import Verif.Props.Integral

/-!
# C18: `CtcDeriv` loses no solution of `x' = v`

A trajectory `f` satisfies the constraint with `v` when its slopes between two instants of a slice are in the
envelope of the slice of `v` (`Tube.SlopeIn`); over the reals this holds for every differentiable `f` whose
derivative is a signal of `v` (`C13_primitive_slope`).
-/

set_option linter.unusedSectionVars false

namespace Codac.Props
open Codac Codac.Ex

section
variable {K : Type*} [Field K] [LinearOrder K] [IsStrictOrderedRing K]

/-- `BOUNDED_INFINITY`, the largest float (geometry/codac_ThickPoint.h:30) -/
def floatMax : ℚ := 340282346638528859811704183484516925440

theorem derivTube_eq_some {A : IArith K} {B : K} {R : Itv K} {fw bw : Bool} {x v x' : Tube K}
    (h : derivTube A B R fw bw x v = some x') :
    SameB x v ∧ x' = (if bw then (List.range x.nbSlices).reverse else []).foldl
      (fun T k => T.upd k (derivSlice A B R (v.codAt k)))
      ((if fw then List.range x.nbSlices else []).foldl (fun T k => T.upd k (derivSlice A B R (v.codAt k))) x) := by
  unfold derivTube at h
  by_cases hc : x.t0 = v.t0 ∧ x.tf = v.tf ∧ x.sameSlicing v = true
  swap
  · rw [if_neg hc] at h; cases h
  rw [if_pos hc] at h
  simp only [Option.some.injEq] at h
  refine ⟨sameSlicing_iff.mp hc.2.2, ?_⟩
  rw [← h]
  cases fw <;> cases bw <;> rfl

/-- **C18** (part): for any combination of forward and backward propagation, any restricted time domain, any outward
arithmetic, a trajectory of `[x]` whose derivative is in `[v]` and which is bounded by `BOUNDED_INFINITY` is still in
`[x]` after the contraction.  The full property has no bound on the trajectory: see
`C18_beyond_bounded_infinity_fails`. -/
theorem C18_deriv_sound_partial {A : IArith K} {B : K} {R : Itv K} {fw bw : Bool} {x v x' : Tube K} (hx : x.WF)
    (hg : x.GatesInEnvelopes) (h : derivTube A B R fw bw x v = some x') {f : K → K} (hf : x.Encloses f)
    (hv : v.SlopeIn f) (hB : ∀ t, x.t0 ≤ t → t ≤ x.tf → -B ≤ f t ∧ f t ≤ B) :
    x'.WF ∧ x'.GatesInEnvelopes ∧ x'.Encloses f := by
  obtain ⟨hs, rfl⟩ := derivTube_eq_some h
  have hgc : ∀ k p n s, LocalGC p n s → LocalGC p n (derivSlice A B R (v.codAt k) p n s) :=
    fun k p n s h => derivSlice_gc h
  have hu : ∀ k p n s, (x.cells.map (fun c => (c.lb, c.ub)))[k]? = some (s.lb, s.ub) → s.lb < s.ub →
      LocalGC p n s → s.Encloses f →
      (Slice.mk s.lb s.ub (derivSlice A B R (v.codAt k) p n s).cod (derivSlice A B R (v.codAt k) p n s).inG
        (derivSlice A B R (v.codAt k) p n s).outG).Encloses f := by
    intro k p n s hb hlt hl he
    refine derivSlice_encloses hlt hl he (codAt_slope hv (by rw [← hs]; exact hb)) ?_
    intro t h0 h1
    rw [← Tube.slices_bounds, List.getElem?_map] at hb
    cases hs' : x.slices[k]? with
    | none => rw [hs'] at hb; cases hb
    | some s' =>
      rw [hs'] at hb
      simp only [Option.map_some, Option.some.injEq, Prod.mk.injEq] at hb
      have := hx.tiles.mem_bounds (List.mem_of_getElem? hs')
      exact hB t (le_trans this.1 (hb.1 ▸ h0)) (le_trans h1 (hb.2 ▸ this.2.2))
  have i1 := foldl_upd_inv (fun k => derivSlice A B R (v.codAt k)) (if fw then List.range x.nbSlices else []) hx
  have g1 := foldl_upd_gc (fun k => derivSlice A B R (v.codAt k)) hgc (if fw then List.range x.nbSlices else []) hg
  have i2 := foldl_upd_inv (fun k => derivSlice A B R (v.codAt k)) (if bw then (List.range x.nbSlices).reverse else []) i1.1
  have g2 := foldl_upd_gc (fun k => derivSlice A B R (v.codAt k)) hgc
    (if bw then (List.range x.nbSlices).reverse else []) g1
  refine ⟨i2.1, g2, ?_⟩
  refine foldl_upd_encloses (bs := x.cells.map (fun c : Cell K => (c.lb, c.ub))) hgc hu _ i1.1 g1 i1.2.2.2 ?_
  exact foldl_upd_encloses (bs := x.cells.map (fun c : Cell K => (c.lb, c.ub))) hgc hu _ hx hg rfl hf

/-- **C18** (part): the contraction only removes trajectories, slice by slice, when the finite bounds of `[x]` are
strictly between `±BOUNDED_INFINITY`; see `C18_contract_enlarges_fails` for the other case. -/
theorem C18_deriv_contracts_partial {A : IArith K} {B : K} {R : Itv K} {fw bw : Bool} {x v x' : Tube K}
    (hB : ∀ s ∈ x.slices, Tame B s.cod ∧ Tame B s.inG ∧ Tame B s.outG)
    (h : derivTube A B R fw bw x v = some x') : x'.Below x ∧ ∀ f, x'.Encloses f → x.Encloses f := by
  have : x'.Below x := by
    obtain ⟨-, rfl⟩ := derivTube_eq_some h
    have hu : ∀ k p n s s0, x.slices[k]? = some s0 → s.Below s0 →
        (derivSlice A B R (v.codAt k) p n s).cod ≤ s0.cod ∧ (derivSlice A B R (v.codAt k) p n s).inG ≤ s0.inG ∧
          (derivSlice A B R (v.codAt k) p n s).outG ≤ s0.outG := by
      intro k p n s s0 hs hb
      have := hB s0 (List.mem_of_getElem? hs)
      exact derivSlice_le p n hb this.1 this.2.1 this.2.2
    exact foldl_upd_below _ _ hu (foldl_upd_below _ _ hu (Tube.Below.refl x))
  exact ⟨this, fun f => this.encloses⟩

/-- **C18** over the reals: every trajectory of `[x]`, continuous, differentiable inside the slices, with derivative a
signal of `[v]`, bounded by `BOUNDED_INFINITY`, is kept. -/
theorem C18_deriv_real_partial {A : IArith ℝ} {B : ℝ} {R : Itv ℝ} {fw bw : Bool} {x v x' : Tube ℝ} (hx : x.WF)
    (hvw : v.WF) (hg : x.GatesInEnvelopes) (h : derivTube A B R fw bw x v = some x') {f w : ℝ → ℝ} (hf : x.Encloses f)
    (hw : v.Encloses w) (hc : ContinuousOn f (Set.Icc v.t0 v.tf))
    (hd : ∀ s ∈ v.slices, ∀ t, s.lb < t → t < s.ub → HasDerivAt f (w t) t)
    (hB : ∀ t, x.t0 ≤ t → t ≤ x.tf → -B ≤ f t ∧ f t ≤ B) : x'.Encloses f :=
  (C18_deriv_sound_partial hx hg h hf (C13_primitive_slope hvw hw hc hd) hB).2.2

/-- `contract_gates` on a slice: no trajectory is lost, without any bound, and only gates are contracted -/
theorem C18_contract_gates {A : IArith K} {v : Tube K} {k : Nat} {x : Tube K} (hx : x.WF) (hg : x.GatesInEnvelopes)
    (hs : SameB x v) {f : K → K} (hf : x.Encloses f) (hv : v.SlopeIn f) :
    (x.upd k (derivGates A (v.codAt k))).Encloses f := by
  refine upd_encloses hx hg ?_ hf
  intro p n s hk hl he
  refine derivGates_encloses (hx.tiles.mem_bounds (List.mem_of_getElem? hk)).2.1 hl he (codAt_slope hv ?_)
  rw [← hs, ← Tube.slices_bounds, List.getElem?_map, hk]; rfl
end

/-! ### Concrete cases -/

/-- derivatives for the tube `Ex.T` -/
def derivV : Tube ℚ where
  t0 := 0
  tf := 4
  g0 := I (1/2) 1
  cells := [⟨0, 1, I (1/2) 1, I (1/2) 1⟩, ⟨1, 2, I (1/2) 3, I 1 1⟩, ⟨2, 4, I 0 1, I 0 1⟩]

theorem derivV_slope : derivV.SlopeIn (fun t => t) := by
  intro s hs
  have : s = ⟨0, 1, I (1/2) 1, I (1/2) 1, I (1/2) 1⟩ ∨ s = ⟨1, 2, I (1/2) 3, I (1/2) 1, I 1 1⟩ ∨
      s = ⟨2, 4, I 0 1, I 1 1, I 0 1⟩ := by
    simpa [derivV, Tube.slices, slicesFrom] using hs
  rcases this with rfl | rfl | rfl <;> intro m t _ _ _ <;> exact ⟨1, by decide +kernel, by ring⟩

/-- a loose tube around the identity: only the first gate is known -/
def derivX : Tube ℚ where
  t0 := 0
  tf := 4
  g0 := I 0 1
  cells := [⟨0, 1, I (-10) 10, I (-10) 10⟩, ⟨1, 2, I (-10) 10, I (-10) 10⟩, ⟨2, 4, I (-10) 10, I (-10) 10⟩]

theorem derivX_slices {s : Slice ℚ} (hs : s ∈ derivX.slices) :
    s = ⟨0, 1, I (-10) 10, I 0 1, I (-10) 10⟩ ∨ s = ⟨1, 2, I (-10) 10, I (-10) 10, I (-10) 10⟩ ∨
      s = ⟨2, 4, I (-10) 10, I (-10) 10, I (-10) 10⟩ := by
  simpa [derivX, Tube.slices, slicesFrom] using hs

theorem tame_icc {B a b : ℚ} (h : a ≤ b) (h1 : -B < a) (h2 : b < B) : Tame B (I a b) := by
  rw [I, Itv.icc_eq_mk h]
  constructor
  · intro c hc
    have : some a = some c := hc
    injection this with this
    rw [← this]; exact h1
  · intro c hc
    have : some b = some c := hc
    injection this with this
    rw [← this]; exact h2

/-- the hypotheses of the theorems are met by `x = derivX`, `v = derivV` and the identity -/
example : derivX.WF ∧ derivX.GatesInEnvelopes ∧ derivX.Encloses (fun t => t) ∧
    derivV.SlopeIn (fun t => t) ∧ (∀ t, derivX.t0 ≤ t → t ≤ derivX.tf → -floatMax ≤ t ∧ t ≤ floatMax) ∧
    (∀ s ∈ derivX.slices, Tame floatMax s.cod ∧ Tame floatMax s.inG ∧ Tame floatMax s.outG) := by
  refine ⟨⟨by simp [derivX], by simp [derivX, Tiles]; norm_num⟩, ?_, ?_, derivV_slope, ?_, ?_⟩
  · intro s hs
    rcases derivX_slices hs with rfl | rfl | rfl <;> decide +kernel
  · intro s hs
    rcases derivX_slices hs with rfl | rfl | rfl <;> refine ⟨by decide +kernel, by decide +kernel, ?_⟩ <;>
      intro t h1 h2 <;> simp at h1 h2 ⊢ <;> constructor <;> linarith
  · intro t h0 h1
    simp only [derivX, floatMax] at *
    constructor <;> linarith
  · intro s hs
    have h1 : Tame floatMax (I (-10) 10) := tame_icc (by norm_num) (by norm_num [floatMax]) (by norm_num [floatMax])
    have h2 : Tame floatMax (I 0 1) := tame_icc (by norm_num) (by norm_num [floatMax]) (by norm_num [floatMax])
    rcases derivX_slices hs with rfl | rfl | rfl
    · exact ⟨h1, h2, h1⟩
    · exact ⟨h1, h1, h1⟩
    · exact ⟨h1, h1, h1⟩

/-- on this case the contraction is effective: the first gate is propagated -/
example : (derivTube (IArith.exact ℚ) floatMax ⊤ true true derivX derivV) =
    some { t0 := 0, tf := 4, g0 := I 0 1,
           cells := [⟨0, 1, I 0 2, I (1/2) 2⟩, ⟨1, 2, I (1/2) 5, I 1 5⟩, ⟨2, 4, I 1 7, I 1 7⟩] } := by decide +kernel

/-- a derivative that is only known to be non-negative contracts the envelope: the trajectories are increasing, from the input gate to the
output gate -/
example : (derivTube (IArith.exact ℚ) floatMax ⊤ true true ⟨0, 1, I 1 3, [⟨0, 1, I (-10) 10, I 2 5⟩]⟩
    ⟨0, 1, .ofBounds (some 0) none, [⟨0, 1, .ofBounds (some 0) none, .ofBounds (some 0) none⟩]⟩) =
    some ⟨0, 1, I 1 3, [⟨0, 1, I 1 5, I 2 5⟩]⟩ := by decide +kernel

/-- the same for a derivative with an upper bound only -/
example : (derivTube (IArith.exact ℚ) floatMax ⊤ true true ⟨0, 2, I 1 3, [⟨0, 2, I (-10) 10, I 2 5⟩]⟩
    ⟨0, 2, .ofBounds none (some 1), [⟨0, 2, .ofBounds none (some 1), .ofBounds none (some 1)⟩]⟩) =
    some ⟨0, 2, I 1 3, [⟨0, 2, I 0 5, I 2 5⟩]⟩ := by decide +kernel

/-- one slice `[0,2]`, values in `[0,+∞]`, starting from 0 -/
def derivBig : Tube ℚ := ⟨0, 2, I 0 0, [⟨0, 2, .ofBounds (some 0) none, .ofBounds (some 0) none⟩]⟩
/-- derivative `BOUNDED_INFINITY` on `[0,2]` -/
def derivBigV : Tube ℚ := ⟨0, 2, I floatMax floatMax, [⟨0, 2, I floatMax floatMax, I floatMax floatMax⟩]⟩

/-- A trajectory exceeding `BOUNDED_INFINITY` (here `t ↦ t * BOUNDED_INFINITY` on `[0,2]`, whose values are ordinary
doubles) is lost: the envelope is clipped at `BOUNDED_INFINITY` (codac_CtcDeriv.cpp:179). -/
theorem C18_beyond_bounded_infinity_fails :
    ∃ (x v x' : Tube ℚ) (f : ℚ → ℚ), x.WF ∧ x.GatesInEnvelopes ∧ x.Encloses f ∧ v.SlopeIn f ∧
      derivTube (IArith.exact ℚ) floatMax ⊤ true true x v = some x' ∧ ¬ x'.Encloses f := by
  refine ⟨derivBig, derivBigV, (derivTube (IArith.exact ℚ) floatMax ⊤ true true derivBig derivBigV).getD derivBig,
    fun t => t * floatMax, ⟨by simp [derivBig], by simp [derivBig, Tiles]⟩, ?_, ?_, ?_, by decide +kernel, ?_⟩
  · intro s hs
    have : s = ⟨0, 2, .ofBounds (some 0) none, I 0 0, .ofBounds (some 0) none⟩ := by
      simpa [derivBig, Tube.slices, slicesFrom] using hs
    subst this; decide +kernel
  · intro s hs
    have : s = ⟨0, 2, .ofBounds (some 0) none, I 0 0, .ofBounds (some 0) none⟩ := by
      simpa [derivBig, Tube.slices, slicesFrom] using hs
    subst this
    refine ⟨by decide +kernel, by decide +kernel, ?_⟩
    intro t h0 _
    rw [Itv.mem_ofBounds]
    refine ⟨?_, trivial⟩
    simp only [loLe_some] at *
    have : (0:ℚ) ≤ floatMax := by norm_num [floatMax]
    exact mul_nonneg h0.le this
  · intro s hs
    have : s = ⟨0, 2, I floatMax floatMax, I floatMax floatMax, I floatMax floatMax⟩ := by
      simpa [derivBigV, Tube.slices, slicesFrom] using hs
    subst this
    intro m t _ _ _
    exact ⟨floatMax, by simp, by ring⟩
  · have e : ((derivTube (IArith.exact ℚ) floatMax ⊤ true true derivBig derivBigV).getD derivBig).g0 = ⊥ := by
      decide +kernel
    intro hf
    have hne : ((derivTube (IArith.exact ℚ) floatMax ⊤ true true derivBig derivBigV).getD derivBig).slices.head?.map
        (fun s => (s.lb, s.inG)) = some (0, ⊥) := by decide +kernel
    cases hs : ((derivTube (IArith.exact ℚ) floatMax ⊤ true true derivBig derivBigV).getD derivBig).slices with
    | nil => rw [hs] at hne; cases hne
    | cons s ss =>
      have h1 := (hf s (by rw [hs]; simp)).1
      rw [hs] at hne
      simp only [List.head?_cons, Option.map_some, Option.some.injEq, Prod.mk.injEq] at hne
      rw [hne.2] at h1
      exact Itv.not_mem_bot _ h1

/-- Contraction may enlarge: an envelope with a finite bound at or beyond `BOUNDED_INFINITY` becomes unbounded
(codac_CtcDeriv.cpp:179,191). -/
theorem C18_contract_enlarges_fails :
    ∃ (x v x' : Tube ℚ), x.WF ∧ x.GatesInEnvelopes ∧
      derivTube (IArith.exact ℚ) floatMax ⊤ true true x v = some x' ∧ ¬ x'.Below x := by
  refine ⟨⟨0, 1, I 0 floatMax, [⟨0, 1, I 0 floatMax, I 0 floatMax⟩]⟩, ⟨0, 1, ⊤, [⟨0, 1, ⊤, ⊤⟩]⟩,
    ⟨0, 1, .ofBounds (some 0) none, [⟨0, 1, .ofBounds (some 0) none, .ofBounds (some 0) none⟩]⟩,
    ⟨by simp, by simp [Tiles]⟩, ?_, by decide +kernel, ?_⟩
  · intro s hs
    have : s = ⟨0, 1, I 0 floatMax, I 0 floatMax, I 0 floatMax⟩ := by
      simpa [Tube.slices, slicesFrom] using hs
    subst this; decide +kernel
  · intro h
    exact absurd h.g0 (by decide +kernel)

end Codac.Props
