import Verif.Ctc.Restrict
import Verif.Props.Deriv
import Verif.Props.Static
import Verif.Props.Linobs
import Verif.Props.Delay

/-!
# Contractors with a restricted temporal domain: property C124

The statements use the evaluation `x(t)` of the tubes before and after the call.
-/

set_option linter.unusedSectionVars false

namespace Codac.Props
open Codac

section
variable {K : Type*} [LinearOrder K] [Field K] [IsStrictOrderedRing K]

/-- the instant `t` is away from `R`: no slice of `x` containing `t` has an instant of `R` -/
def AwayFrom (R : Itv K) (x : Tube K) (t : K) : Prop := ∀ s ∈ x.slices, s.lb ≤ t → t ≤ s.ub → ∀ u ∈ R, ¬ (s.lb ≤ u ∧ u ≤ s.ub)

theorem AwayFrom.apart {R : Itv K} {x : Tube K} {t : K} (h : AwayFrom R x t) : Apart R (x.slices.map fun s => (s.lb, s.ub)) t := by
  intro b hb h1 h2
  obtain ⟨s, hs, rfl⟩ := List.mem_map.mp hb
  rw [Bool.eq_false_iff]
  intro hi
  obtain ⟨u, hu1, hu2⟩ := Itv.intersects_iff.mp hi
  exact h s hs h1 h2 u hu2 (Itv.mem_icc.mp hu1)

/-- **C124**, `CtcDeriv`: the values of the tube away from the restricted temporal domain are not changed. -/
theorem C124_deriv {A : IArith K} {B : K} {R : Itv K} {fwd bwd : Bool} {x v x' : Tube K} (hx : x.WF) (h : derivTube A B R fwd bwd x v = some x') {t : K} (ht : AwayFrom R x t) :
    x'.evalAt t = x.evalAt t := derivTube_apart hx h ht.apart

/-- **C124**, `CtcStatic`: the same for each of the tubes, whatever the static contractor. -/
theorem C124_static {R : Itv K} {tmp : Bool} {ctc : List (Itv K) → List (Itv K)} {xs ys : List (Tube K)} (hx : ∀ x ∈ xs, x.WF) (h : staticContract R tmp ctc xs = some ys) {t : K}
    (ht : ∀ x ∈ xs, AwayFrom R x t) : List.Forall₂ (fun x y : Tube K => y.evalAt t = x.evalAt t) xs ys := by
  unfold staticContract at h
  cases xs with
  | nil => cases h
  | cons x l =>
    dsimp only at h
    split at h
    · rename_i hs
      injection h with h
      have hb : ∀ y ∈ x :: l, y.slices.map (fun s => (s.lb, s.ub)) = x.slices.map (fun s => (s.lb, s.ub)) := by
        intro y hy
        rcases List.mem_cons.mp hy with rfl | hy
        · rfl
        · have := sameSlicing_iff.mp (List.all_eq_true.mp hs y hy)
          rw [Tube.slices_bounds, Tube.slices_bounds]
          exact this.symm
      have h0 : SameAt t (x.slices.map fun s => (s.lb, s.ub)) (x :: l) (x :: l) := by
        unfold SameAt
        rw [List.forall₂_same]
        exact fun y hy => ⟨rfl, hx y hy, hb y hy⟩
      have := staticLoop_apart (tmp := tmp) (ctc := ctc) (ht x List.mem_cons_self).apart (x.slices.map fun s => (s.lb, s.ub)) 0 _ rfl h0
      rw [h] at this
      exact List.Forall₂.imp (fun _ _ h => h.1) this
    · cases h

theorem map_evalAt {φ : Itv K → Itv K} {T : Tube K} (h : T.WF) {t : K} (h1 : T.t0 ≤ t) (h2 : t ≤ T.tf) : (T.map φ).evalAt t = φ (T.evalAt t) := by
  obtain ⟨s, hs, a, b⟩ := h.exists_slice h1 h2
  have hm : (⟨s.lb, s.ub, φ s.cod, φ s.inG, φ s.outG⟩ : Slice K) ∈ (T.map φ).slices := by
    rw [Tube.map, mapWith_slices _ _ h]
    exact List.mem_map_of_mem hs
  rw [evalAt_of_slice h hs a b, evalAt_of_slice (map_wf h φ) hm a b]
  dsimp only
  split_ifs <;> rfl

/-- **C124**, `CtcLinobs` and `CtcChain` (partial): away from the restricted temporal domain the values are only clipped to the domain `C` of the contractor. Missing: they should not change at
all (`C124_linobs_fails`). -/
theorem C124_linobs_partial {P : Lin.Params K} {R C : Itv K} {fwd bwd : Bool} {obs : List (K × Poly.TPt K)} {x1 x2 u : Tube K} {σ : Lin.St K} (h1 : x1.WF) (h2 : x2.WF)
    (h : Lin.linobs P R C fwd bwd obs x1 x2 u = some σ) {t : K} (ht : AwayFrom R x1 t) (hd : x1.t0 ≤ t ∧ t ≤ x1.tf) (hd' : x2.t0 ≤ t ∧ t ≤ x2.tf) :
    σ.x1.evalAt t = x1.evalAt t ⊓ C ∧ σ.x2.evalAt t = x2.evalAt t ⊓ C := by
  unfold Lin.linobs at h
  split at h
  · rename_i hs
    dsimp only at h
    rw [Option.bind_eq_some_iff] at h
    obtain ⟨ps, _, h⟩ := h
    rw [Option.bind_eq_some_iff] at h
    obtain ⟨σ1, e1, e2⟩ := h
    have b1 : x1.slices.map (fun s => (s.lb, s.ub)) = u.slices.map (fun s => (s.lb, s.ub)) := by
      rw [Tube.slices_bounds, Tube.slices_bounds]; exact sameSlicing_iff.mp hs.1
    have b2 : x2.slices.map (fun s => (s.lb, s.ub)) = u.slices.map (fun s => (s.lb, s.ub)) := by
      rw [Tube.slices_bounds, Tube.slices_bounds]; exact sameSlicing_iff.mp hs.2
    have hmb : ∀ {T : Tube K}, T.WF → (T.map (· ⊓ C)).slices.map (fun s => (s.lb, s.ub)) = T.slices.map (fun s => (s.lb, s.ub)) := by
      intro T hT
      rw [Tube.map, mapWith_slices _ _ hT, List.map_map]; rfl
    have hap : Apart R (u.slices.map fun s => (s.lb, s.ub)) t := b1 ▸ ht.apart
    have s0 : Lin.StSame t (u.slices.map fun s => (s.lb, s.ub)) (x1.map (· ⊓ C)) (x2.map (· ⊓ C)) ⟨ps, x1.map (· ⊓ C), x2.map (· ⊓ C)⟩ :=
      ⟨⟨rfl, map_wf h1 (· ⊓ C), (hmb h1).trans b1⟩, ⟨rfl, map_wf h2 (· ⊓ C), (hmb h2).trans b2⟩⟩
    have s1 : Lin.StSame t (u.slices.map fun s => (s.lb, s.ub)) (x1.map (· ⊓ C)) (x2.map (· ⊓ C)) σ1 := by
      cases fwd with
      | false => injection e1 with e1; subst e1; exact s0
      | true => exact Lin.fwdLoop_same hap _ 0 _ _ rfl s0 e1
    have s2 : Lin.StSame t (u.slices.map fun s => (s.lb, s.ub)) (x1.map (· ⊓ C)) (x2.map (· ⊓ C)) σ := by
      cases bwd with
      | false => injection e2 with e2; subst e2; exact s1
      | true => exact Lin.bwdLoop_same hap _ 0 _ _ rfl s1 e2
    exact ⟨s2.1.1.trans (map_evalAt h1 hd.1 hd.2), s2.2.1.trans (map_evalAt h2 hd'.1 hd'.2)⟩
  · cases h

end

/-! ### What fails, and examples -/

/-- C124 fails for `CtcLinobs` and `CtcChain`: whatever the restricted temporal domain, the whole tubes are clipped to `[-9999,9999]`. -/
theorem C124_linobs_fails : ∃ (x v a : Tube ℚ) (R : Itv ℚ) (σ : Lin.St ℚ) (t : ℚ), x.WF ∧ x.t0 ≤ t ∧ t ≤ x.tf ∧ AwayFrom R x t ∧
    Lin.linobs (Lin.chain (Poly.ofThick (1 / 10 ^ 10)) (1 / 10 ^ 10)) R (.icc (-9999) 9999) true true [] x v a = some σ ∧ σ.x1.evalAt t ≠ x.evalAt t := by
  refine ⟨linT (.icc 0 20000) (.icc 0 20000) (.icc 0 20000), linT (.point 0) (.point 0) (.point 0), linT (.point 0) (.point 0) (.point 0), .icc 5 6, ?_⟩
  obtain ⟨σ, hσ, hg⟩ := Option.map_eq_some_iff.mp (show (Lin.linobs (Lin.chain (Poly.ofThick (1 / 10 ^ 10)) (1 / 10 ^ 10)) (.icc 5 6) (.icc (-9999) 9999) true true []
    (linT (.icc 0 20000) (.icc 0 20000) (.icc 0 20000)) (linT (.point 0) (.point 0) (.point 0)) (linT (.point 0) (.point 0) (.point 0))).map (fun σ => σ.x1.evalAt (1 / 2)) =
      some (.icc 0 9999) by decide +kernel)
  refine ⟨σ, 1 / 2, ⟨by simp [linT], by simp [linT, Codac.Tiles]⟩, by norm_num [linT], by norm_num [linT], ?_, hσ, ?_⟩
  · intro s hs _ _ u hu h
    simp only [linT, Tube.slices, slicesFrom_cons, slicesFrom_nil, List.mem_singleton] at hs
    subst hs
    have := (Itv.mem_icc.mp hu).1
    have := h.2
    dsimp only at this
    linarith
  · rw [hg]; decide +kernel

/-- C124 fails for `CtcDelay` (and `CtcPicard`, `CtcLohner`), which never read the restricted temporal domain: the function has no such argument, and here it changes the tube at the instant 1/2. -/
theorem C124_delay_fails : ∃ (a : Itv ℚ) (x y : Tube ℚ) (t : ℚ), x.WF ∧ x.t0 ≤ t ∧ t ≤ x.tf ∧ (delay (IArith.exact ℚ) a x y).2.1.evalAt t ≠ x.evalAt t :=
  ⟨.point 0, linT (.icc 0 2) (.icc 0 2) (.icc 0 2), linT (.icc 0 1) (.icc 0 1) (.icc 0 1), 1 / 2, ⟨by simp [linT], by simp [linT, Codac.Tiles]⟩, by norm_num [linT], by norm_num [linT], by decide +kernel⟩

theorem derivX_away : AwayFrom (.icc 0 (1 / 2)) derivX 3 := by
  intro s hs h1 h2 u hu h
  have hu := (Itv.mem_icc.mp hu).2
  rcases derivX_slices hs with rfl | rfl | rfl <;> dsimp only at * <;> linarith

/-- the contractor changes the tube where it is allowed to, and only there -/
example : ∃ x', derivTube (IArith.exact ℚ) floatMax (.icc 0 (1 / 2)) true true derivX derivV = some x' ∧ x'.evalAt 3 = derivX.evalAt 3 ∧ x'.evalAt (1 / 2) ≠ derivX.evalAt (1 / 2) := by
  obtain ⟨x', h1, h2⟩ := Option.map_eq_some_iff.mp (show (derivTube (IArith.exact ℚ) floatMax (.icc 0 (1 / 2)) true true derivX derivV).map (fun x' => decide (x'.evalAt (1 / 2) ≠ derivX.evalAt (1 / 2))) = some true by
    decide +kernel)
  exact ⟨x', h1, C124_deriv ⟨by simp [derivX], by simp [derivX, Codac.Tiles]; norm_num⟩ h1 derivX_away, by simpa using h2⟩

example : (staticContract (.icc 0 (1 / 2)) false (fun X => X.map (· ⊓ .icc 0 2)) [derivX]).map (fun ys => ys.map fun y => (y.evalAt (1 / 2), decide (y.evalAt 3 = derivX.evalAt 3))) = some [(.icc 0 2, true)] := by
  decide +kernel

end Codac.Props
