import Verif.Robotics.LissLoad
import Verif.Props.Lissajous
import Verif.Props.FromFun
import Verif.Props.VecParts
import Verif.Props.VecBuild
import Verif.Props.Redermor

/-!
# C153: the tubes of the Lissajous data set
-/

set_option linter.unusedSectionVars false

namespace Codac.Props
open Codac TuVec Codac.Liss

/-- the components of the curve -/
noncomputable def lissComp (i : Nat) (t : ℝ) : ℝ := if i = 0 then (lissCurve t).1 else if i = 1 then (lissCurve t).2.1 else (lissCurve t).2.2

/-- the components of its velocity -/
noncomputable def lissVel (i : Nat) (t : ℝ) : ℝ := if i = 0 then (lissDot t).1 else (lissDot t).2

theorem vOfStepFun_vec {t0 tf step : ℝ} (h : t0 < tf) (hs : 0 < step) {m : Nat} (hm : m ≠ 0) {g : Nat → ℝ → ℝ} {E : Nat → Itv ℝ → Itv ℝ} {F : Nat → Box ℝ → Itv ℝ} (hF : TimeFun m g E F) :
    ∃ (ys : List (Tube ℝ)) (T : Tube ℝ), (∃ n, ∀ fuel ≥ n, vOfStepFun (· + ·) (tf - t0) fuel F m t0 tf step = some ys ∧ Tube.ofStep (· + ·) (tf - t0) fuel t0 tf step ⊤ = some T) ∧
      VecOver ys m t0 tf ∧ Sliced ys (T.slices.map fun s => (s.lb, s.ub)) ∧ (∀ p ∈ T.slices.map (fun s => (s.lb, s.ub)), p.2 - p.1 ≤ step) ∧ InVector ys g ∧
      ∀ (i : Nat) (Y : Tube ℝ), ys[i]? = some Y → ∀ s ∈ Y.slices, s.cod = E i (Itv.icc s.lb s.ub) ∧ s.inG = E i (Itv.point s.lb) ∧ s.outG = E i (Itv.point s.ub) := by
  obtain ⟨ys, _, ⟨n, hn⟩, hl, hy⟩ := C122_from_step_vector h hs.le hm hF
  obtain ⟨T, ⟨n', hn'⟩, -⟩ := C01_tube_from_step h hs.le (⊤ : Itv ℝ)
  have key : ∀ (i : Nat) (Y : Tube ℝ), ys[i]? = some Y → TubeOfFun (g i) (E i) T Y ∧ Y.t0 = t0 ∧ Y.tf = tf ∧ ∀ s ∈ Y.slices, s.ub - s.lb ≤ step := by
    intro i Y hY
    have hi : i < m := hl ▸ (List.getElem?_eq_some_iff.mp hY).1
    obtain ⟨Y', e1, -, k, hk⟩ := hy i hi
    rw [hY] at e1; cases e1
    obtain ⟨T', Y', ⟨k', hk'⟩, q1, q2, q3, -⟩ := C122_from_step h hs.le hi hF
    obtain ⟨r1, r2⟩ := hk' (max k (max k' n')) (by omega)
    have r3 := hk (max k (max k' n')) (by omega)
    have r4 := hn' (max k (max k' n')) (by omega)
    rw [r3] at r2; cases r2
    rw [r4] at r1; cases r1
    obtain ⟨w1, w2⟩ := tiles_ends q1.wf.ne q1.wf.tiles q2
    exact ⟨q1, w1, w2, q3 hs⟩
  have hsl : Sliced ys (T.slices.map fun s => (s.lb, s.ub)) := fun Y hY => by
    obtain ⟨i, hi⟩ := List.mem_iff_getElem?.mp hY
    exact (key i Y hi).1.same
  refine ⟨ys, T, ⟨max n n', fun fuel hf => ⟨hn fuel (by omega), hn' fuel (by omega)⟩⟩, vecOver_of hl (Nat.pos_of_ne_zero hm) fun i Y hY => ⟨(key i Y hY).1.wf, (key i Y hY).2.1, (key i Y hY).2.2.1⟩,
    hsl, fun p hp => ?_, fun i Y hY => (key i Y hY).1.encl, fun i Y hY => (key i Y hY).1.vals⟩
  obtain ⟨Y, hY⟩ : ∃ Y, ys[0]? = some Y := ⟨_, List.getElem?_eq_getElem (by omega)⟩
  rw [← (key 0 Y hY).1.same] at hp
  obtain ⟨s, hs', rfl⟩ := List.mem_map.mp hp
  exact (key 0 Y hY).2.2.2 s hs'

/-- **C153** (part; missing: slices of the time step which is asked, see `C153_step_fails`): over every temporal domain, for every sound evaluation of the two functions and every time step which is asked, the loading ends; the state contains the curve and the
tubes of the velocities contain all the signals within 0.1 of the derivatives of the positions; the five tubes have the same slices, of at most 0.01; their values are the evaluations of
the functions over the slices, with the uncertainty of 0.1 for the velocities -/
theorem C153_load_partial (A : IArith ℝ) {t0 tf : ℝ} (h : t0 < tf) {E Ed : Nat → Itv ℝ → Itv ℝ} {F Fd : Nat → Box ℝ → Itv ℝ} (hF : TimeFun 3 lissComp E F) (hFd : TimeFun 2 lissVel Ed Fd) (step : ℝ) :
    ∃ (x v : List (Tube ℝ)) (P : List (ℝ × ℝ)), (∃ n, ∀ fuel ≥ n, load A (· + ·) (tf - t0) fuel F Fd t0 tf step = some (x, v)) ∧
      VecOver x 3 t0 tf ∧ VecOver v 2 t0 tf ∧ Sliced x P ∧ Sliced v P ∧ (∀ p ∈ P, p.2 - p.1 ≤ 1 / 100) ∧
      InVector x lissComp ∧ (∀ i < 2, ∀ t, HasDerivAt (lissComp i) (lissVel i t) t) ∧
      (∀ k : Nat → ℝ → ℝ, (∀ i < 2, ∀ t, |k i t - lissVel i t| ≤ 1 / 10) → InVector v k) ∧
      (∀ (i : Nat) (Y : Tube ℝ), x[i]? = some Y → ∀ s ∈ Y.slices, s.cod = E i (Itv.icc s.lb s.ub) ∧ s.inG = E i (Itv.point s.lb) ∧ s.outG = E i (Itv.point s.ub)) ∧
      ∀ (i : Nat) (Y : Tube ℝ), v[i]? = some Y → ∀ s ∈ Y.slices, s.cod = A.add (Ed i (Itv.icc s.lb s.ub)) (Itv.icc (-(1 / 10)) (1 / 10)) ∧
        s.inG = A.add (Ed i (Itv.point s.lb)) (Itv.icc (-(1 / 10)) (1 / 10)) ∧ s.outG = A.add (Ed i (Itv.point s.ub)) (Itv.icc (-(1 / 10)) (1 / 10)) := by
  obtain ⟨x, T, ⟨n, hn⟩, a1, a2, a3, a4, a5⟩ := vOfStepFun_vec h (by norm_num : (0 : ℝ) < 1 / 100) (by norm_num) hF
  obtain ⟨v, T', ⟨n', hn'⟩, b1, b2, -, b4, b5⟩ := vOfStepFun_vec h (by norm_num : (0 : ℝ) < 1 / 100) (by norm_num) hFd
  obtain ⟨y, c1, c2, c3⟩ := C144_inflate_number A b1 (by norm_num : (0 : ℝ) ≤ 1 / 10)
  have hT : T = T' := by
    have r1 := (hn (max n n') (by omega)).2
    have r2 := (hn' (max n n') (by omega)).2
    rw [r1] at r2
    exact Option.some.inj r2
  subst hT
  have hy : ∀ (i : Nat) (Y : Tube ℝ), y[i]? = some Y → ∃ X, v[i]? = some X ∧ Y.slices = X.slices.map fun s => ⟨s.lb, s.ub, A.add s.cod (Itv.icc (-(1 / 10)) (1 / 10)),
      A.add s.inG (Itv.icc (-(1 / 10)) (1 / 10)), A.add s.outG (Itv.icc (-(1 / 10)) (1 / 10))⟩ := by
    intro i Y hi
    unfold inflateNum inflate at c1
    split_ifs at c1
    cases c1
    obtain ⟨X, r, hX, hr, rfl⟩ := zipWith_get hi
    have er := List.eq_of_mem_replicate (List.mem_iff_getElem?.mpr ⟨i, hr⟩)
    subst er
    exact ⟨X, hX, mapWith_slices _ _ (b1.get hX).1⟩
  refine ⟨x, y, _, ⟨max n n', fun fuel hf => ?_⟩, a1, c2, a2, fun Y hY => ?_, a3, a4, fun i hi t => ?_, fun k hk => c3 lissVel k b4 hk, a5, fun i Y hY s hs => ?_⟩
  · unfold load
    rw [(hn fuel (by omega)).1, Option.bind_some, (hn' fuel (by omega)).1, Option.bind_some, c1, Option.map_some]
  · obtain ⟨i, hi⟩ := List.mem_iff_getElem?.mp hY
    obtain ⟨X, hX, e⟩ := hy i Y hi
    rw [e, List.map_map]
    exact b2 X (List.mem_iff_getElem?.mpr ⟨i, hX⟩)
  · obtain ⟨d1, d2, -⟩ := C141_derivative t
    interval_cases i
    · exact d1
    · exact d2
  · obtain ⟨X, hX, e⟩ := hy i Y hY
    rw [e] at hs
    obtain ⟨s', hs', rfl⟩ := List.mem_map.mp hs
    obtain ⟨e1, e2, e3⟩ := b5 i X hX s' hs'
    simp only [e1, e2, e3, and_self]

/-- **C153** fails for the time step: whatever the one which is asked, the slices are the same; here one slice of 0.01 although slices of 0.001 are asked -/
theorem C153_step_fails : (∀ (A : IArith ℚ) (fuel : Nat) (F Fd : Nat → Box ℚ → Itv ℚ) (t0 tf s s' : ℚ), load A (· + ·) (tf - t0) fuel F Fd t0 tf s = load A (· + ·) (tf - t0) fuel F Fd t0 tf s') ∧
    ∃ (F : Nat → Box ℚ → Itv ℚ) (x v : List (Tube ℚ)), load (IArith.exact ℚ) (· + ·) (1 / 100) 5 F F 0 (1 / 100) (1 / 1000) = some (x, v) ∧ Sliced x [(0, 1 / 100)] :=
  ⟨fun _ _ _ _ _ _ _ _ => rfl, fun _ _ => Itv.point 0, List.replicate 3 ⟨0, 1 / 100, Itv.point 0, [⟨0, 1 / 100, Itv.point 0, Itv.point 0⟩]⟩,
    List.replicate 2 ⟨0, 1 / 100, Itv.icc (-1 / 10) (1 / 10), [⟨0, 1 / 100, Itv.icc (-1 / 10) (1 / 10), Itv.icc (-1 / 10) (1 / 10)⟩]⟩, by decide +kernel, by
      intro T hT
      rw [(List.mem_replicate.mp hT).2]
      decide +kernel⟩

/-! ### Concrete cases -/

/-- an evaluation of the functions by bounds of the sine and of the cosine, without information on the heading -/
noncomputable def lissBnd (i : Nat) (_ : Itv ℝ) : Itv ℝ := if i < 2 then Itv.icc (-240) 240 else ⊤

example : TimeFun 3 lissComp lissBnd (fun i _ => lissBnd i ⊤) ∧ TimeFun 2 lissVel lissBnd (fun i _ => lissBnd i ⊤) := by
  refine ⟨fun i hi => ⟨fun _ _ => rfl, fun _ t _ => ?_⟩, fun i hi => ⟨fun _ _ => rfl, fun _ t _ => ?_⟩⟩
  · interval_cases i
    · simp only [lissComp, lissBnd, lissCurve, if_true, Nat.ofNat_pos, Itv.mem_icc]
      constructor <;> nlinarith [Real.cos_le_one t, Real.neg_one_le_cos t]
    · simp only [lissComp, lissBnd, lissCurve, if_true, one_ne_zero, if_false, Nat.one_lt_ofNat, Itv.mem_icc]
      constructor <;> nlinarith [Real.sin_le_one (2 * t), Real.neg_one_le_sin (2 * t)]
    · exact Itv.mem_top _
  · interval_cases i
    · simp only [lissVel, lissBnd, lissDot, if_true, Nat.ofNat_pos, Itv.mem_icc]
      constructor <;> nlinarith [Real.sin_le_one t, Real.neg_one_le_sin t]
    · simp only [lissVel, lissBnd, lissDot, if_true, one_ne_zero, if_false, Nat.one_lt_ofNat, Itv.mem_icc]
      constructor <;> nlinarith [Real.cos_le_one (2 * t), Real.neg_one_le_cos (2 * t)]

end Codac.Props
