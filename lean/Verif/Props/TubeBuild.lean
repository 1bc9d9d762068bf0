import Verif.Tube.Build
import Verif.Tube.Examples
import Mathlib.Algebra.Order.Archimedean.Basic
import Mathlib.Algebra.Order.Floor.Ring
import Mathlib.Data.Rat.Floor
import Mathlib.Order.Fin.Basic

/-!
# C01: tubes built from a time step
-/

namespace Codac.Props
open Codac

section exact
variable {K : Type*} [Field K] [LinearOrder K] [IsStrictOrderedRing K] [Archimedean K]

/-- `Tube(tdomain, timestep, codomain)` in exact arithmetic: the construction terminates (enough iterations exist,
and more do not change the result); the tube has the time domain `[t0,tf]`, its slices tile it, none is longer
than the time step and all but the last one have exactly that length, all envelopes and gates are the codomain.
A null time step stands for the length of the time domain. -/
theorem C01_tube_from_step {t0 tf step : K} (h : t0 < tf) (hstep : 0 ≤ step) (cod : Itv K) :
    ∃ T : Tube K, (∃ n, ∀ fuel ≥ n, Tube.ofStep (· + ·) (tf - t0) fuel t0 tf step cod = some T) ∧
      T.t0 = t0 ∧ T.tf = tf ∧ T.WF ∧
      (∀ s ∈ T.slices, s.cod = cod ∧ s.inG = cod ∧ s.outG = cod) ∧
      (0 < step → ∀ s ∈ T.slices, s.ub - s.lb ≤ step) ∧
      (0 < step → ∀ s ∈ T.slices.dropLast, s.ub - s.lb = step) ∧
      (step = 0 → T.nbSlices = 1) := by
  set st := if step = 0 then tf - t0 else step with hst
  have hst0 : 0 < st := by
    rw [hst]; split_ifs with h0
    · linarith
    · exact lt_of_le_of_ne hstep (Ne.symm h0)
  obtain ⟨n, cs, hn⟩ := buildCells_total (tf := tf) hst0 t0
  obtain ⟨g0, g1, g2, g3, g4⟩ := buildCells_spec hst0 h hn
  have hT : (if cod = ⊤ then (⟨t0, tf, ⊤, cs⟩ : Tube K) else (⟨t0, tf, ⊤, cs⟩ : Tube K).set cod) =
      ⟨t0, tf, cod, constCells cod cs⟩ := by
    split_ifs with hc
    · subst hc
      congr 1
      rw [constCells]
      conv_lhs => rw [← List.map_id cs]
      apply List.map_congr_left
      intro c hc
      obtain ⟨e1, e2⟩ := g4 c hc
      cases c; simp_all
    · rw [set_eq g0]
  have hb : (constCells cod cs).map (fun c => (c.lb, c.ub)) = cs.map (fun c => (c.lb, c.ub)) := constCells_bounds _ _
  have hsl : (slicesFrom cod (constCells cod cs)).map (fun s => (s.lb, s.ub)) = cs.map (fun c => (c.lb, c.ub)) := by
    rw [slicesFrom_bounds, hb]
  refine ⟨⟨t0, tf, cod, constCells cod cs⟩, ⟨n, ?_⟩, rfl, rfl, ⟨by simpa [constCells] using g0, (tiles_of_bounds hb).mpr g1⟩,
    fun s hs => mem_slices_const hs, ?_, ?_, ?_⟩
  · intro fuel hf
    simp only [Tube.ofStep, ← hst, buildCells_mono hn hf, Option.map_some, Option.some.injEq]
    exact hT
  · intro hp s hs
    have : (s.lb, s.ub) ∈ cs.map (fun c => (c.lb, c.ub)) := by
      rw [← hsl]; exact List.mem_map_of_mem (f := fun s : Slice K => (s.lb, s.ub)) hs
    obtain ⟨c, hc, e⟩ := List.mem_map.mp this
    rw [Prod.mk.injEq] at e
    have := g2 c hc
    rw [hst, if_neg (ne_of_gt hp), e.1, e.2] at this
    exact this
  · intro hp s hs
    have : (s.lb, s.ub) ∈ cs.dropLast.map (fun c => (c.lb, c.ub)) := by
      rw [List.map_dropLast, ← hsl, ← List.map_dropLast]
      exact List.mem_map_of_mem (f := fun s : Slice K => (s.lb, s.ub)) hs
    obtain ⟨c, hc, e⟩ := List.mem_map.mp this
    rw [Prod.mk.injEq] at e
    have := g3 c hc
    rw [hst, if_neg (ne_of_gt hp), e.1, e.2] at this
    exact this
  · intro h0
    have he : st = tf - t0 := by rw [hst, if_pos h0]
    have h1 : buildCells (· + ·) st tf 1 t0 = some [⟨t0, min (t0 + st) tf, ⊤, ⊤⟩] := by
      simp only [buildCells]
      rw [if_neg]
      rw [he, not_lt]; exact le_min (by linarith) (le_refl _)
    have h2 : cs = [⟨t0, min (t0 + st) tf, ⊤, ⊤⟩] := by
      have e1 := buildCells_mono hn (Nat.le_max_left n 1)
      have e2 := buildCells_mono h1 (Nat.le_max_right n 1)
      rw [e1] at e2; exact Option.some.inj e2
    subst h2
    rfl

end exact

/-- The same construction with machine numbers: `K` is the finite set of `double`s, `add` their rounded
addition. As long as adding the time step is never absorbed on the time domain, the construction terminates and the
slices tile the time domain; all but the last one end at the rounded sum. -/
theorem C01_machine_numbers {K : Type*} [LinearOrder K] [Finite K] [Zero K] (add : K → K → K) {t0 tf step diam : K}
    (h : t0 < tf) (hstep : step ≠ 0) (habs : ∀ t, t0 ≤ t → t < tf → t < add t step) (cod : Itv K) :
    ∃ T : Tube K, (∃ n, ∀ fuel ≥ n, Tube.ofStep add diam fuel t0 tf step cod = some T) ∧
      T.t0 = t0 ∧ T.tf = tf ∧ T.WF ∧
      (∀ s ∈ T.slices, s.cod = cod ∧ s.inG = cod ∧ s.outG = cod) ∧
      (∀ s ∈ T.slices, s.ub ≤ add s.lb step) ∧ (∀ s ∈ T.slices.dropLast, s.ub = add s.lb step) := by
  obtain ⟨n, cs, hn⟩ := buildCells_total_finite (add := add) (step := step) (tf := tf) t0 h habs
  obtain ⟨g0, g1, g2, g3, g4⟩ := buildCells_tiles habs h hn
  have hT : (if cod = ⊤ then (⟨t0, tf, ⊤, cs⟩ : Tube K) else (⟨t0, tf, ⊤, cs⟩ : Tube K).set cod) =
      ⟨t0, tf, cod, constCells cod cs⟩ := by
    split_ifs with hc
    · subst hc
      congr 1
      rw [constCells]
      conv_lhs => rw [← List.map_id cs]
      apply List.map_congr_left
      intro c hc
      obtain ⟨e1, e2⟩ := g4 c hc
      cases c; simp_all
    · rw [set_eq g0]
  have hb : (constCells cod cs).map (fun c => (c.lb, c.ub)) = cs.map (fun c => (c.lb, c.ub)) := constCells_bounds _ _
  have hsl : (slicesFrom cod (constCells cod cs)).map (fun s => (s.lb, s.ub)) = cs.map (fun c => (c.lb, c.ub)) := by
    rw [slicesFrom_bounds, hb]
  refine ⟨⟨t0, tf, cod, constCells cod cs⟩, ⟨n, ?_⟩, rfl, rfl, ⟨by simpa [constCells] using g0, (tiles_of_bounds hb).mpr g1⟩,
    fun s hs => mem_slices_const hs, ?_, ?_⟩
  · intro fuel hf
    simp only [Tube.ofStep, if_neg hstep, buildCells_mono hn hf, Option.map_some, Option.some.injEq]
    exact hT
  · intro s hs
    have : (s.lb, s.ub) ∈ cs.map (fun c => (c.lb, c.ub)) := by
      rw [← hsl]; exact List.mem_map_of_mem (f := fun s : Slice K => (s.lb, s.ub)) hs
    obtain ⟨c, hc, e⟩ := List.mem_map.mp this
    rw [Prod.mk.injEq] at e
    have := g2 c hc
    rw [e.1, e.2] at this
    exact this
  · intro s hs
    have : (s.lb, s.ub) ∈ cs.dropLast.map (fun c => (c.lb, c.ub)) := by
      rw [List.map_dropLast, ← hsl, ← List.map_dropLast]
      exact List.mem_map_of_mem (f := fun s : Slice K => (s.lb, s.ub)) hs
    obtain ⟨c, hc, e⟩ := List.mem_map.mp this
    rw [Prod.mk.injEq] at e
    have := g3 c hc
    rw [e.1, e.2] at this
    exact this

/-- Without that condition the construction does not terminate: whatever the number of iterations, it has not
produced the tube (as for `Tube(Interval(1e17,2e17), 1.)`, where `1e17 + 1. == 1e17`). -/
theorem C01_absorbed_step_fails {K : Type*} [LinearOrder K] [Zero K] (add : K → K → K) {t0 tf step diam : K}
    (h : t0 < tf) (hstep : step ≠ 0) (habs : add t0 step = t0) (cod : Itv K) (fuel : Nat) :
    Tube.ofStep add diam fuel t0 tf step cod = none := by
  simp [Tube.ofStep, hstep, buildCells_absorbed habs h]

/-- a concrete construction: `[0,1]` with time step `2/5` gives three slices, the last one shorter -/
example : Tube.ofStep (K := ℚ) (· + ·) 1 10 0 1 (2/5) (Ex.I 1 2) =
    some ⟨0, 1, Ex.I 1 2, [⟨0, 2/5, Ex.I 1 2, Ex.I 1 2⟩, ⟨2/5, 4/5, Ex.I 1 2, Ex.I 1 2⟩, ⟨4/5, 1, Ex.I 1 2, Ex.I 1 2⟩]⟩ := by
  decide +kernel

/-- a finite set of numbers with a saturated addition never absorbing a step of 2 below the end of the domain -/
example : ∀ t : Fin 10, (1 : Fin 10) ≤ t → t < 8 → t < (fun a b : Fin 10 => if a.val + b.val < 10 then a + b else 9) t 2 := by
  decide

/-- an addition (rounding down to integers) absorbing a step of one half -/
example : (fun a b : ℚ => ((⌊a + b⌋ : ℤ) : ℚ)) 0 (1/2) = 0 := by norm_num

end Codac.Props
