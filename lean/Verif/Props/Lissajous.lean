import Verif.Robotics.Lissajous
import Verif.Props.Observations
import Mathlib.Analysis.SpecialFunctions.Trigonometric.Deriv

/-!
# C141 — the Lissajous data set: observations and derivative
-/

set_option linter.unusedSectionVars false

namespace Codac.Props
open Codac Codac.Obs Codac.Liss

section
variable {K : Type*} [Field K] [LinearOrder K] [IsStrictOrderedRing K]
variable {S : Sensor K} {dist ang : K → K → K} {X Y : K → Itv K} {x y : K → K} {dt a b : K} {vr va : Itv K} {nb : Nat} {map : List (Beacon K)}

/-- C141: the generation ends after at most `nb_obs` instants, `a`, `a + (b-a)/nb_obs`, …, all those less than `b - dt`; the observations are those of the landmarks which
are seen at these instants, all of them, at most `nb_obs` for each landmark -/
theorem C141_observations (S : Sensor K) (X Y : K → Itv K) (x y : K → K) (hdt : 0 ≤ dt) (hab : a ≤ b) (vr va : Itv K) (map : List (Beacon K)) (nb : Nat) :
    ∃ r, observations S X Y x y dt vr va a b map nb (nb + 1) = some r ∧ r.length ≤ nb * map.length ∧
      ∀ o, o ∈ r ↔ ∃ k : Nat, k < nb ∧ a + k * ((b - a) / nb) < b - dt ∧ ∃ l ∈ map, o = observeT S X Y x y dt (a + k * ((b - a) / nb)) l ∧
        vr.intersects o.r = true ∧ va.intersects o.a = true := by
  unfold observations
  by_cases hn : nb = 0
  · subst hn
    exact ⟨[], by rw [if_pos rfl], by simp, fun o => by simp⟩
  have hnK : (nb : K) ≠ 0 := by exact_mod_cast hn
  have hs : 0 ≤ (b - a) / nb := div_nonneg (sub_nonneg.mpr hab) (Nat.cast_nonneg _)
  obtain ⟨m, hm, h1, h2⟩ := times_spec hs nb (t := a) (stop := b - dt) (by rw [mul_div_cancel₀ _ hnK]; linarith)
  rw [if_neg hn, h1, Option.map_some]
  refine ⟨_, rfl, ?_, fun o => ?_⟩
  · rw [List.length_flatMap, List.map_map]
    calc _ ≤ ((List.range m).map fun _ => map.length).sum := by
          refine List.sum_le_sum fun k _ => ?_
          simp only [Function.comp, seenAt]
          exact (List.length_filter_le _ _).trans (by rw [List.length_map])
      _ = m * map.length := by simp
      _ ≤ nb * map.length := Nat.mul_le_mul_right _ hm
  · rw [List.mem_flatMap]
    constructor
    · rintro ⟨t, ht, ho⟩
      obtain ⟨k, hk, rfl⟩ := List.mem_map.mp ht
      rw [List.mem_range] at hk
      obtain ⟨h3, h4⟩ := List.mem_filter.mp ho
      obtain ⟨l, hl, rfl⟩ := List.mem_map.mp h3
      rw [TObs.seen, Bool.and_eq_true] at h4
      exact ⟨k, hk.trans_le hm, (h2 k).mp hk, l, hl, rfl, h4⟩
    · rintro ⟨k, _, hk, l, hl, rfl, h4⟩
      refine ⟨_, List.mem_map.mpr ⟨k, List.mem_range.mpr ((h2 k).mpr hk), rfl⟩, List.mem_filter.mpr ⟨List.mem_map.mpr ⟨l, hl, rfl⟩, ?_⟩⟩
      rw [TObs.seen, Bool.and_eq_true]
      exact h4

/-- C141: each observation is dated in the domain, with the next `dt`, and contains the range to a landmark of the map and its bearing less the direction of the displacement
over the next `dt` -/
theorem C141_sound (hS : SensorFor S dist ang) (hX : ∀ t, x t ∈ X t) (hY : ∀ t, y t ∈ Y t) (hdt : 0 ≤ dt) (hab : a ≤ b) {r : List (TObs K)}
    (hr : observations S X Y x y dt vr va a b map nb (nb + 1) = some r) {o : TObs K} (ho : o ∈ r) :
    (a ≤ o.t ∧ o.t + dt ≤ b) ∧ ∃ l ∈ map, dist (x o.t - l.x) (y o.t - l.y) ∈ o.r ∧
      ang (l.y - y o.t) (l.x - x o.t) - ang (y (o.t + dt) - y o.t) (x (o.t + dt) - x o.t) ∈ o.a := by
  obtain ⟨r', h1, _, h2⟩ := C141_observations S X Y x y hdt hab vr va map nb
  rw [hr] at h1
  cases h1
  obtain ⟨k, _, hk, l, hl, rfl, _⟩ := (h2 o).mp ho
  refine ⟨⟨?_, ?_⟩, l, hl, ?_, ?_⟩
  · have : 0 ≤ (k : K) * ((b - a) / nb) := mul_nonneg (Nat.cast_nonneg _) (div_nonneg (sub_nonneg.mpr hab) (Nat.cast_nonneg _))
    change a ≤ a + k * ((b - a) / nb)
    linarith
  · change a + k * ((b - a) / nb) + dt ≤ b
    linarith
  · exact hS.dist (S.A.sub_mem (hX _) (Itv.mem_point.mpr rfl)) (S.A.sub_mem (hY _) (Itv.mem_point.mpr rfl))
  · exact S.A.sub_mem (hS.ang (S.A.sub_mem (Itv.mem_point.mpr rfl) (hY _)) (S.A.sub_mem (Itv.mem_point.mpr rfl) (hX _)))
      (hS.ang (S.A.sub_mem (Itv.mem_point.mpr rfl) (hY _)) (S.A.sub_mem (Itv.mem_point.mpr rfl) (hX _)))

end

/-! ## the curve of the data set -/

/-- `f_lissajous`, codac_DataLoaderLissajous.cpp:32-34: position and heading -/
noncomputable def lissCurve (t : ℝ) : ℝ × ℝ × ℝ :=
  (120 * 2 * Real.cos t, 120 * Real.sin (2 * t), obsAng (240 * Real.cos (2 * t)) (-120 * 2 * Real.sin t))

/-- `f_lissajous_dot`, codac_DataLoaderLissajous.cpp:35-36 -/
noncomputable def lissDot (t : ℝ) : ℝ × ℝ := (-120 * 2 * Real.sin t, 240 * Real.cos (2 * t))

/-- C141: the velocities of the data set are the derivatives of the positions and the heading is the direction of the velocity; a tube around the function of the velocities,
inflated by `rad`, contains the derivatives up to an error of `rad` -/
theorem C141_derivative (t : ℝ) : HasDerivAt (fun t => (lissCurve t).1) (lissDot t).1 t ∧ HasDerivAt (fun t => (lissCurve t).2.1) (lissDot t).2 t ∧
    (lissCurve t).2.2 = obsAng (lissDot t).2 (lissDot t).1 := by
  refine ⟨?_, ?_, rfl⟩
  · have := (Real.hasDerivAt_cos t).const_mul (120 * 2)
    refine this.congr_deriv ?_
    simp only [lissDot]; ring
  · have h2 : HasDerivAt (fun t : ℝ => 2 * t) 2 t := by simpa using (hasDerivAt_id t).const_mul (2 : ℝ)
    have := ((Real.hasDerivAt_sin (2 * t)).comp t h2).const_mul 120
    refine this.congr_deriv ?_
    simp only [lissDot]; ring

/-! ## concrete cases -/

theorem lissStill_seen : TObs.seen (.icc 0 50) (.icc (-1) 1) (⟨0, .point 1, .point 0, .point 1, .point 0⟩ : TObs ℝ) = true := by
  rw [TObs.seen, Bool.and_eq_true]
  exact ⟨Itv.intersects_of_mem (x := 1) (Itv.mem_icc.mpr (by norm_num)) (Itv.mem_point.mpr rfl),
    Itv.intersects_of_mem (x := 0) (Itv.mem_icc.mpr (by norm_num)) (Itv.mem_point.mpr rfl)⟩

/-- C141: `nb_obs` is the number of instants, not of observations: with two landmarks ahead and `nb_obs = 1`, there are two observations -/
theorem C141_number_fails : ∃ r, observations obsS (fun t => .point t) (fun _ => .point 0) (fun t => t) (fun _ => 0) 1 (.icc 0 50) (.icc (-1) 1) 0 2 [.ofPos 1 0, .ofPos 1 0] 1 2 = some r ∧
    r.length = 2 := by
  have ht : times ((2 : ℝ) - 1) ((2 - 0) / (1 : ℕ)) 2 0 = some [0] := by
    rw [times, if_pos (by norm_num), times, if_neg (by norm_num)]
    rfl
  refine ⟨_, by rw [observations, if_neg (by norm_num), ht]; rfl, ?_⟩
  simp only [List.flatMap_cons, List.flatMap_nil, List.append_nil, seenAt, List.map_cons, List.map_nil, Beacon.ofPos, observeT_one]
  rw [List.filter_cons_of_pos lissStill_seen, List.filter_cons_of_pos lissStill_seen]
  rfl

end Codac.Props
