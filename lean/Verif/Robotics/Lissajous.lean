import Verif.Robotics.Observations
import Mathlib.Tactic.Linarith
import Mathlib.Tactic.Ring
import Mathlib.Tactic.Positivity
import Mathlib.Data.List.Range

/-!
# The Lissajous data set (robotics/data/codac_DataLoaderLissajous.cpp)

Times are exact numbers; the values of the trajectory are parameters, as in `Observations.lean`.
-/

set_option linter.unusedSectionVars false

namespace Codac.Liss
open Codac.Obs

variable {K : Type*} [Field K] [LinearOrder K]

/-- the instants of the loop `for(t = lb ; t < ub-dt ; t += diam/nb_obs)`, codac_DataLoaderLissajous.cpp:79; `none`: more than the given number of iterations -/
def times (stop step : K) : Nat → K → Option (List K)
  | 0, _ => none
  | n + 1, t => if t < stop then (times stop step n (t + step)).map (t :: ·) else some []

/-- the loop on the landmarks, codac_DataLoaderLissajous.cpp:81-94 -/
def seenAt (S : Sensor K) (X Y : K → Itv K) (x y : K → K) (dt : K) (vr va : Itv K) (map : List (Beacon K)) (t : K) : List (TObs K) :=
  (map.map (observeT S X Y x y dt t)).filter (TObs.seen vr va)

/-- `DataLoaderLissajous::get_observations`, codac_DataLoaderLissajous.cpp:65-98, on the domain `[a,b]` (intersection of the domain of the trajectory and of the one
which is given); `dt` is 0.001; the boxes of the landmarks kept by `TObs` are not in the observations of the code -/
def observations (S : Sensor K) (X Y : K → Itv K) (x y : K → K) (dt : K) (vr va : Itv K) (a b : K) (map : List (Beacon K)) (nb : Nat) (fuel : Nat) : Option (List (TObs K)) :=
  if nb = 0 then some [] else (times (b - dt) ((b - a) / nb) fuel a).map fun ts => ts.flatMap (seenAt S X Y x y dt vr va map)

variable [IsStrictOrderedRing K]

theorem times_spec {stop step : K} (hs : 0 ≤ step) : ∀ (n : Nat) {t : K}, stop ≤ t + n * step →
    ∃ m ≤ n, times stop step (n + 1) t = some ((List.range m).map fun (k : Nat) => t + k * step) ∧ (∀ k : Nat, k < m ↔ t + k * step < stop)
  | 0, t, h => by
    have h' : ¬ t < stop := by simpa using h
    refine ⟨0, le_rfl, by rw [times, if_neg h']; rfl, fun k => ⟨fun hk => absurd hk (Nat.not_lt_zero _), fun hk => ?_⟩⟩
    exfalso
    have : (0 : K) ≤ k * step := mul_nonneg (Nat.cast_nonneg _) hs
    push Not at h'
    linarith
  | n + 1, t, h => by
    by_cases ht : t < stop
    · obtain ⟨m, hm, h1, h2⟩ := times_spec (stop := stop) hs n (t := t + step) (by push_cast at h; linarith)
      refine ⟨m + 1, by omega, ?_, fun k => ?_⟩
      · rw [times, if_pos ht, h1, Option.map_some, List.range_succ_eq_map, List.map_cons, List.map_map]
        congr 2
        · simp
        · apply List.map_congr_left
          intro k _
          simp only [Function.comp, Nat.succ_eq_add_one, Nat.cast_add, Nat.cast_one]
          ring
      · cases k with
        | zero => simpa using ht
        | succ k =>
          rw [Nat.succ_lt_succ_iff, h2 k]
          push_cast
          rw [show t + step + k * step = t + (k + 1) * step by ring]
    · refine ⟨0, Nat.zero_le _, by rw [times, if_neg ht]; rfl, fun k => ⟨fun hk => absurd hk (Nat.not_lt_zero _), fun hk => ?_⟩⟩
      exfalso
      have : (0 : K) ≤ k * step := mul_nonneg (Nat.cast_nonneg _) hs
      push Not at ht
      linarith

end Codac.Liss
