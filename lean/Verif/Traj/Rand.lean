import Verif.Traj.SampleTerm

/-!
# Random trajectories

Models `RandTrajectory` (`/repo/src/core/variables/trajectory/codac_RandTrajectory.cpp`) and `Tools::rand_in_bounds` (`/repo/src/core/tools/codac_Tools.cpp`).
The pseudo-random numbers are a sequence given as a parameter.
-/

namespace Codac.Rand
variable {K : Type*} [LinearOrder K]

/-- `Tools::rand_in_bounds`, codac_Tools.cpp:43-48; `raw` is the value of `rand()/double(RAND_MAX)*itv.diam()+itv.lb()` -/
def randInBounds (lo hi raw : K) : K := max lo (min hi raw)

/-- the loop of the constructor, codac_RandTrajectory.cpp:33-39: `t` is the current time, `i` the number of draws done, `m` and `c` the map and the codomain so
far; `add` is the addition of `double`s. At most `fuel` turns are executed: `none` means that more are needed. -/
def randLoop (add : K → K → K) (ub step lo hi : K) (raw : Nat → K) : Nat → Nat → K → List (K × K) → Itv K → Option (List (K × K) × Itv K)
  | 0, _, _, _, _ => none
  | n + 1, i, t, m, c =>
    if t < add ub step then
      let y := randInBounds lo hi (raw i)
      randLoop add ub step lo hi raw n (i + 1) (add t step) (setPt (min t ub) y m) (c ⊔ Itv.point y)
    else some (m, c)

/-- `RandTrajectory(tdomain, timestep, bounds)`, codac_RandTrajectory.cpp:24-43, for `tdomain = [lb,ub]` and `bounds = [lo,hi]` -/
def randTraj (add : K → K → K) (fuel : Nat) (lb ub step lo hi : K) (raw : Nat → K) : Option (Traj K) :=
  (randLoop add ub step lo hi raw fuel 0 lb [] ⊥).map fun r => ⟨r.1, Itv.icc lb ub, r.2⟩

end Codac.Rand
