import Verif.Traj.Arith
import Mathlib.Analysis.SpecialFunctions.Pow.Real

/-!
# Roots of trajectories

Source: `src/core/arithmetic/codac_traj_arithmetic_scalar.cpp:107-118`.
-/

namespace Codac.Traj

/-- `std::pow(a, 1. / p)` for an integer `p ≥ 1`, in exact arithmetic; `none`: not a number (the C++ standard: a negative number to a power which is not an integer) -/
noncomputable def rootVal (p : Nat) (a : ℝ) : Option ℝ :=
  if p = 1 then some a else if 0 ≤ a then some (a ^ (1 / (p : ℝ))) else none

open Classical in
/-- `root(x, p)`, codac_traj_arithmetic_scalar.cpp:107-118, `p ≥ 1`; `none`: a value of the trajectory is not a number -/
noncomputable def root (x : Traj ℝ) (p : Nat) : Option (Traj ℝ) :=
  if ∀ q ∈ x.pts, rootVal p q.2 ≠ none then some (x.mapVal fun a => (rootVal p a).getD 0) else none

end Codac.Traj
