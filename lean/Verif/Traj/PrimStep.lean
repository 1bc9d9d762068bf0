import Verif.Traj.Model

/-!
# Primitive of a trajectory with a time step

Models `/repo/src/core/variables/trajectory/codac_Trajectory.cpp:479-501`. The trajectory is the function `f` of its values (defined by a map or an analytic function), over `[a,b]`. Arithmetic is exact.
-/

set_option linter.unusedSectionVars false

namespace Codac.Traj

variable {K : Type*} [Field K] [LinearOrder K]

/-- the loop of `primitive(c, dt)`, codac_Trajectory.cpp:486-494: `t`, `prev_t`, `val` and the samples of `x`; `none`: more than `n` iterations -/
def primStepLoop (f : K → K) (a b dt : K) : Nat → K → K → K → List (K × K) → Option (List (K × K) × K × K)
  | 0, _, _, _, _ => none
  | n + 1, t, prev, val, x =>
    if t < b then
      let val' := if t ≠ a then val + (f (t - dt) + f t) * dt / 2 else val
      primStepLoop f a b dt n (t + dt) t val' (setPt t val' x)
    else some (x, prev, val)

/-- `primitive(c, dt)`, codac_Trajectory.cpp:479-501: the samples of the result -/
def primStep (n : Nat) (f : K → K) (a b c dt : K) : Option (List (K × K)) :=
  (primStepLoop f a b dt n a a c []).map fun r => setPt b (r.2.2 + (f r.2.1 + f b) * (b - r.2.1) / 2) r.1

end Codac.Traj
