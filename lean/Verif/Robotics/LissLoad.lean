import Verif.Traj.FunEval
import Verif.Tube.VecParts

/-!
# The tubes of the Lissajous data set

Source: `src/robotics/data/codac_DataLoaderLissajous.cpp:27-47`.
-/

namespace Codac.Liss
open Codac

variable {K : Type*} [Field K] [LinearOrder K] [IsStrictOrderedRing K]

/-- `DataLoaderLissajous::load_data`, codac_DataLoaderLissajous.cpp:27-47, over `[t0,tf]`: the tubes `*x` and `*xdot`. `F` and `Fd` are the evaluations by IBEX of `f_lissajous`
(three outputs) and of `f_lissajous_dot` (two outputs); the argument `timestep` is not read. `*truth` (line 40) is the function itself, which is not represented -/
def load (A : IArith K) (add : K → K → K) (diam : K) (fuel : Nat) (F Fd : Nat → Box K → Itv K) (t0 tf _timestep : K) : Option (List (Tube K) × List (Tube K)) :=
  (vOfStepFun add diam fuel F 3 t0 tf (1 / 100)).bind fun x =>
    (vOfStepFun add diam fuel Fd 2 t0 tf (1 / 100)).bind fun xdot =>
      (TuVec.inflateNum A xdot (1 / 10)).map fun xdot => (x, xdot)

end Codac.Liss
