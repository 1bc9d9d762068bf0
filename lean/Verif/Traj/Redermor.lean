import Verif.Tube.VecBuild
import Verif.Tube.VecParts
import Verif.Tube.TrajOps
import Verif.Tube.Func
import Verif.Tube.Misc

/-!
# Loading the data of the Redermor

Source: `src/robotics/data/codac_DataLoaderRedermor.cpp:28-117`.
-/

namespace Codac.Redermor
open Codac

section read
variable {K : Type*}

/-- the numbers of a line of the file: an instant, ten values and ten uncertainties (the columns alternate in the file), codac_DataLoaderRedermor.cpp:53-67 -/
structure Rec (K : Type*) where
  t : K
  y : List K
  dy : List K

/-- the loop over the lines, codac_DataLoaderRedermor.cpp:47-80; a line is `none` when its numbers cannot be read; `none`: an exception; `i` is the counter -/
def readLoop : Nat → List (Option (Rec K)) → Option (List (Rec K))
  | _, [] => some []
  | i, l :: ls =>
    if i + 1 < 46 then readLoop (i + 1) ls
    else if i + 1 = 60000 then some []
    else l.bind fun r => (readLoop (i + 1) ls).map fun rs => r :: rs

end read

section field
variable {K : Type*} [Field K] [LinearOrder K] [IsStrictOrderedRing K]

/-- the `i`-th component of a vector of trajectories set by `traj.set(v(r), r.t)` for each line, codac_DataLoaderRedermor.cpp:44, 70-71 (`TrajectoryVector::set`, component by component) -/
def comp (v : Rec K → List K) (rs : List (Rec K)) (i : Nat) : Traj K := rs.foldl (fun x r => x.set ((v r).getD i 0) r.t) Traj.empty

/-- the vector of the ground truth at a line: position, depth, null velocities, codac_DataLoaderRedermor.cpp:74-77 -/
def truthVec (r : Rec K) : List K := [r.y.getD 8 0, r.y.getD 9 0, r.y.getD 6 0, 0, 0, 0]

/-- `*truth`, codac_DataLoaderRedermor.cpp:45, 78 -/
def truth (rs : List (Rec K)) : List (Traj K) := (List.range 6).map (comp truthVec rs)

/-- the function of the velocities, codac_DataLoaderRedermor.cpp:88-96, of the instant, `phi`, `theta`, `psi`, `vxr`, `vyr` and `vzr`; `c` and `s` are the cosine and the sine -/
def velocity (c s : K → K) (i : Nat) (v : List K) : K :=
  match v with
  | [_, phi, theta, psi, vxr, vyr, vzr] =>
    match i with
    | 0 => vxr * c theta * c psi - vyr * (c phi * s psi - s theta * c psi * s phi) + vzr * (s phi * s psi + s theta * c psi * c phi)
    | 1 => vxr * c theta * s psi + vyr * (c psi * c phi + s theta * s psi * s phi) - vzr * (c psi * s phi - s theta * c phi * s psi)
    | _ => - vxr * s theta + vyr * c theta * s phi + vzr * c theta * c phi
  | _ => 0

/-- the depth, codac_DataLoaderRedermor.cpp:104-106 -/
def depth (A : IArith K) (T : Tube K) (y dy : Traj K) : Option (Tube K) := (T.setEmpty.opAssignTraj (· ⊔ ·) y.ev).inflateTraj A dy

/-- the tubes of the attitude and of the velocities of the robot in its frame, codac_DataLoaderRedermor.cpp:82-85, over the temporal domain `[t0,tf]` of the data -/
def sensors (A : IArith K) (add : K → K → K) (diam : K) (fuel : Nat) (t0 tf step : K) (rs : List (Rec K)) : Option (List (Tube K)) :=
  (TuVec.ofTrajs add diam fuel t0 tf step ((List.range 10).map fun i => (comp Rec.y rs i).ev)).bind fun x =>
    (TuVec.inflateTrajs A x ((List.range 10).map (comp Rec.dy rs))).bind fun x => TuVec.resize x 6

/-- the tubes made of those of the sensors, codac_DataLoaderRedermor.cpp:87-110: `F` is the evaluation of `velocity` by IBEX, `B` is `BOUNDED_INFINITY` -/
def state (A : IArith K) (B : K) (F : Nat → Box K → Itv K) (t0 : K) (rs : List (Rec K)) (x : List (Tube K)) : Option (List (Tube K)) :=
  (tfunEval F 3 x).bind fun v =>
    match v, x[2]? with
    | [v0, v1, v2], some T =>
      (v0.primitive A B (Itv.point ((comp Rec.y rs 8).fn t0))).bind fun p0 =>
        (v1.primitive A B (Itv.point ((comp Rec.y rs 9).fn t0))).bind fun p1 =>
          (depth A T (comp Rec.y rs 6) (comp Rec.dy rs 6)).map fun d => [p0, p1, d, v0, v1, v2]
    | _, _ => none

/-- the tubes computed from the lines of the file, codac_DataLoaderRedermor.cpp:82-110 -/
def load (A : IArith K) (B : K) (F : Nat → Box K → Itv K) (add : K → K → K) (diam : K) (fuel : Nat) (t0 tf step : K) (rs : List (Rec K)) : Option (List (Tube K)) :=
  (sensors A add diam fuel t0 tf step rs).bind (state A B F t0 rs)

/-- `load_data`, codac_DataLoaderRedermor.cpp:28-117: `cache` is the content of the file written by a former call, `compute` what is obtained from the data for a time step. The tubes and
the content of the file after the call. The argument `tdomain` is only checked by an assertion (line 30, taken as satisfied) -/
def loadData {α : Type*} (compute : K → Option α) (cache : Option α) (step : K) (_tdomain : Itv K) : Option (α × Option α) :=
  match cache with
  | some x => some (x, cache)
  | none => (compute step).map fun x => (x, some x)

end field

end Codac.Redermor
