import Verif.Tube.VecOps
import Verif.Tube.OpsModel
import Verif.Traj.Vector
import Verif.Traj.TubeTraj

/-!
# The constructors of vectors of tubes

Source: `src/core/domains/tube/codac_TubeVector.cpp:33-152`; vectors are lists of components, `none` stands for an assert.
-/

namespace Codac.TuVec
open Codac

variable {K : Type*} [LinearOrder K]

/-- `TubeVector(tdomain, n)`, codac_TubeVector.cpp:33-40 -/
def ofDom (t0 tf : K) (n : Nat) : Option (List (Tube K)) := if n = 0 then none else some (List.replicate n (Tube.single t0 tf ⊤))

/-- `TubeVector(tdomain, codomain)`, codac_TubeVector.cpp:42-47 -/
def ofDomBox (t0 tf : K) (b : Box K) : Option (List (Tube K)) := (ofDom t0 tf b.length).bind fun x => setAll x b

/-- `TubeVector(tdomain, timestep, n)`, codac_TubeVector.cpp:49-57: the same computation is done for each component -/
def ofStepN [Zero K] (add : K → K → K) (diam : K) (fuel : Nat) (t0 tf step : K) (n : Nat) : Option (List (Tube K)) :=
  if n = 0 then none else (Tube.ofStep add diam fuel t0 tf step ⊤).map fun T => List.replicate n T

/-- `TubeVector(tdomain, timestep, codomain)`, codac_TubeVector.cpp:59-65 -/
def ofStepBox [Zero K] (add : K → K → K) (diam : K) (fuel : Nat) (t0 tf step : K) (b : Box K) : Option (List (Tube K)) :=
  (ofStepN add diam fuel t0 tf step b.length).bind fun x => setAll x b

/-- `TubeVector(v_tdomains, v_codomains)`, codac_TubeVector.cpp:79-106 -/
def ofLists (tds : List (K × K)) (cods : List (Box K)) : Option (List (Tube K)) :=
  match cods with
  | [] => none
  | b :: _ =>
    if tds.length = cods.length ∧ ∀ c ∈ cods, c.length = b.length then
      TVec.allM (fun j => Tube.ofList (List.zipWith (fun d c => (d, c.getD j ⊥)) tds cods)) (List.range b.length)
    else none

/-- `TubeVector(x, codomain)`, codac_TubeVector.cpp:120-125 -/
def like (x : List (Tube K)) (b : Box K) : Option (List (Tube K)) := setAll x b

/-- `TubeVector(n, x)`, codac_TubeVector.cpp:127-133 -/
def rep (n : Nat) (T : Tube K) : Option (List (Tube K)) := if n = 0 then none else some (List.replicate n T)

/-- `TubeVector(traj, timestep)`, codac_TubeVector.cpp:135-142; `ev` are the evaluations of the components of the trajectory over intervals -/
def ofTrajs [Zero K] (add : K → K → K) (diam : K) (fuel : Nat) (t0 tf step : K) (ev : List (Itv K → Itv K)) : Option (List (Tube K)) :=
  (ofStepN add diam fuel t0 tf step ev.length).bind fun x => assignTraj (· ⊔ ·) (x.map fun T => T.setEmpty) ev

/-- `TubeVector(lb, ub, timestep)`, codac_TubeVector.cpp:144-152 -/
def ofTwoTrajs [Zero K] (add : K → K → K) (diam : K) (fuel : Nat) (t0 tf step : K) (evl evu : List (Itv K → Itv K)) : Option (List (Tube K)) :=
  (ofTrajs add diam fuel t0 tf step evl).bind fun x => assignTraj (· ⊔ ·) x evu

end Codac.TuVec
