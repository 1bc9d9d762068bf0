import Verif.Tube.Func
import Verif.Tube.Build
import Verif.Traj.VectorProofs

/-!
# Tubes and trajectories made from functions

Sources: `src/core/domains/tube/codac_Tube.cpp`, `src/core/domains/tube/codac_TubeVector.cpp` (the constructors which take a function of time),
`src/core/functions/codac_TFunction.cpp` (evaluation of a function over a vector of trajectories).
-/

set_option linter.unusedSectionVars false

namespace Codac

section Tubes
variable {K : Type*} [LinearOrder K]

/-- `Tube(x, f, f_image_id)`, codac_Tube.cpp:126-136, for a function `f` with `m` outputs: the function is evaluated over the vector made of `x` only, "in order to know the data
structure to produce". `none`: the assert on `f_image_id`. As `f` has no other input than the time, IBEX does not read the second component of the box. -/
def Tube.ofFun (F : Nat → Box K → Itv K) (m id : Nat) (x : Tube K) : Option (Tube K) :=
  (tfunEval F m [x]).bind fun y => y[id]?

/-- `Tube(tdomain, timestep, f, f_image_id)`, codac_Tube.cpp:82-93, for the temporal domain `[t0,tf]` -/
def Tube.ofStepFun [Zero K] (add : K → K → K) (diam : K) (fuel : Nat) (F : Nat → Box K → Itv K) (m id : Nat) (t0 tf step : K) : Option (Tube K) :=
  (Tube.ofStep add diam fuel t0 tf step ⊤).bind (Tube.ofFun F m id)

/-- `TubeVector(tdomain, timestep, f)`, codac_TubeVector.cpp:67-77: the function is evaluated over a vector with as many components as `f` has outputs -/
def vOfStepFun [Zero K] (add : K → K → K) (diam : K) (fuel : Nat) (F : Nat → Box K → Itv K) (m : Nat) (t0 tf step : K) : Option (List (Tube K)) :=
  (Tube.ofStep add diam fuel t0 tf step ⊤).bind fun T => tfunEval F m (List.replicate m T)

theorem vSameSlicing_replicate (T : Tube K) {n : Nat} (h : n ≠ 0) : vSameSlicing (List.replicate n T) = true := by
  obtain ⟨n, rfl⟩ := Nat.exists_eq_succ_of_ne_zero h
  rw [List.replicate_succ]
  simp only [vSameSlicing, List.all_eq_true]
  intro X hX
  rw [List.eq_of_mem_replicate hX]
  simp [Tube.sameSlicing]

end Tubes

namespace TVec
variable {K : Type*} [Field K] [LinearOrder K] [IsStrictOrderedRing K]

/-- the loop of `TFunction::traj_eval_vector`, codac_TFunction.cpp:440-449, over the instants `ts`, for a function of the time and of `n` variables with `m` outputs, `G i v`
being the middle of the `i`-th component of the evaluation of IBEX at the point `v`. `none`: `v.put(1, x(t))` writes out of the vector `v` (of size `n+1`), or `x` has no value
at that time. Simplified: when `x` has less than `n` components, which the assert of line 434 excludes, `v` is not completed and the result is `none`. -/
def evalLoop (G : Nat → List K → K) (n m : Nat) (x : List (Traj K)) : List K → List (Traj K) → Option (List (Traj K))
  | [], r => some r
  | t :: ts, r =>
    if x.length = n then (eval x t).bind fun u => (set r ((List.range m).map fun i => G i (t :: u)) t).bind (evalLoop G n m x ts)
    else none

/-- `TFunction::traj_eval_vector`, codac_TFunction.cpp:426-453; the assert on the sizes is not made for a function without variable -/
def trajEvalVec (G : Nat → List K → K) (n m : Nat) (x : List (Traj K)) : Option (List (Traj K)) :=
  if n ≠ 0 ∧ x.length ≠ n then none
  else if x = [] then none
  else evalLoop G n m x (firstKeys x) (ofSize m)

/-- `TFunction::traj_eval`, codac_TFunction.cpp:282-287: a scalar function -/
def trajEval (G : Nat → List K → K) (n m : Nat) (x : List (Traj K)) : Option (Traj K) :=
  if x.length = n ∧ m = 1 then (trajEvalVec G n m x).bind fun y => y[0]? else none

theorem evalLoop_get {G : Nat → List K → K} {m : Nat} (hm : m ≠ 0) {x : List (Traj K)} {V : K → List K} : ∀ {ts : List K} {r : List (Traj K)}, r.length = m →
    (∀ t ∈ ts, eval x t = some (V t)) →
    ∃ r', evalLoop G x.length m x ts r = some r' ∧ r'.length = m ∧ ∀ (i : Nat) (a : Traj K), r[i]? = some a →
      r'[i]? = some ((ptsOf (fun t => G i (t :: V t)) ts).foldl (fun y p => y.set p.2 p.1) a) := by
  intro ts
  induction ts with
  | nil => intro r hr _; exact ⟨r, rfl, hr, fun i a ha => by simpa [ptsOf] using ha⟩
  | cons t ts ih =>
    intro r hr h
    have hu := h t (by simp)
    have hne : r ≠ [] := by intro hc; rw [hc] at hr; exact hm hr.symm
    obtain ⟨r1, h1, h2, h3⟩ := set_get hne (v := (List.range m).map fun i => G i (t :: V t)) (by simp [hr]) t
    obtain ⟨r2, h4, h5, h6⟩ := ih (r := r1) (by rw [h2, hr]) fun s hs => h s (by simp [hs])
    refine ⟨r2, by simp [evalLoop, hu, h1, h4], h5, fun i a ha => ?_⟩
    rw [h6 i _ (h3 i a ha)]
    have hi : i < m := by rw [← hr]; exact (List.getElem?_eq_some_iff.mp ha).1
    simp [ptsOf, hi]

end TVec

end Codac
