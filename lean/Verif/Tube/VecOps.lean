import Verif.Tube.Misc
import Verif.Traj.TubeTraj
import Verif.Traj.Vector
import Verif.Box

/-!
# Vectors of tubes: operators, questions, bisection, diameters

Source: `src/core/domains/tube/codac_TubeVector.cpp`, `codac_TubeVector_operators.cpp`, `src/core/arithmetic/codac_tube_arithmetic_vector.cpp`. A `TubeVector` is the list of its
components. `none`: an assert is violated, or a null pointer is followed. The inversions are in `Verif/Tube/Vector.lean`.
-/

set_option linter.unusedSectionVars false

namespace Codac.TuVec
open Codac

section order
variable {K : Type*} [LinearOrder K]

/-- `tdomain()`, codac_TubeVector.cpp:203-209: all the components must have the same one -/
def tdomain : List (Tube K) → Option (K × K)
  | [] => none
  | T :: l => if l.all fun X => decide (X.t0 = T.t0 ∧ X.tf = T.tf) then some (T.t0, T.tf) else none

/-- `operator()(double)`, codac_TubeVector.cpp:362-368 -/
def eval (x : List (Tube K)) (t : K) : Box K := x.map fun T => T.evalAt t

/-- `codomain()`, codac_TubeVector.cpp:328-331, 1040-1046 -/
def codomain (x : List (Tube K)) : Box K := x.map fun T => T.codomain

/-- `f(x1, x2)` on two vectors of tubes for `+`, `-`, `|`, `&`, codac_tube_arithmetic_vector.cpp:33-42; `φ` is the operation on intervals -/
def bin (φ : Itv K → Itv K → Itv K) (x1 x2 : List (Tube K)) : Option (List (Tube K)) :=
  if x1.length = x2.length ∧ tdomain x1 ≠ none ∧ tdomain x1 = tdomain x2 then some (List.zipWith (fun a b => a.binOp φ b) x1 x2) else none

/-- `f(x1, x2)` with a box, codac_tube_arithmetic_vector.cpp:44-62, and `x1 f= x2` with a box, codac_TubeVector_operators.cpp:22-29 -/
def binBox (φ : Itv K → Itv K → Itv K) (x : List (Tube K)) (b : Box K) : Option (List (Tube K)) :=
  if x.length = b.length then some (List.zipWith (fun a i => a.map fun X => φ X i) x b) else none

/-- `-x`, `abs(x)`, and the operators with an interval, codac_tube_arithmetic_vector.cpp:24-30, 91-97, 125-131, 161-167, codac_TubeVector_operators.cpp:54-59 -/
def map (φ : Itv K → Itv K) (x : List (Tube K)) : List (Tube K) := x.map fun a => a.map φ

/-- `x1 f= x2` with a vector of tubes, codac_TubeVector_operators.cpp:41-49 -/
def assign (φ : Itv K → Itv K → Itv K) (x1 x2 : List (Tube K)) : Option (List (Tube K)) :=
  if x1.length = x2.length ∧ tdomain x1 ≠ none ∧ tdomain x1 = tdomain x2 then some (List.zipWith (fun a b => a.opAssign φ b) x1 x2) else none

/-- `x f= y` with a tube, codac_TubeVector_operators.cpp:70-78: the slicings are the same; the operand may be a component of `x`, it is read at each iteration -/
def assignScal (φ : Itv K → Itv K → Itv K) (x : List (Tube K)) (y : TVec.Operand (Tube K)) : Option (List (Tube K)) :=
  (y.read x).bind fun b =>
    if tdomain x = some (b.t0, b.tf) ∧ x.all (fun a => a.sameSlicing b) = true then
      TVec.assignLoop (fun a b => some (a.opAssign φ b)) y x.length 0 x
    else none

/-- `x1 * x2` with a tube and a vector of tubes, codac_tube_arithmetic_vector.cpp:109-116, and `x1 / x2` with a vector of tubes and a tube, lines 144-151; `φ A B` is the
operation on a value `A` of the vector and a value `B` of the tube, `swap` when the tube is the first operand. The vector is copied first. -/
def binScal (φ : Itv K → Itv K → Itv K) (swap : Bool) (x : List (Tube K)) (y : Tube K) : Option (List (Tube K)) :=
  if tdomain x = some (y.t0, y.tf) then some (x.map fun a => if swap then y.binOp (fun B A => φ A B) a else a.binOp φ y) else none

/-- `operator*(const Tube&, const IntervalVector&)`, codac_tube_arithmetic_vector.cpp:101-107 -/
def mulBox (φ : Itv K → Itv K → Itv K) (y : Tube K) (b : Box K) : List (Tube K) := b.map fun i => y.map fun Y => φ Y i

/-- `operator/(const IntervalVector&, const Tube&)`, codac_tube_arithmetic_vector.cpp:135-142: copies of the tube, set to the box, divided by the tube -/
def divBox (φ : Itv K → Itv K → Itv K) (b : Box K) (y : Tube K) : List (Tube K) := b.map fun i => (y.set i).binOp φ y

/-- `x f= y` and `f(x, y)` with a vector of trajectories given by their evaluations, codac_TubeVector_operators.cpp:31-39, codac_tube_arithmetic_vector.cpp:64-82 -/
def assignTraj (φ : Itv K → Itv K → Itv K) (x : List (Tube K)) (ev : List (Itv K → Itv K)) : Option (List (Tube K)) :=
  if x.length = ev.length then some (List.zipWith (fun a e => a.opAssignTraj φ e) x ev) else none

/-- the loop of `contains`, codac_TubeVector.cpp:747-752: `cs` are the answers for the components, each computed only if needed (`none`: it does not end) -/
def containsLoop : List (Option Answer) → Answer → Option Answer
  | [], r => some r
  | c :: cs, r => c.bind fun b =>
    match b with
    | .no => some .no
    | .maybe => containsLoop cs .maybe
    | .yes => containsLoop cs r

/-- `contains(x)` with a vector of trajectories, codac_TubeVector.cpp:742-755; the trajectories are given by their evaluations on intervals -/
def contains [Sub K] (mid : K → K → K) (eps : K) (fuel : Nat) (x : List (Tube K)) (ev : List (Itv K → Itv K)) : Option Answer :=
  if x.length = ev.length then containsLoop (List.zipWith (fun T e => T.contains e mid eps fuel) x ev) .yes else none

/-- `is_empty()`, codac_TubeVector.cpp:734-740 -/
def isEmpty (x : List (Tube K)) : Bool := x.any Tube.isEmpty

/-- `operator==`, codac_TubeVector.cpp:672-682; `==` and `!=` of two tubes are opposite -/
def beq (x y : List (Tube K)) : Bool := if x.length ≠ y.length then false else (List.zipWith Tube.eqT x y).all id

/-- `set(y)`, codac_TubeVector.cpp:768-774 -/
def setAll (x : List (Tube K)) (y : Box K) : Option (List (Tube K)) := if x.length = y.length then some (List.zipWith (fun T i => T.set i) x y) else none

/-- `set(y, t)`, codac_TubeVector.cpp:785-792 -/
def setAt (x : List (Tube K)) (y : Box K) (t : K) : Option (List (Tube K)) :=
  if x.length = y.length ∧ (∃ d, tdomain x = some d ∧ d.1 ≤ t ∧ t ≤ d.2) then some (List.zipWith (fun T i => T.setAt i t) x y) else none

instance (x : List (Tube K)) (t : K) : Decidable (∃ d, tdomain x = some d ∧ d.1 ≤ t ∧ t ≤ d.2) :=
  match h : tdomain x with
  | none => isFalse (by rintro ⟨d, hd, _⟩; cases hd)
  | some d => if hh : d.1 ≤ t ∧ t ≤ d.2 then isTrue ⟨d, rfl, hh⟩ else isFalse (by rintro ⟨e, he, hh'⟩; cases he; exact hh hh')

/-- `bisect(t, ratio)`, codac_TubeVector.cpp:856-877; `bis` is LargestFirst, `none` when it throws -/
def bisect (bis : Box K → Option (Box K × Box K)) (x : List (Tube K)) (t : K) : Option (List (Tube K) × List (Tube K)) :=
  (bis (eval x t)).bind fun p => (setAt x p.1 t).bind fun a => (setAt x p.2 t).map fun b => (a, b)

/-- `bisect(t, dim_id, ratio)`, codac_TubeVector.cpp:879-902: a box of one component is bisected -/
def bisectDim (bis : Box K → Option (Box K × Box K)) (x : List (Tube K)) (t : K) (i : Nat) : Option (List (Tube K) × List (Tube K)) :=
  (x[i]?).bind fun T =>
    (tdomain x).bind fun d =>
      if d.1 ≤ t ∧ t ≤ d.2 then
        (bis [T.evalAt t]).bind fun p => some (x.set i (T.setAt (p.1.headD ⊥) t), x.set i (T.setAt (p.2.headD ⊥) t))
      else none

/-- `hull(l_tubes)`, codac_TubeVector.cpp:1026-1034 -/
def hull : List (List (Tube K)) → Option (List (Tube K))
  | [] => none
  | x :: l => l.foldlM (fun h y => assign (· ⊔ ·) h y) x

/-- `resize(n)`, codac_TubeVector.cpp:216-240: the new components have the slicing of the first one; `m_v_tubes[0]` is a null pointer for a vector without component -/
def resize (x : List (Tube K)) (n : Nat) : Option (List (Tube K)) :=
  if n = 0 then none
  else if n ≤ x.length then some (x.take n)
  else match x with
  | [] => none
  | T :: _ => some (x ++ List.replicate (n - x.length) (T.set ⊤))

end order

section field
variable {K : Type*} [Field K] [LinearOrder K] [IsStrictOrderedRing K]

/-- the loop of `max_gate_diam(t)`, codac_TubeVector.cpp:636-645: the largest diameter (`none`: infinity) and the value of `t` (`none`: not set) -/
def gateLoop : Option K → Option K → List (Option K × K) → Option K × Option K
  | m, t, [] => (m, t)
  | m, t, p :: l =>
    match m, p.1 with
    | none, _ => gateLoop m t l
    | some _, none => gateLoop none (some p.2) l
    | some a, some d => if a < d then gateLoop (some d) (some p.2) l else gateLoop m t l

/-- `max_gate_diam(t)`, codac_TubeVector.cpp:632-648 -/
def maxGateDiam (x : List (Tube K)) : Option (Option K × Option K) := (TVec.allM (fun T : Tube K => T.maxGateDiam) x).map fun l => gateLoop (some 0) none l

/-- the loop of `Tube::diam(gates_thicknesses)`, codac_Tube.cpp:964-976; `nx`, `pv` are `ibex::next_float`, `ibex::previous_float`; `none` when a diameter is infinite -/
def diamLoop (nx pv : K → K) (gates : Bool) : List (Slice K) → Traj K → Option (Traj K)
  | [], x => some x
  | s :: ss, x =>
    s.cod.width?.bind fun w =>
      let x := (x.set w (nx s.lb)).set w (pv s.ub)
      if gates then s.outG.width?.bind fun g => diamLoop nx pv gates ss (x.set g s.ub)
      else diamLoop nx pv gates ss (if ss.isEmpty then x.set w s.ub else x)

/-- `Tube::diam(gates_thicknesses)`, codac_Tube.cpp:954-979 -/
def diam (nx pv : K → K) (gates : Bool) (T : Tube K) : Option (Traj K) :=
  match T.slices with
  | [] => none
  | s :: ss => (if gates then s.inG.width? else s.cod.width?).bind fun w => diamLoop nx pv gates (s :: ss) (Traj.empty.set w s.lb)

/-- the loop of `diag`, codac_TubeVector.cpp:621-627, over the instants of the first component; `sqrt` is `std::sqrt`, exact sums and squares -/
def diagLoop (sqrt : K → K) (diams : List (Traj K)) (i j : Nat) : List K → Traj K → Option (Traj K)
  | [], x => some x
  | t :: ts, x => (TVec.eval diams t).bind fun d => diagLoop sqrt diams i j ts (x.set (sqrt (((d.drop i).take (j - i + 1)).map fun a => a ^ 2).sum) t)

/-- `diag(i, j, gates_thicknesses)`, codac_TubeVector.cpp:612-630 -/
def diag (nx pv sqrt : K → K) (gates : Bool) (x : List (Tube K)) (i j : Nat) : Option (Traj K) :=
  if j < x.length ∧ i ≤ j then (TVec.allM (diam nx pv gates) x).bind fun ds => diagLoop sqrt ds i j (TVec.firstKeys ds) Traj.empty else none

end field
end Codac.TuVec
