import Verif.Traj.Arith
import Verif.Traj.Diff

/-!
# Vectors of trajectories

Sources: `src/core/variables/trajectory/codac_TrajectoryVector.cpp`, `src/core/variables/trajectory/codac_TrajectoryVector_operators.cpp`,
`src/core/arithmetic/codac_traj_arithmetic_vector.cpp`. A `TrajectoryVector` is the list of its components, all defined by maps of values. `none`: an assert
fails, in the vector or in a component.
-/

set_option linter.unusedSectionVars false

namespace Codac.TVec

/-- a loop over the components whose body can fail -/
def allM {α β : Type*} (f : α → Option β) : List α → Option (List β)
  | [] => some []
  | a :: l => (f a).bind fun b => (allM f l).map (b :: ·)

/-- a loop over the components of two vectors; `none` when the sizes differ (`assert(size() == x.size())`) -/
def zipM {α β γ : Type*} (f : α → β → Option γ) : List α → List β → Option (List γ)
  | [], [] => some []
  | a :: l, b :: m => (f a b).bind fun c => (zipM f l m).map (c :: ·)
  | _, _ => none

variable {K : Type*} [Field K] [LinearOrder K]

/-! ### Building, accessing -/

/-- `TrajectoryVector(n)`, codac_TrajectoryVector.cpp:28-32 -/
def ofSize (n : Nat) : List (Traj K) := List.replicate n Traj.empty

/-- `set(y, t)`, codac_TrajectoryVector.cpp:275-286: the first call on a vector without components gives its size -/
def set (x : List (Traj K)) (y : List K) (t : K) : Option (List (Traj K)) :=
  let x := if x.length = 0 then ofSize y.length else x
  zipM (fun (a : Traj K) v => some (a.set v t)) x y

/-- `TrajectoryVector(map_values)`, codac_TrajectoryVector.cpp:53-64, and `TrajectoryVector(list_t, list_x)`, lines 74-94: `set` for each pair -/
def ofValues (l : List (K × List K)) (x : List (Traj K)) : Option (List (Traj K)) :=
  match l with
  | [] => some x
  | p :: l => (set x p.2 p.1).bind (ofValues l)

/-- `TrajectoryVector(v_map_values)`, codac_TrajectoryVector.cpp:66-72 -/
def ofMaps (l : List (List (K × K))) : List (Traj K) := l.map Traj.ofMap

/-- `resize(n)`, codac_TrajectoryVector.cpp:143-164 -/
def resize (x : List (Traj K)) (n : Nat) : List (Traj K) := x.take n ++ ofSize (n - x.length)

/-- `subvector(i, j)`, codac_TrajectoryVector.cpp:166-175 -/
def subvector (x : List (Traj K)) (i j : Nat) : Option (List (Traj K)) :=
  if j < x.length ∧ i ≤ j then some ((x.drop i).take (j - i + 1)) else none

/-- `put(i, subvec)`, codac_TrajectoryVector.cpp:177-183 -/
def put (x : List (Traj K)) (i : Nat) (y : List (Traj K)) : Option (List (Traj K)) :=
  if i + y.length ≤ x.length then some (x.take i ++ y ++ x.drop (i + y.length)) else none

/-- `operator()(double)`, codac_TrajectoryVector.cpp:209-216 -/
def eval (x : List (Traj K)) (t : K) : Option (List K) := allM (fun a : Traj K => a.evalAt t) x

/-- `operator()(const Interval&)`, codac_TrajectoryVector.cpp:218-225 -/
def evalItv (x : List (Traj K)) (t : Itv K) : Option (List (Itv K)) := allM (fun a : Traj K => a.evalItv t) x

/-- `codomain()`, codac_TrajectoryVector.cpp:192-195, 388-394 -/
def codomain (x : List (Traj K)) : List (Itv K) := x.map fun a => ⊥ ⊔ a.cod

/-- `not_defined()`, codac_TrajectoryVector.cpp:245-251 and codac_Trajectory.cpp:247-261 -/
def notDefined (x : List (Traj K)) : Bool := x.any fun a => a.pts.isEmpty

/-- the loop of `operator==`, codac_TrajectoryVector.cpp:257-260 -/
def beqLoop : List (Traj K) → List (Traj K) → Bool
  | a :: l, b :: m => if a.bne b then false else beqLoop l m
  | _, _ => true

/-- `operator==`, codac_TrajectoryVector.cpp:253-261 -/
def beq (x y : List (Traj K)) : Bool := if x.length ≠ y.length then false else beqLoop x y

/-! ### Changing -/

/-- `truncate_tdomain([a,b])`, codac_TrajectoryVector.cpp:288-296 -/
def truncate (x : List (Traj K)) (a b : K) : Option (List (Traj K)) :=
  allM (fun c : Traj K => if c.pts.isEmpty then some c else c.truncate a b) x

/-- `shift_tdomain(d)`, codac_TrajectoryVector.cpp:298-303 -/
def shift (x : List (Traj K)) (d : K) : List (Traj K) := x.map fun a => a.shift d

/-- `sample(x)` with a trajectory, codac_TrajectoryVector.cpp:320-325 -/
def sampleLike (x : List (Traj K)) (y : Traj K) : Option (List (Traj K)) := allM (fun a : Traj K => a.sampleLike y) x

/-- `primitive(c)`, codac_TrajectoryVector.cpp:344-353 -/
def primitive (x : List (Traj K)) (c : List K) : Option (List (Traj K)) := zipM (fun (a : Traj K) v => some (a.primitive v)) x c

/-! ### Operators -/

/-- unary operators and functions, codac_traj_arithmetic_vector.cpp:23-29 (`-x`), 158-164 (`abs`); `f` is the function on numbers -/
def mapVal (f : K → K) (x : List (Traj K)) : List (Traj K) := x.map (Traj.mapVal f)

/-- `a * x`, `x / a`, `x f= a` with a number, codac_traj_arithmetic_vector.cpp:64-70, 106-112, codac_TrajectoryVector_operators.cpp:44-49; `g` is the operation of IBEX
on the codomain -/
def scal (f : K → K) (g : Itv K → Itv K) (x : List (Traj K)) : List (Traj K) := x.map (Traj.opAssignScal f g)

/-- `x1 + x2`, `x1 - x2`, codac_traj_arithmetic_vector.cpp:33-41 -/
def bin (f : K → K → K) (x1 x2 : List (Traj K)) : Option (List (Traj K)) := zipM (fun a b : Traj K => a.binArith f b) x1 x2

/-- `x + v`, `x - v`, `v + x`, `v - x` with a vector of numbers, codac_traj_arithmetic_vector.cpp:43-59 -/
def binVec (f : K → K → K) (x : List (Traj K)) (v : List K) : Option (List (Traj K)) := zipM (fun (a : Traj K) b => some (a.mapVal fun u => f u b)) x v

/-- `x f= y` with a vector of trajectories, codac_TrajectoryVector_operators.cpp:31-39 -/
def assign (f : K → K → K) (x y : List (Traj K)) : Option (List (Traj K)) := zipM (fun a b : Traj K => a.opAssignTraj f b) x y

/-- the operand of `x f= y`: another trajectory, or the component `j` of `x` itself -/
inductive Operand (α : Type*)
  | other (y : α)
  | own (j : Nat)

/-- what the reference `x` of `operator f(const Trajectory& x)` denotes while the components of the vector are `l` -/
def Operand.read {α : Type*} : Operand α → List α → Option α
  | .other y, _ => some y
  | .own j, l => l[j]?

/-- the loop `for(i = 0 ; i < size() ; i++) (*this)[i].f(x)`, from `i`, `n` iterations: codac_TrajectoryVector_operators.cpp:51-58 and
codac_TubeVector_operators.cpp:61-79; `f` is the operator on the components. The operand is read at each iteration. -/
def assignLoop {α : Type*} (f : α → α → Option α) (y : Operand α) : Nat → Nat → List α → Option (List α)
  | 0, _, l => some l
  | n + 1, i, l => (l[i]?).bind fun a => (y.read l).bind fun b => (f a b).bind fun c => assignLoop f y n (i + 1) (l.set i c)

/-- `x f= y` with a trajectory, codac_TrajectoryVector_operators.cpp:51-58; `x * y`, `x / y` of codac_traj_arithmetic_vector.cpp:72-78 and 114-120 are the same loop
on a copy -/
def assignScal (f : K → K → K) (x : List (Traj K)) (y : Operand (Traj K)) : Option (List (Traj K)) :=
  assignLoop (fun a b : Traj K => a.opAssignTraj f b) y x.length 0 x

/-! ### Products -/

/-- `Vector * Vector` (IBEX): the sum of the products -/
def dot : List K → List K → K
  | a :: l, b :: m => a * b + dot l m
  | _, _ => 0

/-- `Matrix * Vector` (IBEX): `none` when the sizes differ (assert); the matrix is the list of its rows -/
def matVec (A : List (List K)) (u : List K) : Option (List K) :=
  if A.all fun r => decide (r.length = u.length) then some (A.map fun r => dot r u) else none

/-- `if(i != j) x2_[i].sample(x2_[j])`, codac_traj_arithmetic_vector.cpp:96-97 -/
def sampleStep (x : List (Traj K)) (i j : Nat) : Option (List (Traj K)) :=
  if i = j then some x
  else (x[i]?).bind fun a => (x[j]?).bind fun b => (a.sampleLike b).map fun c => x.set i c

/-- the loop over `j`, codac_traj_arithmetic_vector.cpp:95-97 -/
def sampleRow (i : Nat) : List Nat → List (Traj K) → Option (List (Traj K))
  | [], x => some x
  | j :: js, x => (sampleStep x i j).bind (sampleRow i js)

/-- the loop over `i`, codac_traj_arithmetic_vector.cpp:94-97 -/
def sampleRows (n : Nat) : List Nat → List (Traj K) → Option (List (Traj K))
  | [], x => some x
  | i :: is, x => (sampleRow i (List.range n) x).bind (sampleRows n is)

/-- `for(auto const& it : x[0].sampled_map()) result.set(g(x(it.first)), it.first)`, codac_traj_arithmetic_vector.cpp:100-101 and 146-147, over the instants `ts` -/
def setAll (g : List K → Option (List K)) (x : List (Traj K)) : List K → List (Traj K) → Option (List (Traj K))
  | [], r => some r
  | t :: ts, r => (eval x t).bind fun u => (g u).bind fun v => (set r v t).bind (setAll g x ts)

/-- the instants of the first component -/
def firstKeys : List (Traj K) → List K
  | [] => []
  | a :: _ => a.pts.map Prod.fst

/-- `operator*(const Matrix&, const TrajectoryVector&)`, codac_traj_arithmetic_vector.cpp:88-104: the result has the size of `x`, not the number of rows -/
def matMul (A : List (List K)) (x : List (Traj K)) : Option (List (Traj K)) :=
  (sampleRows x.length (List.range x.length) x).bind fun y => setAll (matVec A) y (firstKeys y) (ofSize x.length)

/-- `vecto_product(const Vector&, const Vector&)`, codac_traj_arithmetic_vector.cpp:130-139 -/
def crossVec : List K → List K → Option (List K)
  | [a, b, c], [d, e, f] => some [b * f - c * e, c * d - a * f, a * e - b * d]
  | _, _ => none

/-- `vecto_product(const TrajectoryVector&, const Vector&)`, codac_traj_arithmetic_vector.cpp:141-150: the instants are those of the first component -/
def cross (x : List (Traj K)) (v : List K) : Option (List (Traj K)) :=
  if x.length = 3 ∧ v.length = 3 then setAll (fun u => crossVec u v) x (firstKeys x) (ofSize x.length) else none

/-- `vecto_product(const Vector&, const TrajectoryVector&)`, codac_traj_arithmetic_vector.cpp:152-156 -/
def crossLeft (v : List K) (x : List (Traj K)) : Option (List (Traj K)) := (cross x v).map (mapVal (- ·))

end Codac.TVec
