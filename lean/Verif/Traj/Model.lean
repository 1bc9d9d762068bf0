import Verif.Interval
import Mathlib.Algebra.Order.Field.Basic

/-!
# Trajectories defined by a map of values

Source: `src/core/variables/trajectory/codac_Trajectory.cpp` (definition type `MAP_OF_VALUES`). The `std::map<double,double>` is a list of
pairs (time, value) in increasing order of times. Arithmetic is exact.
-/

set_option linter.unusedSectionVars false

namespace Codac

variable {K : Type*} [Field K] [LinearOrder K]

/-- `Trajectory`: `m_map_values`, `m_tdomain`, `m_codomain` (codac_Trajectory.h:456-465) -/
structure Traj (K : Type*) [LinearOrder K] where
  pts : List (K × K)
  dom : Itv K
  cod : Itv K
deriving DecidableEq

/-- `map::find` -/
def lookupPt (t : K) : List (K × K) → Option K
  | [] => none
  | p :: l => if p.1 = t then some p.2 else lookupPt t l

/-- `map::erase(t)`, `map::emplace(t, y)`, as well as `map[t] = y` -/
def setPt (t y : K) : List (K × K) → List (K × K)
  | [] => [(t, y)]
  | p :: l => if t < p.1 then (t, y) :: p :: l else if t = p.1 then (t, y) :: l else p :: setPt t y l

/-- `it_lower->second + (t - it_lower->first) * (it_upper->second - it_lower->second) / (it_upper->first - it_lower->first)`,
codac_Trajectory.cpp:171-173 -/
def lin (p q : K × K) (t : K) : K := p.2 + (t - p.1) * (q.2 - p.2) / (q.1 - p.1)

/-- evaluation of the map, codac_Trajectory.cpp:158-174: the value of the key, otherwise the interpolation between `lower_bound(t)`
and its predecessor; `none` when one of them does not exist (in the code: an iterator out of the map is used) -/
def evalPts (t : K) (l : List (K × K)) : Option K :=
  match lookupPt t l with
  | some v => some v
  | none =>
    match (l.takeWhile fun p => decide (p.1 < t)).getLast?, (l.dropWhile fun p => decide (p.1 < t)).head? with
    | some p, some q => some (lin p q t)
    | _, _ => none

/-- hull of points, `m_codomain |= it->second` -/
def hullOf (l : List K) : Itv K := l.foldl (fun acc v => acc ⊔ Itv.point v) ⊥

namespace Traj

/-- `Trajectory()`, codac_Trajectory.cpp:23-27 -/
def empty : Traj K := ⟨[], ⊥, ⊥⟩

/-- `compute_codomain()`, codac_Trajectory.cpp:681-698 -/
def computeCodomain (x : Traj K) : Traj K := { x with cod := hullOf (x.pts.map Prod.snd) }

/-- `Trajectory(map_values)`, codac_Trajectory.cpp:52-68 -/
def ofMap (l : List (K × K)) : Traj K :=
  match l.head?, l.getLast? with
  | some p, some q => computeCodomain ⟨l, Itv.icc p.1 q.1, ⊥⟩
  | _, _ => ⟨l, ⊥, ⊥⟩

/-- `Trajectory(list_t, list_x)`, codac_Trajectory.cpp:70-83: the codomain is left to its initial value -/
def ofLists (ts xs : List K) : Traj K :=
  (ts.zip xs).foldl (fun x p => { x with pts := setPt p.1 p.2 x.pts, dom := x.dom ⊔ Itv.point p.1 }) empty

/-- `operator()(double)`, codac_Trajectory.cpp:149-180; `none`: the assert fails -/
def evalAt (x : Traj K) (t : K) : Option K :=
  if (Itv.point t) ≤ x.dom then evalPts t x.pts else none

/-- `operator()(const Interval&)`, codac_Trajectory.cpp:182-211; `none`: an assert fails. An empty or unbounded interval gives `none`
too: `t.lb()` is not a number of the time domain. -/
def evalItv (x : Traj K) (t : Itv K) : Option (Itv K) :=
  if t ≤ x.dom then
    if x.dom = t then some x.cod
    else
      match t with
      | .mk (some a) (some b) _ =>
        match x.evalAt a, x.evalAt b with
        | some va, some vb =>
          some (((x.pts.dropWhile fun p => decide (p.1 < a)).takeWhile fun p => decide (p.1 ≤ b)).foldl
            (fun acc p => acc ⊔ Itv.point p.2) ((⊥ ⊔ Itv.point va) ⊔ Itv.point vb))
        | _, _ => none
      | _ => none
  else none

/-- `set(y, t)`, codac_Trajectory.cpp:299-317 -/
def set (x : Traj K) (y t : K) : Traj K :=
  let update := match lookupPt t x.pts with
    | some v => decide (Itv.point v ≤ x.cod)
    | none => false
  let x' : Traj K := ⟨setPt t y x.pts, x.dom ⊔ Itv.point t, x.cod⟩
  if update then x'.computeCodomain else { x' with cod := x.cod ⊔ Itv.point y }

/-- `truncate_tdomain([a,b])`, codac_Trajectory.cpp:319-343; `none`: an assert fails -/
def truncate (x : Traj K) (a b : K) : Option (Traj K) :=
  if a < b ∧ Itv.icc a b ≤ x.dom then
    match x.evalAt a, x.evalAt b with
    | some va, some vb =>
      some (computeCodomain ⟨setPt b vb (setPt a va (x.pts.filter fun p => decide (a ≤ p.1 ∧ p.1 ≤ b))), x.dom ⊓ Itv.icc a b, x.cod⟩)
    | _, _ => none
  else none

/-- `m_tdomain += d` (IBEX), exact arithmetic -/
def shiftItv (d : K) : Itv K → Itv K
  | .empty => ⊥
  | .mk l h _ => Itv.ofBounds (l.map (· + d)) (h.map (· + d))

/-- `shift_tdomain(d)`, codac_Trajectory.cpp:345-359 -/
def shift (x : Traj K) (d : K) : Traj K :=
  computeCodomain ⟨x.pts.map fun p => (p.1 + d, p.2), shiftItv d x.dom, x.cod⟩

/-- the loops of both `sample` methods, codac_Trajectory.cpp:383-386 and 410-412, over the instants `ts`: the values are those of the
trajectory before sampling -/
def sampleLoop (x : Traj K) : List K → List (K × K) → Option (List (K × K))
  | [], m => some m
  | t :: ts, m =>
    match lookupPt t m with
    | some _ => sampleLoop x ts m
    | none => (x.evalAt t).bind fun v => sampleLoop x ts (setPt t v m)

/-- the instants `lb, lb + dt, ...` smaller than `ub`, codac_Trajectory.cpp:384; `none` when there are more than `fuel` -/
def sampleTimes (ub dt : K) : Nat → K → Option (List K)
  | 0, _ => none
  | n + 1, t => if t < ub then (sampleTimes ub dt n (t + dt)).map (t :: ·) else some []

/-- `sample(dt)`, codac_Trajectory.cpp:374-398 -/
def sample (fuel : Nat) (x : Traj K) (dt : K) : Option (Traj K) :=
  match x.dom with
  | .mk (some lb) (some ub) _ =>
    if 0 < dt then
      (sampleTimes ub dt fuel lb).bind fun ts => (x.sampleLoop ts x.pts).bind fun m =>
        (x.evalAt ub).map fun v => { x with pts := setPt ub v m }
    else none
  | _ => none

/-- `sample(const Trajectory&)`, codac_Trajectory.cpp:400-423 -/
def sampleLike (x y : Traj K) : Option (Traj K) :=
  if x.dom = y.dom then (x.sampleLoop (y.pts.map Prod.fst) x.pts).map fun m => { x with pts := m } else none

/-- `operator==`, codac_Trajectory.cpp:263-288 -/
def beq (x y : Traj K) : Bool :=
  decide (x.dom = y.dom) && decide (x.cod = y.cod) &&
    x.pts.all fun p => match lookupPt p.1 y.pts with
      | none => false
      | some v => decide (p.2 = v)

/-- `operator!=`, codac_Trajectory.cpp:290-295 -/
def bne (x y : Traj K) : Bool := decide (x.dom ≠ y.dom) || decide (x.cod ≠ y.cod) || !x.beq y

/-- the loop of `make_continuous()`, codac_Trajectory.cpp:433-449: `d` is the diameter of the codomain, `lim` is `d*0.9`, `prev` the
previous value (none at the first iteration) -/
def continuousLoop (d lim : K) : Option K → K → List (K × K) → List (K × K)
  | _, _, [] => []
  | prev, m, p :: l =>
    let m' := match prev with
      | none => m
      | some v => if v - p.2 > lim then m + d else if v - p.2 < -lim then m - d else m
    (p.1, p.2 + m') :: continuousLoop d lim (some p.2) m' l

/-- `make_continuous()`, codac_Trajectory.cpp:425-453. The diameter of the codomain is 0 for a trajectory without values (the loop has
then no iteration). -/
def makeContinuous (x : Traj K) : Traj K :=
  let d := match x.cod with
    | .mk (some a) (some b) _ => b - a
    | _ => 0
  let l := continuousLoop d (d * (9 / 10)) none 0 x.pts
  ⟨l, x.dom, hullOf (l.map Prod.snd)⟩

/-- the loop of `primitive(c)`, codac_Trajectory.cpp:462-476 -/
def primitiveLoop : Option (K × K × K) → K → List (K × K) → List (K × K)
  | _, _, [] => []
  | none, c, p :: l => (p.1, c) :: primitiveLoop (some (p.1, p.2, c)) c l
  | some (u, v, val), c, p :: l =>
    let val' := val + (v + p.2) * (p.1 - u) / 2
    (p.1, val') :: primitiveLoop (some (p.1, p.2, val')) c l

/-- `primitive(c)`, codac_Trajectory.cpp:457-477 -/
def primitive (x : Traj K) (c : K) : Traj K :=
  (primitiveLoop none c x.pts).foldl (fun y p => y.set p.2 p.1) empty

end Traj

/-! ### Specification vocabulary -/

/-- the instants are strictly increasing -/
def SortedPts (l : List (K × K)) : Prop := l.Pairwise fun p q => p.1 < q.1

/-- `v` is the value at `t` of the piecewise linear function through the points: a point of the list, or on the segment between two consecutive points -/
def Interp (l : List (K × K)) (t v : K) : Prop :=
  (t, v) ∈ l ∨ ∃ l1 p q l2, l = l1 ++ p :: q :: l2 ∧ p.1 < t ∧ t < q.1 ∧ (v - p.2) * (q.1 - p.1) = (t - p.1) * (q.2 - p.2)

/-- `X` is the smallest interval containing the elements of `l` -/
def IsHull (X : Itv K) (l : List K) : Prop := (∀ a ∈ l, a ∈ X) ∧ ∀ Y : Itv K, (∀ a ∈ l, a ∈ Y) → X ≤ Y

end Codac
