import Verif.Ctc.Eval
import Verif.Geometry.OpsModel

/-!
# Polygons of slices, interpolation and inversion with a derivative: model

Sources: `src/core/domains/slice/codac_Slice_polygon.cpp`, `codac_Slice.cpp`, `src/core/domains/tube/codac_Tube.cpp`.

The coordinates of the vertices are exact in the model (the points added against rounding, codac_Slice_polygon.cpp:138-139 and
187-188, are merged). `none` stands for what is not modelled: vertices with infinite or NaN coordinates (unbounded envelope, gate or
derivative, except a derivative equal to the whole line; empty gate of a slice whose envelope is not empty; empty derivative).
-/

set_option linter.unusedSectionVars false

namespace Codac
open Codac.Graham Codac.Poly

variable {K : Type*} [Field K] [LinearOrder K] [IsStrictOrderedRing K]

/-- inner vertices of the lower boundary of `Slice::polygon`, codac_Slice_polygon.cpp:109-151: `il`, `ol`, `cl` are the lower bounds of the
input gate, output gate and codomain, `[vl,vu]` is the derivative -/
def lowPts (t0 t1 il ol cl vl vu : K) : List (Pt K) :=
  if vl = vu then []
  else
    let ti := (il - ol + vu * t1 - vl * t0) / (vu - vl)
    if t0 ≤ ti ∧ ti ≤ t1 then
      let y := ol + vu * (ti - t1)
      if cl ≤ y then [(ti, y)] else [((cl - il) / vl + t0, cl), ((cl - ol) / vu + t1, cl)]
    else []

/-- inner vertices of the upper boundary, from the right to the left, codac_Slice_polygon.cpp:159-200: `iu`, `ou`, `cu` are the upper bounds
of the input gate, output gate and codomain -/
def upPts (t0 t1 iu ou cu vl vu : K) : List (Pt K) :=
  if vl = vu then []
  else
    let ti := (ou - iu + vu * t0 - vl * t1) / (vu - vl)
    if t0 ≤ ti ∧ ti ≤ t1 then
      let y := ou + vl * (ti - t1)
      if y ≤ cu then [(ti, y)] else [((cu - ou) / vl + t1, cu), ((cu - iu) / vu + t0, cu)]
    else []

/-- the vertices of `Slice::polygon`, codac_Slice_polygon.cpp:106-204 -/
def slicePts (t0 t1 il iu ol ou cl cu vl vu : K) : List (Pt K) :=
  removeIdentical (((t0, il) :: lowPts t0 t1 il ol cl vl vu ++ [(t1, ol)]) ++ ((t1, ou) :: upPts t0 t1 iu ou cu vl vu ++ [(t0, iu)]))

/-- `Slice::polygon(v)`, codac_Slice_polygon.cpp:86-205; `V` is the envelope of `v`. The polygon of an empty slice is the one of the
default constructor, codac_ConvexPolygon.cpp:26-30. -/
def Slice.polygon (s : Slice K) (V : Itv K) : Option (List (Pt K)) :=
  if s.cod = ⊥ then some (ofBox (-9999) 9999 (-9999) 9999)
  else
    match s.cod.bounds? with
    | none => none
    | some (cl, cu) =>
      if V = ⊤ then some (ofBox s.lb s.ub cl cu)
      else
        match s.inG.bounds?, s.outG.bounds?, V.bounds? with
        | some (il, iu), some (ol, ou), some (vl, vu) => some (slicePts s.lb s.ub il iu ol ou cl cu vl vu)
        | _, _, _ => none

/-- `Slice::interpol(const Interval& t, const Slice& v)`, codac_Slice.cpp:216-237, for a non-empty `t` -/
def Slice.interpolV (A : IArith K) (s : Slice K) (V t : Itv K) : Option (Itv K) :=
  if exceeds t s.lb s.ub then some ⊤
  else if Itv.icc s.lb s.ub ≤ t then some s.cod
  else
    match t.bounds? with
    | none => none
    | some (a, b) =>
      if a = b then some (s.interpolAt A V a)
      else (s.polygon V).map fun v => (fastInter (fun _ => ⊥) v (tpt (Itv.icc s.lb s.ub ⊓ t) s.cod)).2

/-- `Slice::invert(y, v, search_tdomain)`, codac_Slice.cpp:278-323 -/
def Slice.invertV (s : Slice K) (y V search : Itv K) : Option (Itv K) :=
  if search.isEmpty then some ⊥
  else if exceeds search s.lb s.ub then some ⊤
  else if Itv.icc s.lb s.ub ⊓ search = Itv.icc s.lb s.ub ∧ s.cod ≤ y then some (Itv.icc s.lb s.ub)
  else if search = Itv.point s.lb then some (if y.intersects s.inG then Itv.point s.lb else ⊥)
  else if search = Itv.point s.ub then some (if y.intersects s.outG then Itv.point s.ub else ⊥)
  else if V = ⊤ then some (if y.intersects s.cod then search ⊓ Itv.icc s.lb s.ub else ⊥)
  else (s.polygon V).map fun v => (fastInter (fun _ => ⊥) v (tpt search y)).1

/-- the slices of `x` from the one of index `k`, with the envelopes of the slices of `v` of the same indices -/
def Tube.withDeriv (x v : Tube K) (k : Nat) : List (Slice K × Itv K) := ((x.slices.zipIdx).drop k).map fun p => (p.1, v.codAt p.2)

/-- the loop of `Tube::interpol(const Interval& t, const Tube& v)`, codac_Tube.cpp:761-766 -/
def interpolLoop (A : IArith K) (a b : K) : List (Slice K × Itv K) → Option (Itv K)
  | [] => some ⊥
  | p :: l =>
    if p.1.lb < b then
      (p.1.interpolV A p.2 (Itv.icc a b ⊓ Itv.icc p.1.lb p.1.ub)).bind fun I => (interpolLoop A a b l).map fun J => I ⊔ J
    else some ⊥

/-- `Tube::interpol(const Interval& t, const Tube& v)`, codac_Tube.cpp:751-769, for `t = [a,b]`; `none` when an assertion fails -/
def Tube.interpolV (A : IArith K) (x v : Tube K) (a b : K) : Option (Itv K) :=
  if x.t0 ≤ a ∧ b ≤ x.tf ∧ x.t0 = v.t0 ∧ x.tf = v.tf ∧ x.sameSlicing v = true then
    interpolLoop A a b (x.withDeriv v (timeToIndex a x.slices))
  else none

/-- the loop of `Tube::invert(y, v, search_tdomain)`, codac_Tube.cpp:861-866 -/
def invertVLoop (y : Itv K) (a b : K) : List (Slice K × Itv K) → Option (Itv K)
  | [] => some ⊥
  | p :: l =>
    if p.1.lb < b then
      (p.1.invertV y p.2 (Itv.icc a b ⊓ Itv.icc p.1.lb p.1.ub)).bind fun I => (invertVLoop y a b l).map fun J => I ⊔ J
    else some ⊥

/-- `Tube::invert(y, v, search_tdomain)`, codac_Tube.cpp:843-869 -/
def Tube.invertV (x : Tube K) (y : Itv K) (v : Tube K) (search : Itv K) : Option (Itv K) :=
  if x.t0 = v.t0 ∧ x.tf = v.tf ∧ x.sameSlicing v = true then
    match search with
    | .empty => some ⊥
    | .mk (some a) (some b) _ =>
      if a < x.t0 ∨ b > x.tf then some ⊤ else invertVLoop y a b (x.withDeriv v (timeToIndex a x.slices))
    | _ => some ⊤
  else none

/-- the loop of `Tube::invert(y, v_t, v, search_tdomain)`, codac_Tube.cpp:892-906 -/
def invertVListLoop (y : Itv K) (a b : K) (acc : Itv K) : List (Slice K × Itv K) → Option (List (Itv K))
  | [] => some (if acc.isEmpty then [] else [acc])
  | p :: l =>
    if p.1.lb ≤ b then
      (p.1.invertV y p.2 (Itv.icc a b ⊓ Itv.icc p.1.lb p.1.ub)).bind fun loc =>
        if loc.isEmpty && !acc.isEmpty then (invertVListLoop y a b ⊥ l).map (acc :: ·)
        else invertVListLoop y a b (acc ⊔ loc) l
    else some (if acc.isEmpty then [] else [acc])

/-- `Tube::invert(y, v_t, v, search_tdomain)`, codac_Tube.cpp:871-910 -/
def Tube.invertVList (x : Tube K) (y : Itv K) (v : Tube K) (search : Itv K) : Option (List (Itv K)) :=
  if x.t0 = v.t0 ∧ x.tf = v.tf ∧ x.sameSlicing v = true then
    match search with
    | .empty => some []
    | .mk (some a) (some b) _ =>
      if a < x.t0 ∨ b > x.tf then some [⊤] else invertVListLoop y a b ⊥ (x.withDeriv v (timeToIndex a x.slices))
    | _ => some [⊤]
  else none

end Codac
