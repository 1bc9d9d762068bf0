import Verif.Tube.History
import Verif.Tube.Integral

/-!
# `CtcDeriv`: model

Source: `src/core/contractors/dyn/codac_CtcDeriv.cpp`, `src/core/domains/slice/codac_Slice_polygon.cpp`.

`B` stands for the macro `BOUNDED_INFINITY` (`numeric_limits<float>::max()`, geometry/codac_ThickPoint.h:30).
Numbers computed on vertices (`lines_intersection_*`, `yilb`, `yolb`, ...) are exact in the model, as are time
differences (`tdomain().diam()`); the interval operations go through the outward arithmetic `A`.
-/

set_option linter.unusedSectionVars false

namespace Codac
variable {K : Type*} [Field K] [LinearOrder K] [IsStrictOrderedRing K]

/-- ordinates of the vertices of the lower boundary of `Slice::polygon`, codac_Slice_polygon.cpp:107-153.
`il`, `ol`, `cl`: lower bounds of the input gate, output gate and codomain; `[vl,vu]`: derivative.
The two points of lines 145-148 only differ by their abscissa; one ordinate is kept. The rounding points of
138-139 are merged (exact intersection). -/
def lowerVerts (t0 t1 il ol cl vl vu : K) : List K :=
  if vl = vu then [il, ol]
  else
    -- lines_intersection_lb, codac_Slice_polygon.cpp:79-84
    let ti := (il - ol + vu * t1 - vl * t0) / (vu - vl)
    if t0 ≤ ti ∧ ti ≤ t1 then
      let y := ol + vu * (ti - t1)   -- yolb(ti), equal to yilb(ti)
      if cl ≤ y then [il, y, ol] else [il, cl, ol]
    else [il, ol]

/-- ordinates of the vertices of the upper boundary of `Slice::polygon`, codac_Slice_polygon.cpp:157-201 -/
def upperVerts (t0 t1 iu ou cu vl vu : K) : List K :=
  if vl = vu then [ou, iu]
  else
    -- lines_intersection_ub, codac_Slice_polygon.cpp:72-77
    let ti := (ou - iu + vu * t0 - vl * t1) / (vu - vl)
    if t0 ≤ ti ∧ ti ≤ t1 then
      let y := ou + vl * (ti - t1)   -- youb(ti), equal to yiub(ti)
      if y ≤ cu then [ou, y, iu] else [ou, cu, iu]
    else [ou, iu]

/-- ordinates of the vertices of the lower boundary of `Slice::polygon` when the derivative is bounded on one side only,
codac_Slice_polygon.cpp:115-119 and 124-150. `y0` is the ordinate, at the bound of the time domain chosen at lines 115-119, of the
line whose slope is finite; `g` is the ordinate of the gate at this bound: the other line is `g + ∞ * [0,0]`, so `g` (if `z`) or the
empty set. The two points of lines 145-148 have the same ordinate (one of the two abscissas is undefined, `Polygon::box` then ignores this point). -/
def lowerHalf (z : Bool) (il ol cl y0 g : K) : List K :=
  if cl ≤ (if z then max y0 g else y0) then [il, if z then min y0 g else y0, ol] else [il, cl, ol]

/-- the same for the upper boundary, codac_Slice_polygon.cpp:163-167 and 172-198 -/
def upperHalf (z : Bool) (iu ou cu y0 g : K) : List K :=
  if (if z then min y0 g else y0) ≤ cu then [ou, if z then max y0 g else y0, iu] else [ou, cu, iu]

/-- hull of a list of numbers (`Polygon::box`, geometry/codac_Polygon.cpp:85-91, one coordinate) -/
def hullPts (l : List K) : Itv K := l.foldr (fun x X => Itv.point x ⊔ X) ⊥

/-- the two bounds of a bounded interval -/
def Itv.bounds? (X : Itv K) : Option (K × K) :=
  match X with
  | .mk (some a) (some b) _ => some (a, b)
  | _ => none

/-- hull of the ordinates of the vertices of `x.polygon(v)`, codac_Slice_polygon.cpp:104-204: codomain `c`, gates
`i` and `o`, derivative `V` (different from the whole line); `z` tells what `∞ * [0,0]` is. Not modelled: slices with an empty gate
and a non-empty envelope or an empty `V` (vertices made of NaN; the model answers the empty set), and unbounded gates or envelopes
(never met: codac_CtcDeriv.cpp:179-185 makes them bounded; the model answers the envelope). -/
def polyHull (z : Bool) (lb ub : K) (c i o V : Itv K) : Itv K :=
  if i = ⊥ ∨ o = ⊥ ∨ V = ⊥ then ⊥
  else
    match c.bounds?, i.bounds?, o.bounds? with
    | some (cl, cu), some (il, iu), some (ol, ou) =>
      match V with
      | .mk (some vl) (some vu) _ => hullPts (lowerVerts lb ub il ol cl vl vu ++ upperVerts lb ub iu ou cu vl vu)
      | .mk none (some vu) _ =>   -- 115-116 and 163-164
        hullPts (lowerHalf z il ol cl (ol + vu * (lb - ub)) il ++ upperHalf z iu ou cu (iu + vu * (ub - lb)) ou)
      | .mk (some vl) none _ =>   -- 118-119 and 166-167
        hullPts (lowerHalf z il ol cl (il + vl * (ub - lb)) ol ++ upperHalf z iu ou cu (ou + vl * (lb - ub)) iu)
      | _ => c
    | _, _, _ => c

/-- second coordinate of `x.polygon(v).box()`, codac_Slice_polygon.cpp:86-205, for a slice whose envelope and
gates are bounded. `V` is the envelope of `v`. -/
def polyBox (z : Bool) (s : Slice K) (V : Itv K) : Itv K :=
  if s.cod = ⊥ then ⊥       -- 93-94 (the caller intersects with the empty envelope)
  else if V = ⊤ then s.cod  -- 96-102
  else polyHull z s.lb s.ub s.cod s.inG s.outG V

/-- restoration of infinite bounds, codac_CtcDeriv.cpp:191-196: a bound equal to `±B` becomes infinite -/
def restoreInf (B : K) (X : Itv K) : Itv K :=
  match X with
  | .empty => .empty
  | .mk lo hi _ =>
    .ofBounds (if lo = some (-B) then none else lo) (if hi = some B then none else hi)

/-- `CtcDeriv::contract(Slice& x, const Slice& v, ..)`, codac_CtcDeriv.cpp:145-210. `R` is the restricted time
domain, `V` the envelope of `v`. The propagation way is not used by this function. -/
def derivSlice (A : IArith K) (B : K) (R V : Itv K) : Setter K := fun p n x =>
  if (Itv.icc x.lb x.ub).intersects R = false then x
  else
    let dt := x.ub - x.lb
    let ingate := x.inG ⊓ A.sub x.outG (A.mul (.point dt) V)
    let outgate := x.outG ⊓ A.add x.inG (A.mul (.point dt) V)
    if x.outG ≤ outgate ∨ x.inG ≤ ingate then
      let e1 := x.cod ⊓ .icc (-B) B
      let x1 := Slice.setOutputGate outgate true p n
        (Slice.setInputGate ingate true p n (Slice.setEnvelope e1 true p n x))
      let e2 := e1 ⊓ polyBox A.infZero x1 V
      Slice.setOutputGate (restoreInf B outgate) true p n
        (Slice.setInputGate (restoreInf B ingate) true p n (Slice.setEnvelope (restoreInf B e2) true p n x1))
    else
      let e1 := x.cod ⊓ A.add ingate (A.mul (.icc 0 dt) V)
      let e2 := e1 ⊓ A.sub outgate (A.mul (.icc 0 dt) V)
      Slice.setOutputGate outgate true p n (Slice.setInputGate ingate true p n (Slice.setEnvelope e2 true p n x))

/-- `CtcDeriv::contract_gates`, codac_CtcDeriv.cpp:212-225 -/
def derivGates (A : IArith K) (V : Itv K) : Setter K := fun p n x =>
  let dt := x.ub - x.lb
  let outgate := x.outG ⊓ A.add x.inG (A.mul (.point dt) V)
  let x1 := Slice.setOutputGate outgate true p n x
  let ingate := x.inG ⊓ A.sub outgate (A.mul (.point dt) V)
  Slice.setInputGate ingate true p n x1

/-- the envelope of the `k`-th slice of `v` (the tubes are asserted to have the same slicing: it exists) -/
def Tube.codAt (v : Tube K) (k : Nat) : Itv K := (v.slices[k]?.map Slice.cod).getD ⊤

/-- `CtcDeriv::contract(Tube& x, const Tube& v, TimePropag)`, codac_CtcDeriv.cpp:76-108; `none` when an assertion
fails (other time domain or other slicing) -/
def derivTube (A : IArith K) (B : K) (R : Itv K) (fwd bwd : Bool) (x v : Tube K) : Option (Tube K) :=
  if x.t0 = v.t0 ∧ x.tf = v.tf ∧ x.sameSlicing v = true then
    let us := fun k => derivSlice A B R (v.codAt k)
    let x1 := if fwd then (List.range x.nbSlices).foldl (fun T k => T.upd k (us k)) x else x
    some (if bwd then (List.range x.nbSlices).reverse.foldl (fun T k => T.upd k (us k)) x1 else x1)
  else none

end Codac
