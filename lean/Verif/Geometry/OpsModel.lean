import Verif.Geometry.Polygon

/-!
# Operations on `ConvexPolygon`: model

Sources: `/repo/src/core/arithmetic/codac_polygon_arithmetic.cpp`, `/repo/src/core/geometry/codac_{ThickEdge,ConvexPolygon,Polygon}.cpp`.
-/

set_option linter.unusedSectionVars false

namespace Codac.Poly
open Codac.Graham

variable {K : Type*} [Field K] [LinearOrder K] [IsStrictOrderedRing K]

/-- a box with an infinite bound (`IntervalVector::is_unbounded`) -/
def unb (X : TPt K) : Bool := !X.1.isEmpty && !X.2.isEmpty && (X.1.bounds?.isNone || X.2.bounds?.isNone)

/-- `ThickEdge::parallel(e1, e2) != NO`, codac_ThickEdge.cpp:262-274 (for points, `is_vertical` and `is_horizontal` answer `YES` or `NO`) -/
def parallel (z : K → Itv K) (e1 e2 : Edge K) : Bool :=
  if vert e1 ∧ vert e2 then true else if horiz e1 ∧ horiz e2 then true else unb (proj z e1 e2)

/-- `ThickEdge::contains(p) != NO`, codac_ThickEdge.cpp:111-121, for a point -/
def econtains (e : Edge K) (p : Pt K) : Bool :=
  let k := (e.2.1 - e.1.1) * (e.2.1 - p.1) + (e.2.2 - e.1.2) * (e.2.2 - p.2)
  decide (cr p e.1 e.2 = 0) && decide (0 ≤ k ∧ k ≤ (e.2.1 - e.1.1) ^ 2 + (e.2.2 - e.1.2) ^ 2)

/-- intersection of two edges in `inter_thickpoints`, codac_polygon_arithmetic.cpp:94-116 -/
def interPair (z : K → Itv K) (e1 e2 : Edge K) : List (TPt K) :=
  if interE z e1 e2 = ⊥ then []
  else if parallel z e1 e2 then
    ((if econtains e1 e2.1 then [e2.1] else []) ++ (if econtains e1 e2.2 then [e2.2] else []) ++
      (if econtains e2 e1.1 then [e1.1] else []) ++ (if econtains e2 e1.2 then [e1.2] else [])).map ofPt
  else [interE z e1 e2]

/-- `inter_thickpoints`, codac_polygon_arithmetic.cpp:70-120 -/
def interPts (z : K → Itv K) (v w : List (Pt K)) : List (TPt K) :=
  (v.filter fun p => contains z w p ≠ .no).map ofPt ++ (w.filter fun p => contains z v p ≠ .no).map ofPt ++
    (edges v).flatMap fun e1 => (edges w).flatMap fun e2 => interPair z e1 e2

/-- the points pushed for a thick point, codac_ConvexPolygon.cpp:63-82: one corner of a box smaller than `eps` (1e-10 in the code), the four
corners of the other ones. Not modelled: an unbounded box (`none`) -/
def thickPts (eps : K) (center : Pt K) (X : TPt K) : Option (List (Pt K)) :=
  match X.1.bounds?, X.2.bounds? with
  | some (a, b), some (c, d) =>
    if max (b - a) (d - c) < eps then some [(if center.1 < a then b else a, if center.2 < c then d else c)]
    else some (removeIdentical [(a, c), (a, d), (b, c), (b, d)])
  | _, _ => none

/-- the middle of an interval (`0` for an interval that is not bounded: not used) -/
def itvMid (X : Itv K) : K := match X.bounds? with | some (a, b) => (a + b) / 2 | none => 0

/-- codac_ConvexPolygon.cpp:55-58 -/
def centerOf (l : List (TPt K)) : Pt K := ((l.map fun X => itvMid X.1).sum / l.length, (l.map fun X => itvMid X.2).sum / l.length)

/-- `ConvexPolygon(const vector<ThickPoint>&)`, codac_ConvexPolygon.cpp:48-86 -/
def ofThick (eps : K) (l : List (TPt K)) : Option (List (Pt K)) :=
  if l.any fun X => X.1.isEmpty || X.2.isEmpty then some []
  else (l.mapM (thickPts eps (centerOf l))).map fun ls => convexHullPts ls.flatten

/-- `operator&`, codac_polygon_arithmetic.cpp:122-125. The division by `[0,0]` is the empty set (IBEX) -/
def inter (eps : K) (v w : List (Pt K)) : Option (List (Pt K)) := ofThick eps (interPts (fun _ => ⊥) v w)

/-- `operator|`, codac_polygon_arithmetic.cpp:139-147 -/
def union (eps : K) (v w : List (Pt K)) : Option (List (Pt K)) := ofThick eps (v.map ofPt ++ w.map ofPt)

/-- unary `operator-`, codac_polygon_arithmetic.cpp:41-47 -/
def neg (v : List (Pt K)) : List (Pt K) := v.map fun p => (-p.1, -p.2)

/-- `operator+(IntervalVector, ConvexPolygon)`, codac_polygon_arithmetic.cpp:29-39, and `operator+(ConvexPolygon, IntervalVector)`, 24-27 -/
def addBox (eps : K) (v : List (Pt K)) (X : TPt K) : Option (List (Pt K)) :=
  ofThick eps (v.map fun p => tpt (.add (.point p.1) X.1) (.add (.point p.2) X.2))

/-- `operator-(ConvexPolygon, IntervalVector)`, codac_polygon_arithmetic.cpp:49-52 -/
def subBox (eps : K) (v : List (Pt K)) (X : TPt K) : Option (List (Pt K)) := addBox eps v (X.1.neg, X.2.neg)

/-- `operator-(IntervalVector, ConvexPolygon)`, codac_polygon_arithmetic.cpp:54-57 -/
def boxSub (eps : K) (X : TPt K) (v : List (Pt K)) : Option (List (Pt K)) := addBox eps (neg v) X

/-- `operator*(IntervalMatrix, ConvexPolygon)`, codac_polygon_arithmetic.cpp:59-68: `m` is the list of the rows -/
def mulMat (eps : K) (m : TPt K × TPt K) (v : List (Pt K)) : Option (List (Pt K)) :=
  ofThick eps (v.map fun p => tpt (.add (.mul m.1.1 (.point p.1)) (.mul m.1.2 (.point p.2)))
    (.add (.mul m.2.1 (.point p.1)) (.mul m.2.2 (.point p.2))))

/-- `ConvexPolygon(const IntervalVector&)`, codac_ConvexPolygon.cpp:38-46, for the bounded box `[a,b] × [c,d]` -/
def ofBox (a b c d : K) : List (Pt K) := convexHullPts [(a, c), (b, c), (b, d), (a, d)]

/-- `ConvexPolygon::intersects`, codac_ConvexPolygon.cpp:123-128 -/
def intersects (eps : K) (v w : List (Pt K)) : Option BI := (inter eps v w).map fun r => if r = [] then .no else .maybe

/-- `Polygon::area`, codac_Polygon.cpp:102-116 -/
def area (v : List (Pt K)) : K := 1 / 2 * (edges v).foldl (fun a e => a + (e.1.1 * e.2.2 - e.2.1 * e.1.2)) 0

/-- `Polygon::operator==`, codac_Polygon.cpp:141-163, and the negation of `operator!=`, 165-187, which has the same loops. `way` is `1` or
`-1` converted to `size_t`: `i + way*j + n` is `i + n - j` modulo 2^64 -/
def polyEq (v w : List (Pt K)) : Bool :=
  let n := v.length
  if n ≠ w.length then false
  else
    let i := w.findIdx fun p => v[0]? = some p
    let fwd : Bool := if 1 < n then decide (v[1]? = w[(i + 1) % n]?) else true
    (List.range n).all fun j => v[j]? = w[(if fwd then i + j + n else i + n - j) % n]?

end Codac.Poly
