import Verif.Geometry.Graham
import Verif.Ctc.DerivModel

/-!
# `ConvexPolygon`: model

Sources: `/repo/src/core/geometry/codac_{ThickPoint,ThickEdge,Polygon,ConvexPolygon}.cpp`.

The vertices of a polygon are points with exact coordinates and the operations on coordinates are exact. A `ThickPoint` is a pair of
intervals; the ends of the edges are the vertices of polygons or of boxes, hence points. The value of a division by zero is a parameter
`z` of the model (`z a` is the value of `[a]/[0,0]`): no theorem depends on it.
-/

set_option linter.unusedSectionVars false

namespace Codac.Poly
open Codac.Graham

variable {K : Type*} [Field K] [LinearOrder K] [IsStrictOrderedRing K]

/-- a `ThickPoint`, or a box of dimension two -/
abbrev TPt (K : Type*) [LinearOrder K] := Itv K × Itv K

/-- constructor `ThickPoint(x, y)`, codac_ThickPoint.cpp:37-44, and intersections of boxes: both coordinates are empty if one is -/
def tpt (x y : Itv K) : TPt K := if x.isEmpty || y.isEmpty then (⊥, ⊥) else (x, y)

/-- `ThickPoint(Vector)`, codac_ThickPoint.cpp:25-29 -/
def ofPt (p : Pt K) : TPt K := (.point p.1, .point p.2)

/-- an edge: `ThickEdge::m_pts` -/
abbrev Edge (K : Type*) := Pt K × Pt K

/-- `ThickEdge::box`, codac_ThickEdge.cpp:61-64 -/
def ebox (e : Edge K) : TPt K := (.point e.1.1 ⊔ .point e.2.1, .point e.1.2 ⊔ .point e.2.2)

/-- `ThickEdge::is_horizontal() != NO`, codac_ThickEdge.cpp:69-79 -/
abbrev horiz (e : Edge K) : Prop := e.1.2 = e.2.2
/-- `ThickEdge::is_vertical() != NO`, codac_ThickEdge.cpp:81-91 -/
abbrev vert (e : Edge K) : Prop := e.1.1 = e.2.1
/-- `ThickEdge::is_degenerated() != NO`, codac_ThickEdge.cpp:93-103 -/
abbrev degen (e : Edge K) : Prop := e.1 = e.2

/-- division of two numbers, `z a` being the value of `[a]/[0,0]` -/
def dv (z : K → Itv K) (a c : K) : Itv K := if c = 0 then z a else .point (a / c)

/-- `ThickEdge::proj_intersection` after the permutation, codac_ThickEdge.cpp:182-246 -/
def projAux (z : K → Itv K) (e1 e2 : Edge K) : TPt K :=
  if degen e1 ∧ degen e2 then tpt ((ebox e1).1 ⊓ (ebox e2).1) ((ebox e1).2 ⊓ (ebox e2).2)
  else if vert e2 then
    if degen e1 then tpt ((ebox e1).1 ⊓ (ebox e2).1) (ebox e1).2
    else if vert e1 then tpt ((ebox e1).1 ⊓ (ebox e2).1) ⊤
    else if horiz e1 then tpt (ebox e2).1 (ebox e1).2
    else
      -- e2.box()[0] is the point e2.1.1
      let a := (e1.2.2 - e1.1.2) / (e1.2.1 - e1.1.1)
      tpt (ebox e2).1 (.point (e1.1.2 + a * (e2.1.1 - e1.1.1)))
  else if horiz e2 then
    if degen e1 then tpt (ebox e1).1 ((ebox e1).2 ⊓ (ebox e2).2)
    else if horiz e1 then tpt ⊤ ((ebox e1).2 ⊓ (ebox e2).2)
    else if vert e1 then tpt (ebox e1).1 (ebox e2).2
    else
      let a := (e1.2.2 - e1.1.2) / (e1.2.1 - e1.1.1)
      tpt (.point (e1.1.1 + (e2.1.2 - e1.1.2) / a)) (ebox e2).2
  else
    let a := e1.1.1 * e1.2.2 - e1.1.2 * e1.2.1
    let b := e2.1.1 * e2.2.2 - e2.1.2 * e2.2.1
    let c := (e1.1.1 - e1.2.1) * (e2.1.2 - e2.2.2) - (e1.1.2 - e1.2.2) * (e2.1.1 - e2.2.1)
    tpt (dv z (a * (e2.1.1 - e2.2.1) - (e1.1.1 - e1.2.1) * b) c) (dv z (a * (e2.1.2 - e2.2.2) - (e1.1.2 - e1.2.2) * b) c)

/-- `ThickEdge::proj_intersection`, codac_ThickEdge.cpp:173-248 -/
def proj (z : K → Itv K) (e1 e2 : Edge K) : TPt K :=
  if ¬ degen e1 ∧ degen e2 then projAux z e2 e1 else projAux z e1 e2

/-- `ThickEdge::operator&(const ThickEdge&)`, codac_ThickEdge.cpp:167-171 -/
def interE (z : K → Itv K) (e1 e2 : Edge K) : TPt K :=
  let p := proj z e1 e2
  tpt (p.1 ⊓ (ebox e1).1 ⊓ (ebox e2).1) (p.2 ⊓ (ebox e1).2 ⊓ (ebox e2).2)

/-- `ThickEdge::push`, codac_ThickEdge.cpp:275-287, for a bounded box `[a,b] × [c,d]` -/
def boxEdges (a b c d : K) : List (Edge K) := [((a, c), (b, c)), ((b, c), (b, d)), ((b, d), (a, d)), ((a, d), (a, c))]

/-- the point `p` as a box if it is in the box `x`, codac_ThickEdge.cpp:144-148 -/
def ifIn (p : Pt K) (x : TPt K) : TPt K := if p.1 ∈ x.1 ∧ p.2 ∈ x.2 then ofPt p else ⊥

/-- `ThickEdge::operator&(const IntervalVector&)`, codac_ThickEdge.cpp:133-165, for the bounded box `[a,b] × [c,d]` -/
def edgeBox (z : K → Itv K) (e : Edge K) (a b c d : K) : TPt K :=
  let x : TPt K := (.icc a b, .icc c d)
  if vert e ∨ horiz e then tpt (x.1 ⊓ (ebox e).1) (x.2 ⊓ (ebox e).2)
  else
    let i := ifIn e.1 x ⊔ ifIn e.2 x
    if (e.1.1 ∈ x.1 ∧ e.1.2 ∈ x.2) ∧ (e.2.1 ∈ x.1 ∧ e.2.2 ∈ x.2) then i
    else (boxEdges a b c d).foldl (fun i f => i ⊔ interE z e f) i

/-- `Polygon::edges`, codac_Polygon.cpp:63-70: from each vertex to the next one, and from the last one to the first one -/
def edges (v : List (Pt K)) : List (Edge K) := v.zip (v.tail ++ v.take 1)

/-- `Polygon::box`, codac_Polygon.cpp:84-90 -/
def pbox (v : List (Pt K)) : TPt K := v.foldl (fun b p => b ⊔ ofPt p) ⊥

/-- `BoolInterval` -/
inductive BI | no | yes | maybe
deriving DecidableEq

/-- loop of `ConvexPolygon::contains`, codac_ConvexPolygon.cpp:149-174: edges left, `prev_e`, crossing number. `lo` and `hi` are the
bounds of `box()[1]` -/
def rayLoop (z : K → Itv K) (ray : Edge K) (lo hi : K) : List (Edge K) → TPt K → Nat → BI
  | [], _, a => if a % 2 = 1 then .yes else .no
  | e :: es, prev, a =>
    if ray.1.2 ∉ (ebox e).2 then rayLoop z ray lo hi es prev a
    else
      let i := interE z e ray
      if i ≠ ⊥ then
        if ray.1.1 ∈ i.1 then .maybe
        else if lo ∈ i.2 ∨ hi ∈ i.2 then rayLoop z ray lo hi es prev a
        else if prev.1.intersects i.1 then rayLoop z ray lo hi es prev a
        else if ((i.1.bounds?).map fun b => decide (ray.1.1 < b.1)) = some true then rayLoop z ray lo hi es i (a + 1)
        else rayLoop z ray lo hi es i a
      else rayLoop z ray lo hi es i a

/-- `ConvexPolygon::contains(const ThickPoint&)`, codac_ConvexPolygon.cpp:130-175, for a point -/
def contains (z : K → Itv K) (v : List (Pt K)) (p : Pt K) : BI :=
  match (pbox v).1.bounds?, (pbox v).2.bounds?, (edges v).getLast? with
  | some (_, xu), some (lo, hi), some l =>
    if p.1 ∈ (pbox v).1 ∧ p.2 ∈ (pbox v).2 then
      let ray : Edge K := (p, (xu + 1, p.2))
      rayLoop z ray lo hi (edges v) (interE z l ray) 0
    else .no
  | _, _, _ => .no

/-- `ConvexPolygon::fast_intersection`, codac_ConvexPolygon.cpp:293-321 -/
def fastInter (z : K → Itv K) (v : List (Pt K)) (x : TPt K) : TPt K :=
  if v = [] ∨ x.1 = ⊥ ∨ x.2 = ⊥ then ⊥
  else
    let r := tpt (x.1 ⊓ (pbox v).1) (x.2 ⊓ (pbox v).2)
    match r.1.bounds?, r.2.bounds? with
    | some (a, b), some (c, d) =>
      let i := (edges v).foldl (fun i e => i ⊔ edgeBox z e a b c d) ⊥
      [(a, c), (b, c), (b, d), (a, d)].foldl (fun i p => if contains z v p ≠ .no then i ⊔ ofPt p else i) i
    | _, _ => ⊥

/-- `&&` of two `BoolInterval`s (IBEX) -/
def BI.and : BI → BI → BI
  | .no, _ => .no
  | _, .no => .no
  | .yes, .yes => .yes
  | _, _ => .maybe

/-- `ConvexPolygon::is_subset`, codac_ConvexPolygon.cpp:98-110: `v` is the polygon, `w` the argument -/
def isSubset (z : K → Itv K) (v w : List (Pt K)) : BI :=
  let rec go : List (Pt K) → BI → BI
    | [], r => r
    | p :: l, r =>
      let r' := r.and (contains z w p)
      if r' = .no then .no else go l r'
  go v .yes

end Codac.Poly
