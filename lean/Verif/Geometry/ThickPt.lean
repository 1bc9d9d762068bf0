import Verif.Geometry.Polygon
import Verif.Arith

/-!
# `ThickPoint` and centers: model

Sources: `/repo/src/core/geometry/codac_ThickPoint.cpp:87-100, 157-210`, `/repo/src/core/geometry/codac_Polygon.cpp:93-100`.
-/

set_option linter.unusedSectionVars false

namespace Codac.Poly
open Codac.Graham

variable {K : Type*} [Field K] [LinearOrder K] [IsStrictOrderedRing K]

/-- `ThickPoint::aligned`, codac_ThickPoint.cpp:157-161 -/
def alignedT (A : IArith K) (a b c : TPt K) : BI :=
  let x := A.sub (A.mul (A.sub b.1 a.1) (A.sub c.2 a.2)) (A.mul (A.sub b.2 a.2) (A.sub c.1 a.1))
  if x = .point 0 then .yes else if 0 ∈ x then .maybe else .no

/-- `xlb` (or `ylb`) of `push`, codac_ThickPoint.cpp:182, 185 -/
def pushLb : Itv K → Itv K
  | .mk (some a) _ _ => .point a
  | .mk none h _ => .ofBounds none h
  | .empty => .empty

/-- `xub` (or `yub`) of `push`, codac_ThickPoint.cpp:183, 186 -/
def pushUb : Itv K → Itv K
  | .mk _ (some b) _ => .point b
  | .mk l none _ => .ofBounds l none
  | .empty => .empty

/-- `ThickPoint::push(box, vector<ThickPoint>&)`, codac_ThickPoint.cpp:177-192; `none`: the assertion fails -/
def pushThick (X : TPt K) (l : List (TPt K)) : Option (List (TPt K)) :=
  if X.1.isEmpty || X.2.isEmpty then none
  else some (l ++ [tpt (pushLb X.1) (pushLb X.2), tpt (pushUb X.1) (pushLb X.2), tpt (pushUb X.1) (pushUb X.2), tpt (pushLb X.1) (pushUb X.2)])

/-- `ThickPoint::push(box, vector<Vector>&)`, codac_ThickPoint.cpp:194-210; `none`: an assertion fails -/
def pushPts (X : TPt K) (l : List (Pt K)) : Option (List (Pt K)) :=
  match X.1.bounds?, X.2.bounds? with
  | some (a, b), some (c, d) => some (l ++ [(a, c), (b, c), (b, d), (a, d)])
  | _, _ => none

/-- `ThickPoint::bounds_pts`, codac_ThickPoint.cpp:87-100; `none`: an infinite coordinate -/
def boundsPts (X : TPt K) : Option (List (Pt K)) :=
  if X.1.isEmpty || X.2.isEmpty then some (removeIdentical [])
  else match X.1.bounds?, X.2.bounds? with
  | some (a, b), some (c, d) => some (removeIdentical [(a, c), (a, d), (b, c), (b, d)])
  | _, _ => none

/-- `Polygon::center`, codac_Polygon.cpp:93-100. `r` is the number `1. / n` computed by the machine for `n` vertices; `none` for no vertex -/
def polyCenter (A : IArith K) (r : K) (v : List (Pt K)) : Option (TPt K) :=
  if v = [] then none
  else
    let c := v.foldl (fun c p => ((A.add c.1 (.point p.1), A.add c.2 (.point p.2)) : TPt K)) (.point 0, .point 0)
    some (tpt (A.mul (.point r) c.1) (A.mul (.point r) c.2))

end Codac.Poly
