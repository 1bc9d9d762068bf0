import Verif.Ctc.Static
import Verif.Tube.OpsModel
import Verif.Geometry.Simplify

/-!
# `CtcLinobs` and `CtcChain`: linear systems enclosed with polygons

Sources: `src/core/contractors/dyn/codac_CtcLinobs.cpp`, `codac_CtcChain.cpp`. A matrix is the pair of its rows. The matrix exponential of Eigen
is a parameter (a function of time). The constructor of polygons from thick points is a parameter `mk`: `ofThick 1e-10` in the code.
-/

namespace Codac.Lin
open Codac.Graham Codac.Poly

variable {K : Type*} [Field K] [LinearOrder K] [IsStrictOrderedRing K]

/-- matrices of dimension 2: the rows -/
abbrev Mat (K : Type*) := (K × K) × (K × K)

/-- interval matrices -/
abbrev IMat (K : Type*) [LinearOrder K] := TPt K × TPt K

/-- `exp_At(A, [s,t])`, codac_CtcLinobs.cpp:22-41: the hull of the exponentials at both bounds. `E t` is the exponential of `A t` -/
def expAt (E : K → Mat K) (s t : K) : IMat K :=
  (((.point (E s).1.1 ⊔ .point (E t).1.1), (.point (E s).1.2 ⊔ .point (E t).1.2)), ((.point (E s).2.1 ⊔ .point (E t).2.1), (.point (E s).2.2 ⊔ .point (E t).2.2)))

/-- `D * M * (u * b)`, codac_CtcLinobs.cpp:246, 253, 260: interval, interval matrix, interval, vector -/
def forced (D : Itv K) (M : IMat K) (u : Itv K) (b : K × K) : TPt K :=
  (.add (.mul (.mul D M.1.1) (.mul u (.point b.1))) (.mul (.mul D M.1.2) (.mul u (.point b.2))),
    .add (.mul (.mul D M.2.1) (.mul u (.point b.1))) (.mul (.mul D M.2.2) (.mul u (.point b.2))))

/-- `operator*(IntervalMatrix, ConvexPolygon)`, codac_polygon_arithmetic.cpp:59-68 -/
def mulW (mk : List (TPt K) → Option (List (Pt K))) (M : IMat K) (v : List (Pt K)) : Option (List (Pt K)) :=
  mk (v.map fun p => tpt (.add (.mul M.1.1 (.point p.1)) (.mul M.1.2 (.point p.2))) (.add (.mul M.2.1 (.point p.1)) (.mul M.2.2 (.point p.2))))

/-- `operator+(ConvexPolygon, IntervalVector)`, codac_polygon_arithmetic.cpp:24-39 -/
def addW (mk : List (TPt K) → Option (List (Pt K))) (v : List (Pt K)) (X : TPt K) : Option (List (Pt K)) :=
  mk (v.map fun p => tpt (.add (.point p.1) X.1) (.add (.point p.2) X.2))

/-- the parameters of the contractor: the constructor of polygons from thick points, the limit of size of the thick points in the intersections,
the exponentials of `A t` and of `-A t`, `b`, and `m_polygon_max_edges` -/
structure Params (K : Type*) [LinearOrder K] where
  poly : List (TPt K) → Option (List (Pt K))
  eps : K
  E : K → Mat K
  F : K → Mat K
  b : K × K
  edges : Nat

/-- `CtcLinobs::ctc_fwd_gate`, codac_CtcLinobs.cpp:243-248 -/
def fwdGate (P : Params K) (pk pkm1 : List (Pt K)) (dt : K) (u : Itv K) : Option (List (Pt K)) :=
  (mulW P.poly (expAt P.E dt dt) pkm1).bind fun q =>
  (addW P.poly q (forced (.point dt) (expAt P.E 0 dt) u P.b)).bind fun r =>
  (inter P.eps pk r).map (simplify P.edges)

/-- `CtcLinobs::ctc_bwd_gate`, codac_CtcLinobs.cpp:250-255 -/
def bwdGate (P : Params K) (pk pkp1 : List (Pt K)) (dt : K) (u : Itv K) : Option (List (Pt K)) :=
  (mulW P.poly (expAt P.F dt dt) pkp1).bind fun q =>
  (addW P.poly q ((forced (.point dt) (expAt P.F 0 dt) u P.b).1.neg, (forced (.point dt) (expAt P.F 0 dt) u P.b).2.neg)).bind fun r =>
  (inter P.eps pk r).map (simplify P.edges)

/-- `CtcLinobs::polygon_envelope`, codac_CtcLinobs.cpp:257-261 -/
def polyEnvelope (P : Params K) (pk : List (Pt K)) (dt : K) (u : Itv K) : Option (List (Pt K)) :=
  (mulW P.poly (expAt P.E 0 dt) pk).bind fun q => addW P.poly q (forced (.icc 0 dt) (expAt P.E 0 dt) u P.b)

/-- `ConvexPolygon(const IntervalVector&)`: `none` for an empty box (assertion) or an unbounded one -/
def polyOf (X : TPt K) : Option (List (Pt K)) :=
  match X.1.bounds?, X.2.bounds? with
  | some (a, b), some (c, d) => some (ofBox a b c d)
  | _, _ => none

/-- the observations of a slice, codac_CtcLinobs.cpp:178-180 and 223-225: `dt` is the duration to the observation -/
def obsLoop (gate : List (Pt K) → List (Pt K) → K → Option (List (Pt K))) (b : K × K) (dt : K → K) : List (K × TPt K) → List (Pt K) → Option (List (Pt K))
  | [], p => some p
  | (t, y) :: obs, p =>
    if b.1 ≤ t ∧ t ≤ b.2 then (polyOf y).bind fun q => (gate p q (dt t)).bind (obsLoop gate b dt obs)
    else obsLoop gate b dt obs p

/-- the state of the loops: the polygons of the gates and the two tubes -/
structure St (K : Type*) [LinearOrder K] where
  ps : List (List (Pt K))
  x1 : Tube K
  x2 : Tube K

/-- one iteration of the forward loop, codac_CtcLinobs.cpp:170-203, on the slices of index `k` of bounds `b` -/
def fwdStep (P : Params K) (R : Itv K) (bwd : Bool) (obs : List (K × TPt K)) (u : Tube K) (k : Nat) (b : K × K) (σ : St K) : Option (St K) :=
  if (Itv.icc b.1 b.2).intersects R then
    (fwdGate P (σ.ps.getD (k + 1) []) (σ.ps.getD k []) (b.2 - b.1) (u.codAt k)).bind fun p0 =>
    (obsLoop (fun p q dt => fwdGate P p q dt (u.codAt k)) b (fun t => b.2 - t) obs p0).bind fun p =>
    let σ1 : St K := ⟨σ.ps.set (k + 1) p, σ.x1.upd k (Slice.setOutputGate (pbox p).1 true), σ.x2.upd k (Slice.setOutputGate (pbox p).2 true)⟩
    if bwd then some σ1
    else (polyEnvelope P (σ1.ps.getD k []) (b.2 - b.1) (u.codAt k)).map fun e =>
      ⟨σ1.ps, σ1.x1.upd k (Slice.setEnvelope (pbox e).1 true), σ1.x2.upd k (Slice.setEnvelope (pbox e).2 true)⟩
  else some σ

/-- the forward loop, codac_CtcLinobs.cpp:161-204 -/
def fwdLoop (P : Params K) (R : Itv K) (bwd : Bool) (obs : List (K × TPt K)) (u : Tube K) : Nat → List (K × K) → St K → Option (St K)
  | _, [], σ => some σ
  | k, b :: bs, σ => (fwdStep P R bwd obs u k b σ).bind (fwdLoop P R bwd obs u (k + 1) bs)

/-- one iteration of the backward loop, codac_CtcLinobs.cpp:215-239 -/
def bwdStep (P : Params K) (R : Itv K) (obs : List (K × TPt K)) (u : Tube K) (k : Nat) (b : K × K) (σ : St K) : Option (St K) :=
  if (Itv.icc b.1 b.2).intersects R then
    (bwdGate P (σ.ps.getD k []) (σ.ps.getD (k + 1) []) (b.2 - b.1) (u.codAt k)).bind fun p0 =>
    (obsLoop (fun p q dt => bwdGate P p q dt (u.codAt k)) b (fun t => t - b.1) obs p0).bind fun p =>
    (polyEnvelope P p (b.2 - b.1) (u.codAt k)).map fun e =>
      ⟨σ.ps.set k p, (σ.x1.upd k (Slice.setInputGate (pbox p).1 true)).upd k (Slice.setEnvelope (pbox e).1 true),
        (σ.x2.upd k (Slice.setInputGate (pbox p).2 true)).upd k (Slice.setEnvelope (pbox e).2 true)⟩
  else some σ

/-- the backward loop, codac_CtcLinobs.cpp:206-240: the slices from the last one -/
def bwdLoop (P : Params K) (R : Itv K) (obs : List (K × TPt K)) (u : Tube K) : Nat → List (K × K) → St K → Option (St K)
  | _, [], σ => some σ
  | k, b :: bs, σ => (bwdLoop P R obs u (k + 1) bs σ).bind (bwdStep P R obs u k b)

/-- the polygons of the gates, codac_CtcLinobs.cpp:143-159 -/
def gatePolys (x1 x2 : Tube K) : Option (List (List (Pt K))) :=
  (polyOf (x1.g0, x2.g0)).bind fun p => (((x1.cells.map Cell.out).zip (x2.cells.map Cell.out)).mapM polyOf).map (p :: ·)

/-- `CtcLinobs::contract(v_t, v_y, x1, x2, u, v_p_k, t_propa)`, codac_CtcLinobs.cpp:122-241: `R` is the restricted time domain, `C` the domain
`[-9999,9999]`, `fwd` and `bwd` the directions, `obs` the instants and boxes of the observations. `none` when the slicings differ (assertion) or
when a box is empty or unbounded -/
def linobs (P : Params K) (R C : Itv K) (fwd bwd : Bool) (obs : List (K × TPt K)) (x1 x2 u : Tube K) : Option (St K) :=
  if x1.sameSlicing u ∧ x2.sameSlicing u then
    let y1 := x1.map (· ⊓ C)
    let y2 := x2.map (· ⊓ C)
    let bs := u.slices.map fun s => (s.lb, s.ub)
    (gatePolys y1 y2).bind fun ps =>
    (if fwd then fwdLoop P R bwd obs u 0 bs ⟨ps, y1, y2⟩ else some ⟨ps, y1, y2⟩).bind fun σ =>
    if bwd then bwdLoop P R obs u 0 bs σ else some σ
  else none

/-- the constructor of polygons, stopped when a thick point is smaller than `eps` without being a point -/
def mkChecked (eps : K) (l : List (TPt K)) : Option (List (Pt K)) :=
  if l.all fun X => match X.1.bounds?, X.2.bounds? with
    | some (a, b), some (c, d) => (decide (a = b) && decide (c = d)) || decide (eps ≤ max (b - a) (d - c))
    | _, _ => true
  then ofThick eps l else none

/-- the exponentials of `CtcChain`, codac_CtcChain.cpp:20-21: `A = [[0,1],[0,0]]`, `b = (0,1)` -/
def chain (mk : List (TPt K) → Option (List (Pt K))) (eps : K) : Params K where
  poly := mk
  eps := eps
  E t := ((1, t), (0, 1))
  F t := ((1, -t), (0, 1))
  b := (0, 1)
  edges := 15

end Codac.Lin
