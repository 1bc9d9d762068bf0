import Verif.Tube.PolyModel
import Verif.Tube.Ops
import Verif.Tube.Eval
import Verif.Tube.SetAt
import Verif.Traj.History
import Verif.Ctc.DerivModel

/-!
# Tubes: construction from lists, bisection, hull, overlaps, bounds, diameters, volume, primitive

Source: `src/core/domains/tube/codac_Tube.cpp`, `src/core/domains/slice/codac_Slice.cpp`.
-/

set_option linter.unusedSectionVars false

namespace Codac

section order
variable {K : Type*} [LinearOrder K]

/-- `Tube::bisect(t, ratio)`, codac_Tube.cpp:1291-1314. `bis` is the bisector of IBEX (`LargestFirst`) for the ratio, on a box of one
component; `none`: it throws `NoBisectableVariableException`, then `bisect` throws too. -/
def Tube.bisect (bis : Itv K → Option (Itv K × Itv K)) (T : Tube K) (t : K) : Option (Tube K × Tube K) :=
  (bis (T.evalAt t)).map fun p => (T.setAt p.1 t, T.setAt p.2 t)

/-- `Tube::hull(l_tubes)`, codac_Tube.cpp:1532-1540; the list is asserted not to be empty -/
def hullTubes : List (Tube K) → Option (Tube K)
  | [] => none
  | T :: l => some (l.foldl (fun H X => H.opAssign (· ⊔ ·) X) T)

/-- `lb()` of an interval; `none`: it is infinite, or the interval is empty -/
def Itv.lo? : Itv K → Option K
  | .empty => none
  | .mk l _ _ => l

/-- `ub()` of an interval; `none`: it is infinite, or the interval is empty -/
def Itv.hi? : Itv K → Option K
  | .empty => none
  | .mk _ h _ => h

/-- `p.first |= X.lb(); p.second |= X.ub()`, codac_Slice.cpp:184-201; `none`: `X` is empty or unbounded (not modelled) -/
def addBounds (p : Itv K × Itv K) (X : Itv K) : Option (Itv K × Itv K) :=
  match X.lo?, X.hi? with
  | some l, some u => some (p.1 ⊔ .point l, p.2 ⊔ .point u)
  | _, _ => none

/-- `Slice::eval([a,b])`, codac_Slice.cpp:176-205, for `[a,b]` in the time domain of the slice -/
def Slice.evalPair (s : Slice K) (a b : K) : Option (Itv K × Itv K) :=
  (if a ≤ s.lb ∧ s.lb ≤ b then addBounds (⊥, ⊥) s.inG else some (⊥, ⊥)).bind fun p1 =>
  (if a ≤ s.ub ∧ s.ub ≤ b then addBounds p1 s.outG else some p1).bind fun p2 =>
  if (s.lb ≤ a ∧ b ≤ s.ub) ∧ ¬ (a = s.lb ∧ b = s.lb) ∧ ¬ (a = s.ub ∧ b = s.ub) then addBounds p2 s.cod else some p2

/-- `Tube::eval([a,b])`, codac_Tube.cpp:697-735 (mode without synthesis), for `[a,b]` in the time domain -/
def Tube.evalPair (T : Tube K) (a b : K) : Option (Itv K × Itv K) :=
  ((seek a T.slices).takeWhile fun s => decide (s.lb ≤ b)).foldlM
    (fun p s => (s.evalPair (max a s.lb) (min b s.ub)).map fun q => (p.1 ⊔ q.1, p.2 ⊔ q.2)) (⊥, ⊥)

end order

section field
variable {K : Type*} [Field K] [LinearOrder K] [IsStrictOrderedRing K]

/-- `Interval::diam()`: `none` when it is infinite. IBEX gives 0 for an empty interval (assumed). Exact subtraction. -/
def Itv.width? : Itv K → Option K
  | .empty => some 0
  | .mk (some l) (some h) _ => some (h - l)
  | _ => none

/-- `Tube::overlaps(x, ratio)`, codac_Tube.cpp:1136-1150; exact sums -/
def Tube.overlaps (T X : Tube K) (ratio : K) : Bool :=
  let r := (T.binOp (· ⊓ ·) X).slices.foldl (fun acc s => if s.cod.isEmpty then acc else acc + (s.ub - s.lb)) 0
  decide (ratio ≤ r / (T.tf - T.t0))

/-- the loop of `Tube::lb()` and `Tube::ub()`, codac_Tube.cpp:285-317; `β` gives the bound, `none` when it is not a number -/
def boundLoop (β : Itv K → Option K) : List (Slice K) → Traj K → Option (Traj K)
  | [], x => some x
  | s :: ss, x => (β s.outG).bind fun v => boundLoop β ss (x.set v s.ub)

/-- `Tube::lb()` (`β` is `lo?`), codac_Tube.cpp:285-300, and `Tube::ub()` (`β` is `hi?`), codac_Tube.cpp:302-317 -/
def Tube.boundTraj (β : Itv K → Option K) (T : Tube K) : Option (Traj K) :=
  match T.slices with
  | [] => none
  | s :: ss => (β s.inG).bind fun v => boundLoop β (s :: ss) (Traj.empty.set v s.lb)

/-- the loop of `Tube::largest_slice()`, codac_Tube.cpp:447-457 -/
def largestLoop : Slice K → K → List (Slice K) → Slice K
  | best, _, [] => best
  | best, m, s :: ss =>
    match s.cod.width? with
    | none => s
    | some d => if m < d then largestLoop s d ss else largestLoop best m ss

/-- `Tube::largest_slice()`, codac_Tube.cpp:443-460 -/
def Tube.largestSlice (T : Tube K) : Option (Slice K) :=
  match T.slices with
  | [] => none
  | s :: ss => some (largestLoop s 0 (s :: ss))

/-- `Tube::max_diam()`, codac_Tube.cpp:911-920; the inner `none` is infinity -/
def Tube.maxDiam (T : Tube K) : Option (Option K) := T.largestSlice.map fun s => s.cod.width?

/-- the loop of `Tube::max_gate_diam(t)`, codac_Tube.cpp:934-949: diameter (`none`: infinity) and instant -/
def gateDiamLoop : K → K → List (Slice K) → Option K × K
  | m, t, [] => (some m, t)
  | m, t, s :: ss =>
    match s.outG.width? with
    | none => (none, s.ub)
    | some d => if m < d then gateDiamLoop d s.ub ss else gateDiamLoop m t ss

/-- `Tube::max_gate_diam(t)`, codac_Tube.cpp:922-952 -/
def Tube.maxGateDiam (T : Tube K) : Option (Option K × K) :=
  match T.slices with
  | [] => none
  | s :: ss =>
    match s.inG.width? with
    | none => some (none, s.lb)
    | some d => some (gateDiamLoop d s.lb (s :: ss))

/-- `Slice::volume()`, codac_Slice.cpp:139-142; `none`: infinity -/
def Slice.volume (s : Slice K) : Option K := s.cod.width?.map fun d => (s.ub - s.lb) * d

/-- `Tube::volume()`, codac_Tube.cpp:628-638; `none`: infinity; exact sums -/
def Tube.volume (T : Tube K) : Option K := T.slices.foldlM (fun acc s => s.volume.map fun v => acc + v) 0

/-- the loop of `Tube::diam(v)` over the vertices of a slice, codac_Tube.cpp:991-992: the instant of each point set is the ordinate of the vertex -/
def diamVertices (A : IArith K) (s : Slice K) (V : Itv K) : List (K × K) → Traj K → Option (Traj K)
  | [], x => some x
  | p :: ps, x => (s.interpolAt A V p.1).width?.bind fun d => diamVertices A s V ps (x.set d p.2)

/-- the loop of `Tube::diam(v)` over the slices, codac_Tube.cpp:987-996 -/
def diamSlices (A : IArith K) : List (Slice K × Itv K) → Traj K → Option (Traj K)
  | [], x => some x
  | q :: qs, x => (q.1.polygon q.2).bind fun ps => (diamVertices A q.1 q.2 ps x).bind fun x => diamSlices A qs x

/-- `Tube::diam(v)`, codac_Tube.cpp:981-999; `none` when a diameter is infinite or a polygon unbounded -/
def Tube.diamV (A : IArith K) (x v : Tube K) : Option (Traj K) := diamSlices A (x.withDeriv v 0) Traj.empty

/-- `Tube::primitive(c)`, codac_Tube.cpp:188-196; `A`, `B` and `R` are the parameters of `CtcDeriv` (`R`: its restricted time domain,
`[-oo,oo]` for a new contractor) -/
def Tube.primitive (A : IArith K) (B : K) (T : Tube K) (c : Itv K) : Option (Tube K) :=
  derivTube A B ⊤ true false ((T.set ⊤).setAt c T.t0) T

end field

end Codac
