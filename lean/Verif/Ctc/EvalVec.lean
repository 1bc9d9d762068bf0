import Verif.Ctc.EvalItvModel
import Verif.Tube.Vector

/-!
# `CtcEval` on vectors of tubes, `CtcDeriv` on vectors of tubes

Source: `src/core/contractors/dyn/codac_CtcEval.cpp:335-373, 395-418`, `codac_CtcDeriv.cpp:110-118`. A `TubeVector` is a list of tubes, an
`IntervalVector` a list of intervals.
-/

set_option linter.unusedSectionVars false

namespace Codac.EvVec

section
variable {K : Type*} [LinearOrder K]

/-- `TubeVector::operator()(const Interval& t)`, codac_TubeVector.cpp:370-376 -/
def eval (y : List (Tube K)) (t : Itv K) : Box K := y.map fun T => T.evalItv t

/-- `TubeVector::is_empty`, codac_TubeVector.cpp:734-740 -/
def isEmpty (y : List (Tube K)) : Bool := y.any Tube.isEmpty

/-- `z &= y(ti)` for the intervals of the inversion, codac_CtcEval.cpp:364-368 and 412-416 -/
def meetAll (y : List (Tube K)) (L : List (Itv K)) (z : Box K) : Box K := L.foldl (fun z ti => z.inter (eval y ti)) z

/-- `t_ |= ti`, codac_CtcEval.cpp:363-369 and 411-417 -/
def joinAll (L : List (Itv K)) : Itv K := L.foldl (fun acc ti => acc ⊔ ti) ⊥

/-- `CtcEval::contract(Interval& t, IntervalVector& z, const TubeVector& y)`, codac_CtcEval.cpp:395-418; returns `t` and `z`; `none` when the
sizes differ (assertion, exception) or when the components of `y` have different slicings (see `vInvertList`). The assertion of
`TubeVector::invert` that `t` meets the time domain (codac_TubeVector.cpp:511) is left out. -/
def const (y : List (Tube K)) (t : Itv K) (z : Box K) : Option (Itv K × Box K) :=
  if y.length = z.length then
    if t.isEmpty || z.isEmpty || isEmpty y then some (⊥, z.setEmpty)
    else (vInvertList y z t).map fun L => (t ⊓ joinAll L, meetAll y L z)
  else none

end

variable {K : Type*} [Field K] [LinearOrder K] [IsStrictOrderedRing K]

/-- `for(int i = 0 ; i < y.size() ; i++) contract(t, z[i], y[i], w[i])`, codac_CtcEval.cpp:371-372: the same `t` goes from one component to
the next one -/
def loop (A : IArith K) (B : K) (R : Itv K) (prop pres : Bool) : Itv K → Box K → List (Tube K) → List (Tube K) → Option (Itv K × Box K × List (Tube K) × List (Tube K))
  | t, z :: zs, y :: ys, w :: ws =>
    (evalInterval A B R prop pres t z y w).bind fun r =>
      (loop A B R prop pres r.1 zs ys ws).map fun q => (q.1, r.2.1 :: q.2.1, r.2.2.1 :: q.2.2.1, r.2.2.2 :: q.2.2.2)
  | t, _, _, _ => some (t, [], [], [])

/-- `TubeVector::same_slicing`, codac_TubeVector.cpp:1017-1024, with the equality of the time domains, codac_CtcEval.cpp:346-347 -/
def sameSlicing (y w : List (Tube K)) : Bool :=
  (List.zipWith (fun (a b : Tube K) => decide (a.t0 = b.t0) && decide (a.tf = b.tf) && a.sameSlicing b) y w).all id

/-- `CtcEval::contract(Interval& t, IntervalVector& z, TubeVector& y, TubeVector& w)`, codac_CtcEval.cpp:342-373; returns `t`, `z`, `y`, `w` -/
def interval (A : IArith K) (B : K) (R : Itv K) (prop pres : Bool) (t : Itv K) (z : Box K) (y w : List (Tube K)) :
    Option (Itv K × Box K × List (Tube K) × List (Tube K)) :=
  if y.length = z.length ∧ y.length = w.length ∧ sameSlicing y w = true then
    if t.isEmpty || z.isEmpty || isEmpty y || isEmpty w then some (⊥, z.setEmpty, y.map Tube.setEmpty, w.map Tube.setEmpty)
    else (vInvertList y z t).bind fun L => loop A B R prop pres (t ⊓ joinAll L) (meetAll y L z) y w
  else none

/-- `CtcEval::contract(double t, IntervalVector& z, TubeVector& y, TubeVector& w)`, codac_CtcEval.cpp:335-340; returns `z`, `y`, `w` -/
def instant (A : IArith K) (B : K) (R : Itv K) (prop pres : Bool) (t : K) (z : Box K) (y w : List (Tube K)) :
    Option (Box K × List (Tube K) × List (Tube K)) :=
  (interval A B R prop pres (.point t) z y w).map fun r => r.2

/-- `CtcDeriv::contract(TubeVector& x, const TubeVector& v, TimePropag)`, codac_CtcDeriv.cpp:110-118 -/
def deriv (A : IArith K) (B : K) (R : Itv K) (fw bw : Bool) : List (Tube K) → List (Tube K) → Option (List (Tube K))
  | [], [] => some []
  | x :: xs, v :: vs => (derivTube A B R fw bw x v).bind fun x' => (deriv A B R fw bw xs vs).map fun l => x' :: l
  | _, _ => none

end Codac.EvVec
