import Verif.Tube.Fold
import Verif.Tube.Ops

/-!
# Operators of slices

Source: `src/core/domains/slice/codac_Slice_operators.cpp`. `φ` is the operator of intervals of IBEX (`+=`, `-=`, `*=`, `/=`, `|=`, `&=`).
-/

set_option linter.unusedSectionVars false

namespace Codac.SliceOps
variable {K : Type*} [LinearOrder K]

/-- the body of the three operators, codac_Slice_operators.cpp:20-43: envelope, input gate, output gate, without consistency; `X`, `G`, `H` the other operands -/
def assign (φ : Itv K → Itv K → Itv K) (X G H : Itv K) : Setter K := fun p n s =>
  let s1 := Slice.setEnvelope (φ s.cod X) false p n s
  let s2 := Slice.setInputGate (φ s1.inG G) false p n s1
  Slice.setOutputGate (φ s2.outG H) false p n s2

/-- operator with a number, codac_Slice_operators.cpp:20-26 -/
def opScalar (φ : Itv K → Itv K → Itv K) (x : K) : Setter K := assign φ (.point x) (.point x) (.point x)

/-- operator with a slice, codac_Slice_operators.cpp:28-35 (the time domains are asserted to be the same) -/
def opSlice (φ : Itv K → Itv K → Itv K) (x : Slice K) : Setter K := assign φ x.cod x.inG x.outG

/-- operator with a trajectory, codac_Slice_operators.cpp:37-44; `ev` is `Trajectory::operator()(Interval)` -/
def opTraj (φ : Itv K → Itv K → Itv K) (ev : Itv K → Itv K) : Setter K := fun p n s =>
  assign φ (ev (.icc s.lb s.ub)) (ev (.point s.lb)) (ev (.point s.ub)) p n s

/-- the operator with the slice of index `k` of a list -/
def opAt (φ : Itv K → Itv K → Itv K) (xs : List (Slice K)) (k : Nat) : Setter K :=
  match xs[k]? with
  | some x => opSlice φ x
  | none => fun _ _ s => s

/-- the operator applied by the user to each slice of a tube, with the slices of another one, in order: the gates are shared by neighbours -/
def passSlices (φ : Itv K → Itv K → Itv K) (T X : Tube K) : Tube K :=
  (List.range T.nbSlices).foldl (fun T k => T.upd k (opAt φ X.slices k)) T

/-- the same with a number -/
def passScalar (φ : Itv K → Itv K → Itv K) (T : Tube K) (x : K) : Tube K := (List.range T.nbSlices).foldl (fun T k => T.upd k (opScalar φ x)) T

end Codac.SliceOps
