import Verif.Ctc.Static

/-!
# `CtcPicard`: model

Source: `src/core/contractors/dyn/codac_CtcPicard.cpp`, for a function which is not inter-temporal (the only kind built by
`TFunction`, codac_TFunction.cpp:238). The inclusion function is a parameter `F : List (Itv K) → List (Itv K)` applied to
`(t, x)`; `mid` is the function `Interval::mid` of IBEX, without assumption; `big` the interval `[-99999,99999]`.
-/

set_option linter.unusedSectionVars false

namespace Codac

variable {K : Type*} [Field K] [LinearOrder K] [IsStrictOrderedRing K]

/-- parameters of the contractor -/
structure Picard (K : Type*) [Field K] [LinearOrder K] [IsStrictOrderedRing K] where
  A : IArith K
  F : List (Itv K) → List (Itv K)
  mid : Itv K → K
  delta : K
  eps : K
  big : Itv K

namespace Picard
variable (P : Picard K)

/-- `is_unbounded`, codac_CtcPicard.cpp:73-81 -/
def unb (X : List (Itv K)) : Bool := X.any fun I => I.isUnbounded || decide (I = P.big)

/-- `IntervalVector::is_empty` (IBEX): looks at the first component -/
def boxEmpty (X : List (Itv K)) : Bool :=
  match X with
  | [] => false
  | I :: _ => I.isEmpty

/-- the inflation of the guess, codac_CtcPicard.cpp:237-240 -/
def inflate (I : Itv K) : Itv K :=
  P.A.add (P.A.add (.point (P.mid I)) (P.A.mul (.point P.delta) (P.A.sub I (.point (P.mid I))))) (.icc (-P.eps) P.eps)

/-- the enclosure `x0 + h * f(t, x_guess & initial_x)`, codac_CtcPicard.cpp:253-256 -/
def enclosure (t : Itv K) (init x0 : List (Itv K)) (h : Itv K) (G : List (Itv K)) : List (Itv K) :=
  List.zipWith P.A.add x0 ((P.F (t :: List.zipWith (· ⊓ ·) G init)).map (P.A.mul h))

/-- the loop `do … while`, codac_CtcPicard.cpp:232-266; at most `fuel` iterations (`none`: more are needed), `some none` when
the loop is left by the `break` (the tube is then unchanged) -/
def loop (t : Itv K) (init x0 : List (Itv K)) (h : Itv K) : Nat → List (Itv K) → Option (Option (List (Itv K)))
  | 0, _ => none
  | n + 1, E =>
    let G := E.map P.inflate
    let E' := P.enclosure t init x0 h G
    if P.unb E' || boxEmpty E' || boxEmpty G then some none
    else if (List.zipWith Itv.interiorSubset E' G).all id then some (some E')
    else loop t init x0 h n E'

/-- `CtcPicard::guess_kth_slices_envelope`, codac_CtcPicard.cpp:197-286, for the slices `k` of bounds `b` -/
def guess (fuel : Nat) (fwd : Bool) (k : Nat) (b : K × K) (xs : List (Tube K)) : Option (List (Tube K)) :=
  if xs.any Tube.isEmpty then some xs
  else
    let init := xs.map fun T => T.codAt k
    let x0 := xs.map fun T => T.evalAt (if fwd then b.1 else b.2)
    let h := if fwd then Itv.icc 0 (b.2 - b.1) else Itv.icc (-(b.2 - b.1)) 0
    (P.loop (.icc b.1 b.2) init x0 h fuel x0).map fun r =>
      match r with
      | none => xs
      | some E => updAll k xs (List.zipWith (fun i e => Slice.setEnvelope (i ⊓ e) true) init E)

/-- contraction of the gate, codac_CtcPicard.cpp:180-183 and 189-192; `y` is the component of `f_eval` -/
def gateSet (fwd : Bool) (d : K) (y : Itv K) : Setter K := fun p n s =>
  if fwd then Slice.setOutputGate (s.outG ⊓ P.A.add s.inG (P.A.mul (.point d) y)) true p n s
  else Slice.setInputGate (s.inG ⊓ P.A.sub s.outG (P.A.mul (.point d) y)) true p n s

/-- `CtcPicard::contract_kth_slices`, codac_CtcPicard.cpp:163-195 -/
def kth (fuel : Nat) (fwd : Bool) (k : Nat) (b : K × K) (xs : List (Tube K)) : Option (List (Tube K)) :=
  if xs.any Tube.isEmpty then some xs
  else
    (P.guess fuel fwd k b xs).map fun ys =>
      updAll k ys ((P.F (.icc b.1 b.2 :: ys.map fun T => T.codAt k)).map (P.gateSet fwd (b.2 - b.1)))

/-- time domain of the slices `k` -/
def boundsAt (k : Nat) (xs : List (Tube K)) : Option (K × K) := (xs.head?.bind fun T => T.slices[k]?).map fun s => (s.lb, s.ub)

/-- condition for sampling the slice, codac_CtcPicard.cpp:114 and 136 -/
def mustSample (k : Nat) (b : K × K) (xs : List (Tube K)) : Bool :=
  P.unb (xs.map fun T => T.codAt k) &&
    (match xs.head? with
    | none => false
    | some T => decide (b.2 - b.1 > (T.tf - T.t0) / 500))

/-- forward loop, codac_CtcPicard.cpp:101-124; at most `fuel` iterations, `pf` iterations for each Picard loop -/
def fwdLoop (pf : Nat) : Nat → Nat → List (Tube K) → Option (List (Tube K))
  | 0, _, _ => none
  | n + 1, k, xs =>
    match boundsAt k xs with
    | none => some xs
    | some b =>
      if P.unb (xs.map fun T => T.codAt k) then
        (P.kth pf true k b xs).bind fun ys =>
          if P.mustSample k b ys then fwdLoop pf n k (ys.map fun T => T.sample ((b.1 + b.2) / 2))
          else fwdLoop pf n (k + 1) ys
      else fwdLoop pf n (k + 1) xs

/-- backward loop, codac_CtcPicard.cpp:128-145; `j = k + 1` -/
def bwdLoop (pf : Nat) : Nat → Nat → List (Tube K) → Option (List (Tube K))
  | 0, _, _ => none
  | _ + 1, 0, xs => some xs
  | n + 1, k + 1, xs =>
    match boundsAt k xs with
    | none => none -- not reachable
    | some b =>
      if P.unb (xs.map fun T => T.codAt k) then
        (P.kth pf false k b xs).bind fun ys =>
          if P.mustSample k b ys then bwdLoop pf n (k + 2) (ys.map fun T => T.sample ((b.1 + b.2) / 2))
          else bwdLoop pf n k ys
      else bwdLoop pf n k xs

/-- `first_slicing`, codac_CtcPicard.cpp:148-154 -/
def restoreSlicing (xs ys : List (Tube K)) : List (Tube K) := List.zipWith (fun x y => x.setEmpty.opAssign (· ⊔ ·) y) xs ys

/-- one direction of `CtcPicard::contract(TubeVector&, TimePropag)`, codac_CtcPicard.cpp:83-155 -/
def oneWay (pf fuel : Nat) (preserve fwd : Bool) (xs : List (Tube K)) : Option (List (Tube K)) :=
  if xs.any Tube.isEmpty then some xs
  else
    (if fwd then P.fwdLoop pf fuel 0 xs
      else P.bwdLoop pf fuel (match xs.head? with | none => 0 | some T => T.nbSlices) xs).map fun ys =>
      if preserve then restoreSlicing xs ys else ys

/-- `CtcPicard::contract(TubeVector&, FORWARD | BACKWARD)`, codac_CtcPicard.cpp:90-95 -/
def both (pf fuel : Nat) (preserve : Bool) (xs : List (Tube K)) : Option (List (Tube K)) :=
  if xs.any Tube.isEmpty then some xs
  else (P.oneWay pf fuel preserve true xs).bind (P.oneWay pf fuel preserve false)

/-- `CtcPicard::contract(Tube&, TimePropag)`, codac_CtcPicard.cpp:64-71 -/
def scalar (pf fuel : Nat) (preserve : Bool) (x : Tube K) : Option (Tube K) :=
  (P.both pf fuel preserve [x]).bind fun ys => ys.head?.map fun y => x.opAssign (· ⊓ ·) y

end Picard

end Codac
