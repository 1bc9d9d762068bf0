import Verif.Tube.Vector
import Verif.Ctc.Static
import Mathlib.LinearAlgebra.Matrix.NonsingularInverse

/-!
# `CtcLohner`: model

Source: `src/core/contractors/dyn/codac_CtcLohner.cpp`. Vectors and matrices of a fixed dimension `n` are functions on `Fin n`.
Parameters: the evaluation `F` of the function and `J` of its Jacobian matrix (IBEX), the midpoint `mid` of an interval (IBEX), and `qr`, which gives the
orthogonal matrix of the QR decomposition of Eigen with its inverse computed by IBEX. The interval operations are the exact ones, and the
computations that the code does with `double` and without interval (centre of the enclosure, matrix `B`) are done without rounding.
`none` stands for the exception `GlobalEnclosureError`. The field `z` of the code is written but never read after the constructor: it is omitted.
-/

set_option linter.unusedSectionVars false

namespace Codac.Loh
open Codac

variable {K : Type*} [Field K] [LinearOrder K] [IsStrictOrderedRing K] {n : Nat}

/-- `IntervalVector` -/
abbrev IV (n : Nat) (K : Type*) [LinearOrder K] := Fin n → Itv K

/-- `IntervalMatrix` -/
abbrev IM (n : Nat) (K : Type*) [LinearOrder K] := Fin n → Fin n → Itv K

/-- parameters of the contractor, codac_CtcLohner.cpp:191-196 -/
structure Lohner (n : Nat) (K : Type*) [Field K] [LinearOrder K] [IsStrictOrderedRing K] where
  F : IV n K → IV n K
  J : IV n K → IM n K
  mid : Itv K → K
  qr : Matrix (Fin n) (Fin n) K → Matrix (Fin n) (Fin n) K × Matrix (Fin n) (Fin n) K
  eps : K
  contractions : Nat

/-- sum of intervals -/
def isum (g : Fin n → Itv K) : Itv K := (List.ofFn g).foldr Itv.add (Itv.point 0)

/-- product of an interval matrix and an interval vector (IBEX) -/
def mulMV (M : IM n K) (v : IV n K) : IV n K := fun i => isum fun j => Itv.mul (M i j) (v j)

/-- product of interval matrices (IBEX) -/
def mulMM (M N : IM n K) : IM n K := fun i k => isum fun j => Itv.mul (M i j) (N j k)

/-- a matrix of numbers as an interval matrix -/
def ptM (M : Matrix (Fin n) (Fin n) K) : IM n K := fun i j => Itv.point (M i j)

/-- a vector of numbers as an interval vector -/
def ptV (v : Fin n → K) : IV n K := fun i => Itv.point (v i)

/-- product of an interval by an interval matrix or vector -/
def smulV (a : Itv K) (v : IV n K) : IV n K := fun i => Itv.mul a (v i)

/-- idem -/
def smulM (a : Itv K) (M : IM n K) : IM n K := fun i j => Itv.mul a (M i j)

/-- sum of interval vectors -/
def addV (v w : IV n K) : IV n K := fun i => Itv.add (v i) (w i)

/-- difference of interval vectors -/
def subV (v w : IV n K) : IV n K := fun i => Itv.sub (v i) (w i)

/-- intersection of interval vectors (IBEX); when a component is empty IBEX makes them all empty, which changes nothing to the vectors that belong to it -/
def infV (v w : IV n K) : IV n K := fun i => v i ⊓ w i

/-- input gate of the slice `k`, codac_CtcLohner.cpp:204 and 230 -/
def _root_.Codac.Tube.inAt (v : Tube K) (k : Nat) : Itv K := (v.slices[k]?.map Slice.inG).getD ⊤

/-- output gate of the slice `k`, codac_CtcLohner.cpp:211 and 223 -/
def _root_.Codac.Tube.outAt (v : Tube K) (k : Nat) : Itv K := (v.slices[k]?.map Slice.outG).getD ⊤

/-- fields of `LohnerAlgorithm`, codac_CtcLohner.cpp:103-114; `ut` is `u_tilde` -/
structure Alg (n : Nat) (K : Type*) [LinearOrder K] where
  u : IV n K
  r : IV n K
  ut : IV n K
  B : Matrix (Fin n) (Fin n) K
  Binv : Matrix (Fin n) (Fin n) K
  uh : Fin n → K

variable (P : Lohner n K)

namespace Lohner

/-- constructor, codac_CtcLohner.cpp:119-136 (`u_tilde` has no value yet) -/
def init (u0 : IV n K) : Alg n K where
  u := u0
  r := fun i => Itv.sub (u0 i) (Itv.point (P.mid (u0 i)))
  ut := fun _ => ⊤
  B := 1
  Binv := 1
  uh := fun i => P.mid (u0 i)

/-- loop of `LohnerAlgorithm::globalEnclosure`, codac_CtcLohner.cpp:166-173; `s` is `dir * direction` -/
def enclLoop (s h : K) (guess : IV n K) : Nat → IV n K → Option (IV n K)
  | 0, _ => none
  | k + 1, u0 =>
    let u1 := addV guess (smulV (Itv.mul (Itv.point s) (Itv.icc 0 h)) (P.F u0))
    if ∀ i, u1 i ≤ u0 i then some u0
    else enclLoop s h guess k (subV (smulV (Itv.point (1 + P.eps)) u1) (smulV (Itv.point P.eps) u1))

/-- `LohnerAlgorithm::globalEnclosure`, codac_CtcLohner.cpp:164-175 -/
def globalEnclosure (s h : K) (guess : IV n K) : Option (IV n K) := P.enclLoop s h guess 30 guess

/-- matrix `A` of an iteration, codac_CtcLohner.cpp:148 -/
def matA (d h : K) (u : IV n K) : IM n K := fun i j =>
  Itv.add (Itv.point ((1 : Matrix (Fin n) (Fin n) K) i j)) (Itv.mul (Itv.point (h * d)) (P.J u i j))

/-- body of the loop on `j`, codac_CtcLohner.cpp:146-154, for the global enclosure `ut`; `d` is the direction -/
def refine (d h : K) (a : Alg n K) (ut : IV n K) : Alg n K :=
  let z1 := mulMV (smulM (Itv.point (1 / 2 * h * h)) (P.J ut)) (P.F ut)
  let m1 : Fin n → K := fun i => P.mid (z1 i)
  let A := P.matA d h a.u
  let Q := P.qr fun i j => P.mid (mulMM A (ptM a.B) i j)
  let r1 := addV (mulMV (mulMM (mulMM (ptM Q.2) A) (ptM a.B)) a.r) (mulMV (ptM Q.2) (subV z1 (ptV m1)))
  let uh1 : Fin n → K := fun i => a.uh i + h * d * P.mid (P.F (ptV a.uh) i) + m1 i
  { u := addV (ptV uh1) (mulMV (ptM Q.1) r1), r := r1, ut := ut, B := Q.1, Binv := Q.2, uh := uh1 }

/-- the loop on `j`, codac_CtcLohner.cpp:145-158, with `k + 1` iterations left -/
def contrLoop (d h : K) (a : Alg n K) : Nat → IV n K → Option (Alg n K)
  | 0, ut => some (P.refine d h a ut)
  | k + 1, ut =>
    (P.globalEnclosure (-1 * d) h (P.refine d h a ut).u).bind fun g => contrLoop d h a k (infV ut g)

/-- `LohnerAlgorithm::integrate(1, h)`, codac_CtcLohner.cpp:138-162; without iteration (`contractions = 0`) the enclosure does not move -/
def integrate (d h : K) (a : Alg n K) : Option (Alg n K) :=
  (P.globalEnclosure (1 * d) h a.u).bind fun ut =>
    match P.contractions with
    | 0 => some { a with ut := ut }
    | k + 1 => P.contrLoop d h a k ut

/-- `LohnerAlgorithm::contractStep`, codac_CtcLohner.cpp:177-181 -/
def contractStep (x : IV n K) (a : Alg n K) : Alg n K :=
  let u := infV x a.u
  let uh : Fin n → K := fun i => P.mid (u i)
  { a with u := u, uh := uh, r := infV a.r (mulMV (ptM a.Binv) (subV u (ptV uh))) }

/-- one iteration on the slices `k` of bounds `b`, codac_CtcLohner.cpp:209-217 and 228-236 -/
def step (fwd : Bool) (k : Nat) (b : K × K) (xs : Fin n → Tube K) (a : Alg n K) : Option ((Fin n → Tube K) × Alg n K) :=
  let out : IV n K := fun j => if fwd then (xs j).outAt k else (xs j).inAt k
  (P.integrate (if fwd then 1 else -1) (b.2 - b.1) a).map fun a1 =>
    let a2 := P.contractStep out a1
    (fun j => (xs j).upd k (Slice.setEnvelope ((xs j).codAt k ⊓ a2.ut j) true), a2)

/-- the loop on the slices, from the remaining list of indices and bounds -/
def loop (fwd : Bool) : List (Nat × (K × K)) → (Fin n → Tube K) → Alg n K → Option ((Fin n → Tube K) × Alg n K)
  | [], xs, a => some (xs, a)
  | kb :: l, xs, a => (P.step fwd kb.1 kb.2 xs a).bind fun r => loop fwd l r.1 r.2

/-- indices and bounds of the slices -/
def indices (bs : List (K × K)) : List (Nat × (K × K)) := bs.zipIdx.map fun p => (p.2, p.1)

/-- one direction of `CtcLohner::contract(TubeVector&, TimePropag)`, codac_CtcLohner.cpp:202-220 and 221-239; `bs` is the common slicing. The box
`output_gate & lo.getLocalEnclosure()` is the local enclosure, which has already been intersected with `output_gate`. -/
def oneWay (fwd : Bool) (bs : List (K × K)) (xs : Fin n → Tube K) : Option (Fin n → Tube K) :=
  let u0 : IV n K := fun j => if fwd then (xs j).inAt 0 else (xs j).outAt (bs.length - 1)
  let l := if fwd then indices bs else (indices bs).reverse
  (P.loop fwd l xs (P.init u0)).map fun r => fun j =>
    (r.1 j).setAt (r.2.u j) (if fwd then (r.1 j).tf else (r.1 j).t0)

/-- `CtcLohner::contract(TubeVector&, FORWARD | BACKWARD)`, codac_CtcLohner.cpp:198-240 -/
def both (bs : List (K × K)) (xs : Fin n → Tube K) : Option (Fin n → Tube K) :=
  (P.oneWay true bs xs).bind fun ys => P.oneWay false bs ys

end Lohner

end Codac.Loh
