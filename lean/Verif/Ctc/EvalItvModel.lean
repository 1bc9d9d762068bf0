import Verif.Tube.PolyModel

/-!
# `CtcEval` over an interval of time, with a derivative: model

Source: `src/core/contractors/dyn/codac_CtcEval.cpp:139-333`, `CtcEval::contract(Interval& t, Interval& z, Tube& y, Tube& w)`.

`B` stands for `BOUNDED_INFINITY`, `prop` for `m_propagation_enabled`, `pres` for `m_preserve_slicing`, `R` for the restricted time domain.
`none` when an assertion is violated or in the cases that `PolyModel` does not model. The last assertion (volumes) is not modelled.
-/

set_option linter.unusedSectionVars false

namespace Codac

variable {K : Type*} [Field K] [LinearOrder K] [IsStrictOrderedRing K]

/-- the interval reduced to the lower bound -/
def Itv.atLb : Itv K → Itv K
  | .mk (some a) _ _ => .point a
  | _ => ⊥

/-- the interval reduced to the upper bound -/
def Itv.atUb : Itv K → Itv K
  | .mk _ (some b) _ => .point b
  | _ => ⊥

/-- `g.ub() < z.lb()` -/
def Itv.ubLtLb (g z : Itv K) : Bool :=
  match g, z with
  | .mk _ (some b) _, .mk (some a) _ _ => decide (b < a)
  | _, _ => false

/-- initial front, codac_CtcEval.cpp:206-216 and 243-249: the values of the gate in `z`, or the bound of `z` next to the gate -/
def firstFront (g z : Itv K) : Itv K :=
  if (g ⊓ z).isEmpty then (if g.ubLtLb z then z.atLb else z.atUb) else g ⊓ z

/-- forward loop, codac_CtcEval.cpp:220-233; `gs` is `l_gates` -/
def fwdFronts (A : IArith K) (z : Itv K) (b : K) : Itv K → List (Itv K) → List (Slice K × Itv K) → List (Itv K)
  | _, gs, [] => gs
  | front, gs, p :: l =>
    if p.1.lb < b then
      let front' := (A.add front (A.mul (.point (p.1.ub - p.1.lb)) p.2) ⊔ z) ⊓ p.1.outG
      fwdFronts A z b front' (front' :: gs) l
    else gs

/-- backward loop, codac_CtcEval.cpp:253-268: `k + 1` stands for the slice of index `k`, `0` for the null pointer; `gs` is `l_gates` -/
def bwdFronts (A : IArith K) (z : Itv K) (a : K) (w : Tube K) : Nat → List (Itv K) → Itv K → Tube K → Option (Tube K)
  | 0, _, _, y => some y
  | k + 1, gs, front, y =>
    match y.slices[k]? with
    | none => none  -- not reachable
    | some s =>
      if a ≤ s.lb then
        let V := w.codAt k
        let front' := (A.sub front (A.mul (.point (s.ub - s.lb)) V) ⊔ z) ⊓ s.inG
        match gs.tail with
        | [] => none  -- front() of an empty list
        | g :: gs' => bwdFronts A z a w k (g :: gs') front' ((y.upd k (Slice.setInputGate (g ⊔ front') true)).upd k (derivGates A V))
      else some y

/-- forward and backward propagations, codac_CtcEval.cpp:201-268, for tubes with gates at `a` and `b`. The slice of
`previous_float(t.ub())` is the one that ends at `b`: the last one that starts before `b`. -/
def evalFronts (A : IArith K) (z : Itv K) (a b : K) (y w : Tube K) : Option (Tube K) :=
  let i := timeToIndex a y.slices
  let l := y.withDeriv w i
  match l.head?, (y.slices.takeWhile fun s => decide (s.lb < b)).getLast? with
  | some p, some s =>
    let f0 := firstFront p.1.inG z
    let gs := fwdFronts A z b f0 [f0] l
    let k := (y.slices.takeWhile fun s => decide (s.lb < b)).length - 1
    let fe := firstFront s.outG z
    bwdFronts A z a w (k + 1) gs fe (y.upd k (Slice.setOutputGate (gs.headD ⊥ ⊔ fe) true))
  | _, _ => none  -- null pointers

/-- one gate removed after the contraction, codac_CtcEval.cpp:283-302 -/
def evalRemove (A : IArith K) (B c : K) (y w : Tube K) : Option (Tube K × Tube K) :=
  let k := timeToIndex c y.slices
  let y1 := y.upd k (derivSlice A B ⊤ (w.codAt k))
  let y2 := if k + 1 < y.slices.length then y1.upd (k + 1) (derivSlice A B ⊤ (w.codAt (k + 1))) else y1
  (y2.removeGate c).bind fun y3 => (w.removeGate c).map fun w3 => (y3, w3)

/-- the gates removed one after the other, codac_CtcEval.cpp:281-303 -/
def evalRemoves (A : IArith K) (B : K) : List K → Tube K → Tube K → Option (Tube K × Tube K)
  | [], y, w => some (y, w)
  | c :: l, y, w => (evalRemove A B c y w).bind fun p => evalRemoves A B l p.1 p.2

/-- second evaluation, codac_CtcEval.cpp:277-279 -/
def evalAgain (A : IArith K) (z t : Itv K) (y w : Tube K) : Option (Itv K) :=
  match t.bounds? with
  | none => some z
  | some (a, b) => (y.interpolV A w a b).map fun J => z ⊓ J

/-- infinite bounds restored on one slice, codac_CtcEval.cpp:307-323 -/
def restoreSlice (B : K) : Setter K := fun p n s =>
  let s1 := Slice.setEnvelope (restoreInf B s.cod) true p n s
  let s2 := Slice.setInputGate (restoreInf B s1.inG) true p n s1
  Slice.setOutputGate (restoreInf B s2.outG) true p n s2

/-- infinite bounds restored, codac_CtcEval.cpp:305-324 -/
def restoreTube (B : K) (y : Tube K) : Tube K := (List.range y.nbSlices).foldl (fun T k => T.upd k (restoreSlice B)) y

/-- codac_CtcEval.cpp:175-303: for `t = [a,b]` with `a < b` and a non-empty `z`; returns `t`, `z`, `y`, `w` -/
def evalMain (A : IArith K) (B : K) (R : Itv K) (prop pres : Bool) (a b : K) (z : Itv K) (y w : Tube K) : Option (Itv K × Itv K × Tube K × Tube K) :=
  (y.gateExists a).bind fun ga => (y.gateExists b).bind fun gb =>
  let rm := if pres then (if ga then [] else [a]) ++ (if gb then [] else [b]) else []
  let y1 := y.setAt (y.interpolAt A w a) a
  let w1 := w.sample a
  let y2 := y1.setAt (y1.interpolAt A w1 b) b
  let w2 := w1.sample b
  (evalFronts A z a b y2 w2).bind fun y3 =>
  (if prop then derivTube A B R true true y3 w2 else some y3).bind fun y4 =>
  (y4.invertV z w2 (.icc a b)).bind fun I =>
  let t' := Itv.icc a b ⊓ I
  (evalAgain A z t' y4 w2).bind fun z' => (evalRemoves A B rm y4 w2).map fun p => (t', z', p.1, p.2)

/-- codac_CtcEval.cpp:326-331 -/
def evalFinish (t z : Itv K) (y w : Tube K) : Itv K × Itv K × Tube K × Tube K :=
  if t.isEmpty || z.isEmpty || y.isEmpty then (⊥, ⊥, y.setEmpty, w) else (t, z, y, w)

/-- intersection of a tube with `[-B,B]`, codac_CtcEval.cpp:160-161 -/
def clampTube (B : K) (y : Tube K) : Tube K := y.map fun X => X ⊓ .icc (-B) B

/-- `CtcEval::contract(Interval& t, Interval& z, Tube& y, Tube& w)`, codac_CtcEval.cpp:139-333; returns `t`, `z`, `y`, `w` -/
def evalInterval (A : IArith K) (B : K) (R : Itv K) (prop pres : Bool) (t z : Itv K) (y w : Tube K) : Option (Itv K × Itv K × Tube K × Tube K) :=
  if y.t0 = w.t0 ∧ y.tf = w.tf ∧ y.sameSlicing w = true then
    if t.isEmpty || z.isEmpty || y.isEmpty then some (⊥, ⊥, y.setEmpty, w.setEmpty)
    else
      match t.bounds? with
      | some (a, b) => if a = b then (evalInstant A B R prop pres a z y w).map fun r => (t, r.1, r.2.1, r.2.2) else go
      | none => go
  else none
where
  /-- codac_CtcEval.cpp:160-331 -/
  go : Option (Itv K × Itv K × Tube K × Tube K) :=
    let y0 := clampTube B y
    let w0 := clampTube B w
    let t1 := t ⊓ .icc y.t0 y.tf
    (y0.invertV z w0 t1).bind fun I =>
    let t2 := t1 ⊓ I
    match t2.bounds? with
    | none => some (evalFinish t2 z y0 w0)
    | some (a, b) =>
      if a = b then (evalInstant A B R prop pres a z y0 w0).map fun r => (t2, r.1, r.2.1, r.2.2)
      else
        (y0.interpolV A w0 a b).bind fun J =>
        let z1 := z ⊓ J
        if z1.isEmpty then some (evalFinish t2 z1 (restoreTube B y0) w0)
        else (evalMain A B R prop pres a b z1 y0 w0).map fun r => evalFinish r.1 r.2.1 (restoreTube B r.2.2.1) r.2.2.2

end Codac
