import Verif.Tube.Model

/-!
# Tubes: construction, operators, merging, truncation, comparison

Sources: `src/core/domains/tube/codac_Tube.cpp`, `src/core/domains/tube/codac_Tube_operators.cpp`,
`src/core/arithmetic/codac_tube_arithmetic_scalar.cpp`, `src/core/domains/slice/codac_Slice.cpp`.
-/

namespace Codac
section
variable {K : Type*} [LinearOrder K]

/-! ### Construction -/

/-- the `do … while` loop of `Tube(tdomain, timestep, codomain)`, codac_Tube.cpp:58-76: each new slice is
`Slice(Interval(lb,ub))`, envelope and gates `[-oo,oo]`. `add` is the addition of `double`s. At most `fuel`
iterations are executed: `none` means that more are needed. -/
def buildCells (add : K → K → K) (step tf : K) : Nat → K → Option (List (Cell K))
  | 0, _ => none
  | n + 1, lb =>
    let ub := min (add lb step) tf
    if ub < tf then (buildCells add step tf n ub).map (fun cs => ⟨lb, ub, ⊤, ⊤⟩ :: cs)
    else some [⟨lb, ub, ⊤, ⊤⟩]

/-- `Tube(tdomain, timestep, codomain)`, codac_Tube.cpp:44-80; `diam` is `tdomain.diam()` -/
def Tube.ofStep [Zero K] (add : K → K → K) (diam : K) (fuel : Nat) (t0 tf step : K) (cod : Itv K) :
    Option (Tube K) :=
  let step := if step = 0 then diam else step
  (buildCells add step tf fuel t0).map fun cs =>
    let T : Tube K := ⟨t0, tf, ⊤, cs⟩
    if cod = ⊤ then T else T.set cod

/-- `Tube(tdomain, codomain)`, codac_Tube.cpp:33-42 -/
def Tube.single (t0 tf : K) (cod : Itv K) : Tube K := ⟨t0, tf, cod, [⟨t0, tf, cod, cod⟩]⟩

/-- the loop of `Tube(v_tdomains, v_codomains)`, codac_Tube.cpp:111-116, on the slices not yet reached. The
current slice `s` starts at the end of the previous one and spans the rest of the tube, with envelope
`[-oo,oo]`; it is cut at the upper bound of the `i`-th domain (no effect on the last one) and its envelope is
set, which intersects both gates with it. Returns the entering gate and the cells.
`g` is the gate entering the current slice, `cod` its envelope. -/
def listCells (tf : K) : Itv K → List ((K × K) × Itv K) → Itv K × List (Cell K)
  | g, [] => (g, [])
  | g, [((a, _), c)] => (g ⊓ c, [⟨a, tf, c, ⊤ ⊓ c⟩])
  | g, ((a, b), c) :: d :: rest =>
    let r := listCells tf (⊤ ⊓ c) (d :: rest)
    (g ⊓ c, ⟨a, b, c, r.1⟩ :: r.2)

/-- `Tube(v_tdomains, v_codomains)`, codac_Tube.cpp:95-120; the asserts (non-empty, contiguous domains) are
preconditions -/
def Tube.ofList (l : List ((K × K) × Itv K)) : Option (Tube K) :=
  match l.head?, l.getLast? with
  | some d, some d' =>
    let r := listCells d'.1.2 ⊤ l
    some ⟨d.1.1, d'.1.2, r.1, r.2⟩
  | _, _ => none

/-! ### Operators without propagation (consistency flag false) -/

/-- Envelopes and gates are rewritten slice by slice, from the first to the last, with the flag `consistency`
set to `false`: envelope by `e lb ub`, input gates by `q lb`, last output gate by `q ub`. The output gate of a slice is
the input gate of the next one, whose lower bound is the upper bound of the slice. -/
def Tube.mapWith (e : K → K → Itv K → Itv K) (q : K → Itv K → Itv K) (T : Tube K) : Tube K where
  t0 := T.t0
  tf := T.tf
  g0 := match T.cells with
    | [] => T.g0
    | c :: _ => q c.lb T.g0
  cells := T.cells.map fun c => ⟨c.lb, c.ub, e c.lb c.ub c.cod, q c.ub c.out⟩

/-- unary functions (`-x`, `cos`, `sqr`, `pow(x,n)`…), codac_tube_arithmetic_scalar.cpp:25-139; binary
functions with an interval operand, lines 195-253; `op=` with an interval, codac_Tube_operators.cpp:21-38. `φ` is the
interval function of IBEX, the other operand being fixed. -/
def Tube.map (φ : Itv K → Itv K) (T : Tube K) : Tube K := T.mapWith (fun _ _ => φ) (fun _ => φ)

/-- slice-wise combination of lists of slices having the same slicing; bounds of the first list. The last
case would be a null pointer dereference. -/
def zipCells (φ : Itv K → Itv K → Itv K) : List (Cell K) → List (Cell K) → List (Cell K) → List (Cell K)
  | y :: ys, a :: as, b :: bs => ⟨y.lb, y.ub, φ a.cod b.cod, φ a.out b.out⟩ :: zipCells φ ys as bs
  | ys, _, _ => ys

/-- binary functions on two tubes, codac_tube_arithmetic_scalar.cpp:143-193: `y` is a copy of `x1`, both
operands are resampled when their slicings differ -/
def Tube.binOp (φ : Itv K → Itv K → Itv K) (X1 X2 : Tube K) : Tube K :=
  if X1.sameSlicing X2 then
    ⟨X1.t0, X1.tf, φ X1.g0 X2.g0, zipCells φ X1.cells X1.cells X2.cells⟩
  else
    let Y1 := X1.sampleLike X2
    let Y2 := X2.sampleLike X1
    let Y := X1.sampleLike Y2
    ⟨Y.t0, Y.tf, φ Y1.g0 Y2.g0, zipCells φ Y.cells Y1.cells Y2.cells⟩

/-- `op=` with a tube, codac_Tube_operators.cpp:61-109 -/
def Tube.opAssign (φ : Itv K → Itv K → Itv K) (T X : Tube K) : Tube K :=
  if T.sameSlicing X then ⟨T.t0, T.tf, φ T.g0 X.g0, zipCells φ T.cells T.cells X.cells⟩
  else T.mapWith (fun a b c => φ c (X.evalItv (Itv.icc a b))) (fun t g => φ g (X.evalAt t))

/-- `op=` with a trajectory, codac_Tube_operators.cpp:40-59; `ev` is `Trajectory::operator()(Interval)` -/
def Tube.opAssignTraj (φ : Itv K → Itv K → Itv K) (ev : Itv K → Itv K) (T : Tube K) : Tube K :=
  T.mapWith (fun a b c => φ c (ev (Itv.icc a b))) (fun t g => φ g (ev (Itv.point t)))

/-! ### Merging -/

/-- `Slice::merge_slices`, codac_Slice.cpp:580-607: the envelope of the first slice becomes the union (with
`set_envelope`, which also intersects its gates), its domain the union of domains and its output gate that of
the second slice. Returns the (possibly reduced) entering gate and the merged slice. -/
def mergeCells (g : Itv K) (c1 c2 : Cell K) : Itv K × Cell K :=
  (g ⊓ (c1.cod ⊔ c2.cod), ⟨c1.lb, c2.ub, c1.cod ⊔ c2.cod, c2.out⟩)

/-- `Tube::remove_gate` on a list of slices, codac_Tube.cpp:599-603: merges the slice starting at `t` with the
previous one; `none` when there is no such pair of slices (violated asserts, lines 596-600) -/
def removeFrom (t : K) : Itv K → List (Cell K) → Option (Itv K × List (Cell K))
  | g, c1 :: c2 :: cs =>
    if c2.lb = t then
      let m := mergeCells g c1 c2
      some (m.1, m.2 :: cs)
    else (removeFrom t c1.out (c2 :: cs)).map fun r => (g, { c1 with out := r.1 } :: r.2)
  | _, _ => none

/-- `Tube::remove_gate`, codac_Tube.cpp:594-604 (mode without synthesis) -/
def Tube.removeGate (T : Tube K) (t : K) : Option (Tube K) :=
  (removeFrom t T.g0 T.cells).map fun r => { T with g0 := r.1, cells := r.2 }

/-- the loop of `Tube::merge_similar_slices`, codac_Tube.cpp:608-618: `c1` is the slice before the current one,
possibly already merged; `near` is the test `distance(·,·) < distance_threshold` on the envelopes -/
def mergeLoop (near : Itv K → Itv K → Bool) : Itv K → Cell K → List (Cell K) → Itv K × List (Cell K)
  | g, c1, [] => (g, [c1])
  | g, c1, c2 :: cs =>
    if near c1.cod c2.cod then
      let m := mergeCells g c1 c2
      mergeLoop near m.1 m.2 cs
    else
      let r := mergeLoop near c1.out c2 cs
      (g, { c1 with out := r.1 } :: r.2)

/-- `Tube::merge_similar_slices`, codac_Tube.cpp:606-619 -/
def Tube.mergeSimilar (near : Itv K → Itv K → Bool) (T : Tube K) : Tube K :=
  match T.cells with
  | [] => T
  | c :: cs =>
    let r := mergeLoop near T.g0 c cs
    { T with g0 := r.1, cells := r.2 }

/-! ### Time domain -/

/-- condition of the loops of `truncate_tdomain`, codac_Tube.cpp:1254 and 1265: the slice does not contain the
instant `u`, or shares at most one instant with `[a,b]` -/
def dropCell (u a b : K) (c : Cell K) : Bool :=
  decide (¬ (c.lb ≤ u ∧ u ≤ c.ub)) || (Itv.icc a b ⊓ Itv.icc c.lb c.ub).isDegenerated

/-- `set_tdomain(t & tdomain())`, codac_Tube.cpp:1261 and 1272 -/
def clipCell (a b : K) (c : Cell K) : Cell K := { c with lb := max a c.lb, ub := min b c.ub }

/-- first loop of `truncate_tdomain`, codac_Tube.cpp:1254-1261 -/
def truncFront (a b : K) : Itv K → List (Cell K) → Itv K × List (Cell K)
  | g, [] => (g, [])
  | g, c :: cs => if dropCell a a b c then truncFront a b c.out cs else (g, clipCell a b c :: cs)

/-- second loop of `truncate_tdomain`, codac_Tube.cpp:1264-1272, from the last slice backwards -/
def truncBack (a b : K) (cs : List (Cell K)) : List (Cell K) :=
  match cs.reverse.dropWhile (dropCell b a b) with
  | [] => []
  | c :: rest => (clipCell a b c :: rest).reverse

/-- `Tube::truncate_tdomain([a,b])`, codac_Tube.cpp:1248-1278 -/
def Tube.truncate (T : Tube K) (a b : K) : Tube K :=
  let r := truncFront a b T.g0 T.cells
  ⟨a, b, r.1, truncBack a b r.2⟩

/-- `Tube::shift_tdomain`, codac_Tube.cpp:1280-1287 and codac_Slice.cpp:549-557; exact addition -/
def Tube.shift [Add K] (T : Tube K) (d : K) : Tube K :=
  ⟨T.t0 + d, T.tf + d, T.g0, T.cells.map fun c => { c with lb := c.lb + d, ub := c.ub + d }⟩

/-! ### Comparisons -/

/-- `Tube::operator==`, codac_Tube.cpp:1003-1017 with `Slice::operator==`, codac_Slice.cpp:327-333 -/
def Tube.eqT (X Y : Tube K) : Bool := decide (X.slices = Y.slices)

/-- slice-wise inclusion, codac_Slice.cpp:343-353 -/
def Slice.isSubset (s s' : Slice K) : Bool :=
  decide (s.cod ≤ s'.cod) && decide (s.inG ≤ s'.inG) && decide (s.outG ≤ s'.outG)

/-- `Tube::is_subset`, codac_Tube.cpp:1035-1074. With different slicings: input gate and envelope of each slice,
then the last output gate. -/
def Tube.isSubset (X Y : Tube K) : Bool :=
  if X.sameSlicing Y then (X.slices.zip Y.slices).all fun p => p.1.isSubset p.2
  else X.slices.all (fun s => decide (s.inG ≤ Y.evalAt s.lb) && decide (s.cod ≤ Y.evalItv (Itv.icc s.lb s.ub))) &&
    (match X.slices.getLast? with
      | none => true
      | some s => decide (s.outG ≤ Y.evalAt s.ub))

/-- `Tube::is_empty`, codac_Tube.cpp:1101-1119 -/
def Tube.isEmpty (T : Tube K) : Bool :=
  T.g0.isEmpty || T.slices.any fun s => s.cod.isEmpty || s.outG.isEmpty

end

end Codac
