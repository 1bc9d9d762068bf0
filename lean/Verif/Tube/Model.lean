import Verif.Interval

/-!
# Tubes: data structure and its elementary operations

Sources: `src/core/domains/slice/codac_Slice.{h,cpp}`, `src/core/domains/tube/codac_Tube.{h,cpp}`.

A `Tube` object of codac owns a doubly linked list of `Slice` objects. Two consecutive slices share
(by pointer) the gate between them (`Slice::chain_slices`, codac_Slice.cpp:561-578).  The model keeps one
copy of each gate: an initial gate `g0`, then for each slice its bounds, its envelope and its output gate.
Pointers (`prev_slice`, `next_slice`) become positions in the list.  `m_synthesis_tree` and
`m_polynomial_synthesis` are modelled separately (`Verif.Tube.Tree`).
-/

namespace Codac

/-- One slice as seen from outside: `tdomain()`, `codomain()`, `input_gate()`, `output_gate()`
(codac_Slice.cpp:70-112). -/
structure Slice (K : Type*) [LinearOrder K] where
  lb : K
  ub : K
  cod : Itv K
  inG : Itv K
  outG : Itv K
deriving DecidableEq

/-- One slice as stored in the list: its input gate is the output gate of the previous one. -/
structure Cell (K : Type*) [LinearOrder K] where
  lb : K
  ub : K
  cod : Itv K
  out : Itv K
deriving DecidableEq

/-- `Tube`: redundant time domain `m_tdomain = [t0,tf]` (codac_Tube.cpp:247-252), first gate, slices. -/
structure Tube (K : Type*) [LinearOrder K] where
  t0 : K
  tf : K
  g0 : Itv K
  cells : List (Cell K)
deriving DecidableEq

section
variable {K : Type*} [LinearOrder K]

/-- the slices, given the gate entering the first one -/
def slicesFrom (g : Itv K) : List (Cell K) → List (Slice K)
  | [] => []
  | c :: cs => ⟨c.lb, c.ub, c.cod, g, c.out⟩ :: slicesFrom c.out cs

namespace Tube

/-- iteration `for(s = first_slice() ; s ; s = s->next_slice())` -/
def slices (T : Tube K) : List (Slice K) := slicesFrom T.g0 T.cells

/-- `Tube::nb_slices`, codac_Tube.cpp:319-331 (mode without synthesis) -/
def nbSlices (T : Tube K) : Nat := T.cells.length

/-- `Tube::slice(int)`, codac_Tube.cpp:338-359 (mode without synthesis). The guard of line 340 (`&&`) never
holds; the loop itself returns `nullptr` for an index out of range. -/
def sliceAt (T : Tube K) (k : Nat) : Option (Slice K) := T.slices[k]?

end Tube

/-- The suffix of a slice list starting at `Tube::slice(t)`: first slice with `t < ub`, otherwise the last
one; codac_Tube.cpp:376-385. -/
def seek (t : K) : List (Slice K) → List (Slice K)
  | [] => []
  | [s] => [s]
  | s :: s' :: ss => if t < s.ub then s :: s' :: ss else seek t (s' :: ss)

/-- `Tube::time_to_index`, codac_Tube.cpp:500-508 (0 for the first slice) -/
def timeToIndex (t : K) : List (Slice K) → Nat
  | [] => 0
  | [_] => 0
  | s :: s' :: ss => if t < s.ub then 0 else timeToIndex t (s' :: ss) + 1

/-- `Slice::operator()(double)`, codac_Slice.cpp:144-159 -/
def Slice.evalAt (s : Slice K) (t : K) : Itv K :=
  if s.lb ≤ t ∧ t ≤ s.ub then
    if t = s.lb then s.inG
    else if t = s.ub then s.outG
    else s.cod
  else ⊤

namespace Tube

/-- `Tube::slice(double)`, codac_Tube.cpp:366-387: `nullptr` outside of the time domain -/
def slice (T : Tube K) (t : K) : Option (Slice K) :=
  if T.t0 ≤ t ∧ t ≤ T.tf then (seek t T.slices).head? else none

/-- `Tube::operator()(double)`, codac_Tube.cpp:646-652 -/
def evalAt (T : Tube K) (t : K) : Itv K :=
  if T.t0 ≤ t ∧ t ≤ T.tf then
    match (seek t T.slices).head? with
    | none => ⊤  -- not reachable on a tube, which has at least one slice
    | some s => s.evalAt t
  else ⊤

end Tube

/-- the loop of `Tube::operator()(const Interval&)`, codac_Tube.cpp:682-691, for `[a,b]` with `a < b`:
union of the envelopes from `slice(a)` up to `slice(b)`, the last one being excluded when it starts at `b`.
The argument list starts at `slice(a)`. A slice list is traversed until `slice(b)` is met: this is the first
slice with `b < ub`, otherwise the last one. -/
def hullUpTo (b : K) : List (Slice K) → Itv K
  | [] => ⊥
  | [s] => if s.lb ≠ b then s.cod else ⊥
  | s :: s' :: ss =>
    if b < s.ub then (if s.lb ≠ b then s.cod else ⊥)
    else s.cod ⊔ hullUpTo b (s' :: ss)

/-- `Tube::operator()(const Interval&)`, codac_Tube.cpp:654-695 (mode without synthesis).
Unbounded arguments exceed the (bounded) time domain. -/
def Tube.evalItv (T : Tube K) (t : Itv K) : Itv K :=
  match t with
  | .empty => ⊥
  | .mk (some a) (some b) _ =>
    if a < T.t0 ∨ b > T.tf then ⊤
    else if a = b then T.evalAt a
    else hullUpTo b (seek a T.slices)
  | _ => ⊤

/-- `Tube::codomain`, codac_Tube.cpp:623-626 and 1560-1567 (mode without synthesis) -/
def Tube.codomain (T : Tube K) : Itv K := T.slices.foldl (fun acc s => acc ⊔ s.cod) ⊥

/-! ### Updates of one slice

A slice setter reads the slice and the envelopes of its neighbours (`prev_slice()`, `next_slice()`, absent at
the ends) and writes its envelope and its two gates. -/

/-- a slice setter: envelope of the previous slice, of the next slice, the slice ↦ the updated slice -/
abbrev Setter (K : Type*) [LinearOrder K] := Option (Itv K) → Option (Itv K) → Slice K → Slice K

/-- intersection with the envelope of a neighbour, if any -/
def infOpt (X : Itv K) : Option (Itv K) → Itv K
  | none => X
  | some Y => X ⊓ Y

/-- `Slice::set`, codac_Slice.cpp:443-460 -/
def Slice.set (y : Itv K) : Setter K := fun prev next s =>
  { s with cod := y, inG := infOpt y prev, outG := infOpt y next }

/-- `Slice::set_envelope`, codac_Slice.cpp:467-482 -/
def Slice.setEnvelope (e : Itv K) (consistency : Bool := true) : Setter K := fun _ _ s =>
  if consistency then { s with cod := e, inG := s.inG ⊓ e, outG := s.outG ⊓ e } else { s with cod := e }

/-- `Slice::set_input_gate`, codac_Slice.cpp:484-500 -/
def Slice.setInputGate (g : Itv K) (consistency : Bool := true) : Setter K := fun prev _ s =>
  if consistency then { s with inG := infOpt (g ⊓ s.cod) prev } else { s with inG := g }

/-- `Slice::set_output_gate`, codac_Slice.cpp:502-518 -/
def Slice.setOutputGate (g : Itv K) (consistency : Bool := true) : Setter K := fun _ next s =>
  if consistency then { s with outG := infOpt (g ⊓ s.cod) next } else { s with outG := g }

/-- two setters in sequence on the same slice -/
def Setter.andThen (u w : Setter K) : Setter K := fun p n s => w p n (u p n s)

/-- Application of a setter to the `k`-th slice of a list. `p` is the envelope of the slice before the list, `g`
the gate entering the list; returns the new entering gate and the new list. The input gate of a slice is the
output gate of the previous one. -/
def updFrom (u : Setter K) : Nat → Option (Itv K) → Itv K → List (Cell K) → Itv K × List (Cell K)
  | _, _, g, [] => (g, [])
  | 0, p, g, c :: cs =>
    let s := u p (cs.head?.map Cell.cod) ⟨c.lb, c.ub, c.cod, g, c.out⟩
    (s.inG, ⟨c.lb, c.ub, s.cod, s.outG⟩ :: cs)
  | k + 1, _, g, c :: cs =>
    let r := updFrom u k (some c.cod) c.out cs
    (g, { c with out := r.1 } :: r.2)

/-- apply a setter to the slice of index `k` of a tube (no effect if there is no such slice) -/
def Tube.upd (T : Tube K) (k : Nat) (u : Setter K) : Tube K :=
  let r := updFrom u k none T.g0 T.cells
  { T with g0 := r.1, cells := r.2 }

namespace Tube

/-- `Tube::set(y)`, codac_Tube.cpp:1154-1159 -/
def set (T : Tube K) (y : Itv K) : Tube K :=
  (List.range T.nbSlices).foldl (fun T k => T.upd k (Slice.set y)) T

/-- `Tube::set_empty`, codac_Tube.cpp:1196-1199 -/
def setEmpty (T : Tube K) : Tube K := T.set ⊥

/-- `Tube::set(y, slice_id)`, codac_Tube.cpp:1161-1166 (the index is asserted to be valid) -/
def setIdx (T : Tube K) (y : Itv K) (k : Nat) : Tube K := T.upd k (Slice.set y)

end Tube

/-- `Tube::sample(double, Slice*)`, codac_Tube.cpp:533-564, on the slice returned by `slice(t)` (first slice
with `t < ub`, otherwise the last one). The new gate is set to the envelope of the new slice intersected with the
(identical) envelopes around it: `set_input_gate(codomain)`. -/
def sampleCells (t : K) : List (Cell K) → List (Cell K)
  | [] => []
  | c :: cs =>
    if t < c.ub ∨ cs = [] then
      if c.lb = t ∨ c.ub = t then c :: cs
      else
        -- set_input_gate(codomain): codomain & new_slice.codomain & previous.codomain
        ⟨c.lb, t, c.cod, (c.cod ⊓ c.cod) ⊓ c.cod⟩ :: ⟨t, c.ub, c.cod, c.out⟩ :: cs
    else c :: sampleCells t cs

namespace Tube

/-- `Tube::sample(double)`, codac_Tube.cpp:525-531; `t` outside of the time domain violates the assert: `none` -/
def sample? (T : Tube K) (t : K) : Option (Tube K) :=
  if T.t0 ≤ t ∧ t ≤ T.tf then some { T with cells := sampleCells t T.cells } else none

/-- `Tube::sample(double)` when the assert holds -/
def sample (T : Tube K) (t : K) : Tube K := { T with cells := sampleCells t T.cells }

/-- `Tube::sample(double, const Interval&)`, codac_Tube.cpp:566-579 -/
def sampleGate (T : Tube K) (t : K) (gate : Itv K) : Tube K :=
  let T' := T.sample t
  let k := timeToIndex t T'.slices
  match T'.slices[k]? with
  | none => T'
  | some s => if t = s.lb then T'.upd k (Slice.setInputGate gate) else T'.upd k (Slice.setOutputGate gate)

/-- `Tube::set(y, t)`, codac_Tube.cpp:1168-1173 -/
def setAt (T : Tube K) (y : Itv K) (t : K) : Tube K := T.sampleGate t y

/-- `Tube::sample(const Tube&)`, codac_Tube.cpp:581-587 -/
def sampleLike (T X : Tube K) : Tube K := X.slices.foldl (fun T s => T.sample s.ub) T

/-- `Tube::gate_exists`, codac_Tube.cpp:589-592 (null pointer dereference outside of the time domain: `none`) -/
def gateExists (T : Tube K) (t : K) : Option Bool :=
  (T.slice t).map fun s => decide (s.lb = t ∨ t = T.tf)

/-- `Tube::set(y, [a,b])` with `a < b`, codac_Tube.cpp:1182-1191. The loop starts at the slice of index
`time_to_index(a)` and stops at the first slice whose intersection with `[a,b]` is degenerate or empty; `set`
does not change the slice bounds, so the visited indices are known beforehand. -/
def setItv (T : Tube K) (y : Itv K) (a b : K) : Tube K :=
  let T' := (T.sample a).sample b
  let k0 := timeToIndex a T'.slices
  let n := ((T'.slices.drop k0).takeWhile
    fun s => !(Itv.icc a b ⊓ Itv.icc s.lb s.ub).isDegenerated).length
  (List.range' k0 n).foldl (fun T k => T.upd k (Slice.set y)) T'

/-- `Tube::same_slicing`, codac_Tube.cpp:1490-1504 -/
def sameSlicing (X Y : Tube K) : Bool :=
  decide (X.slices.map (fun s => (s.lb, s.ub)) = Y.slices.map (fun s => (s.lb, s.ub)))

end Tube
end

end Codac
