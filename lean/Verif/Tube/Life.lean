import Mathlib.Data.List.Basic
import Mathlib.Data.List.Perm.Basic
import Mathlib.Data.List.Nodup
import Mathlib.Data.List.Range
import Mathlib.Tactic.SplitIfs
import Mathlib.Tactic.Push

/-!
# Memory of a scalar tube: its slices, their gates and the optional tree of synthesis

Source: `src/core/domains/tube/codac_Tube.cpp`, `codac_TubeTreeSynthesis.cpp`, `src/core/domains/slice/codac_Slice.cpp`.

Objects are numbers given in the order of the allocations; two lists record the objects freed. `none` stands for an access to a freed object, a double
`delete` or a null pointer followed. The values of the slices and the times are not represented: a slice is chosen by its index. The chain of the slices (`m_next_slice`,
`m_prev_slice`) is a list: the two pointers of neighbours are always written together.
-/

namespace Codac.Life

/-- `SynthesisMode`, codac_DynamicalItem.h -/
inductive Mode
  | none
  | tree
  | poly
  deriving DecidableEq

/-- a `Slice` object: its address and those of its gates (`m_input_gate`, `m_output_gate`) -/
structure Sl where
  id : Nat
  gin : Nat
  gout : Nat
  deriving DecidableEq

/-- a `Tube` object and the memory -/
structure Mem where
  chain : List Sl
  mode : Mode
  /-- `m_synthesis_tree`: the slices of the leaves (`m_slice_ref`), in order; `none` for the null pointer -/
  tree : Option (List Nat)
  /-- the slices whose `m_synthesis_reference` is not null -/
  refs : List Nat
  /-- slices and gates allocated so far -/
  nextS : Nat
  nextG : Nat
  deadS : List Nat
  deadG : List Nat
  /-- objects of synthesis (trees, polynomials) allocated and not freed -/
  synth : Nat
  deriving DecidableEq

/-- `delete slice` -/
def Mem.freeS (m : Mem) (i : Nat) : Option Mem := if i ∈ m.deadS then none else some { m with deadS := m.deadS ++ [i] }

/-- `delete m_input_gate`, `delete m_output_gate` -/
def Mem.freeG (m : Mem) (g : Nat) : Option Mem := if g ∈ m.deadG then none else some { m with deadG := m.deadG ++ [g] }

/-- `Slice::~Slice`, codac_Slice.cpp:38-48; the Booleans say if the neighbours exist -/
def Mem.delSlice (m : Mem) (prev next : Bool) (s : Sl) : Option Mem :=
  (if prev then some m else m.freeG s.gin).bind fun m =>
    (if next then some m else m.freeG s.gout).bind fun m => m.freeS s.id

/-- the loop of the destructor of the tube, codac_Tube.cpp:173-179 and 200-206: each slice is deleted after the previous one, so it has no previous slice -/
def Mem.delAll (m : Mem) : List Sl → Option Mem
  | [] => some m
  | s :: l => (m.delSlice false (!l.isEmpty) s).bind fun m => m.delAll l

/-- the input gate of the next slice is the given one (codac_Slice.cpp:561-578, 600-606) -/
def relink (g : Nat) : List Sl → List Sl
  | [] => []
  | s :: l => { s with gin := g } :: l

/-- `delete_synthesis_tree`, codac_Tube.cpp:1612-1620, with `~TubeTreeSynthesis`, codac_TubeTreeSynthesis.cpp:60-70: each leaf writes in its slice -/
def Mem.delTree (m : Mem) : Option Mem :=
  if m.mode = .tree then
    match m.tree with
    | none => none
    | some ls =>
      if ls.any fun i => decide (i ∈ m.deadS) then none
      else some { m with tree := none, mode := .none, refs := m.refs.filter fun i => !decide (i ∈ ls), synth := m.synth - 1 }
  else some m

/-- `delete_polynomial_synthesis`, codac_Tube.cpp:1631-1639 -/
def Mem.delPoly (m : Mem) : Mem := if m.mode = .poly then { m with mode := .none, synth := m.synth - 1 } else m

/-- `create_synthesis_tree`, codac_Tube.cpp:1600-1610 (in polynomial mode, the polynomials are not deleted) -/
def Mem.mkTree (m : Mem) : Option Mem :=
  m.delTree.map fun m =>
    { m with tree := some (m.chain.map Sl.id), mode := .tree, refs := m.refs ++ m.chain.map Sl.id, synth := m.synth + 1 }

/-- `create_polynomial_synthesis`, codac_Tube.cpp:1624-1629 (with a tree, the tree is not deleted) -/
def Mem.mkPoly (m : Mem) : Mem :=
  let m := m.delPoly
  { m with mode := .poly, synth := m.synth + 1 }

/-- `Slice::set_envelope` and the other setters on the slice of index `i`, codac_Slice.cpp:455-459, with `request_integrals_update`,
codac_TubeTreeSynthesis.cpp:278-298: all the next slices must have a reference. (The code may stop earlier thanks to its flags: this is the case with
the most accesses.) -/
def Mem.notify (m : Mem) (i : Nat) : Option Mem :=
  match m.chain.drop i with
  | [] => none
  | s :: l => if s.id ∈ m.refs ∧ l.any fun s' => decide (s'.id ∉ m.refs) then none else some m

/-- new slices at the end of the chain: `operator=`, codac_Tube.cpp:215-240, and the constructor, 57-79. `new Slice` allocates two gates; the first one is deleted and
replaced by the last one of the previous slice. -/
def Mem.grow (m : Mem) : Nat → Option Mem
  | 0 => some m
  | n + 1 =>
    let m1 := { m with nextS := m.nextS + 1, nextG := m.nextG + 2 }
    match m.chain.getLast? with
    | none => Mem.grow { m1 with chain := [⟨m.nextS, m.nextG, m.nextG + 1⟩] } n
    | some p => (m1.freeG m.nextG).bind fun m2 => Mem.grow { m2 with chain := m.chain ++ [⟨m.nextS, p.gout, m.nextG + 1⟩] } n

/-- the operations on a tube -/
inductive Op
  /-- `enable_synthesis(SynthesisMode::BINARY_TREE)`, codac_Tube.cpp:1506-1514 -/
  | tree
  /-- `enable_synthesis(SynthesisMode::POLYNOMIAL)`, 1516-1520 -/
  | poly
  /-- `enable_synthesis(SynthesisMode::NONE)`, 1522-1528 -/
  | off
  /-- `sample(t)` with `t` strictly inside the slice of index `i`, 533-565 -/
  | sample (i : Nat)
  /-- `remove_gate(t)` with `t` the end of the slice of index `i`, 593-605; a step of `merge_similar_slices`, 607-622 -/
  | merge (i : Nat)
  /-- `truncate_tdomain`, 1247-1278: `a` slices are deleted at the beginning and `b` at the end -/
  | truncate (a b : Nat)
  /-- `operator=` with a tube of `n + 1` slices, 193-244 -/
  | assign (n : Nat)
  /-- `x = x` -/
  | selfAssign
  /-- a setter of the slice of index `i` -/
  | set (i : Nat)
  /-- `shift_tdomain`, 1280-1287 -/
  | shift

/-- `sample(t, slice)`, codac_Tube.cpp:545-563, from `delete_synthesis_tree` on: the new slice takes the output gate of the former one as input, and a new gate for output -/
def Mem.split (m : Mem) (i : Nat) : Option Mem :=
  match m.chain.drop i with
  | [] => none
  | s :: l =>
    (({ m with nextS := m.nextS + 1, nextG := m.nextG + 2 } : Mem).freeG m.nextG).map fun m' =>
      { m' with chain := m.chain.take i ++ s :: ⟨m.nextS, s.gout, m.nextG + 1⟩ :: relink (m.nextG + 1) l }

/-- `Slice::merge_slices`, codac_Slice.cpp:580-607 -/
def Mem.mergeAt (m : Mem) (i : Nat) : Option Mem :=
  match m.chain.drop i with
  | s1 :: s2 :: l =>
    (m.notify i).bind fun m =>
      (({ m with nextG := m.nextG + 1 } : Mem).delSlice false false s2).map fun m' =>
        { m' with chain := m.chain.take i ++ { s1 with gout := m.nextG } :: relink m.nextG l }
  | _ => none

/-- the loops of `truncate_tdomain`, 1252-1257 and 1262-1269. At the beginning, the slices have no previous slice any more, and have a next one; the contrary at the end. -/
def Mem.delFront (m : Mem) : List Sl → Option Mem
  | [] => some m
  | s :: l => (m.delSlice false true s).bind fun m => m.delFront l

def Mem.delBack (m : Mem) : List Sl → Option Mem
  | [] => some m
  | s :: l => (m.delSlice true false s).bind fun m => m.delBack l

/-- `nb_slices()`, codac_Tube.cpp:319-332 -/
def Mem.nbSlices (m : Mem) : Option Nat := if m.mode = .tree then m.tree.map List.length else some m.chain.length

/-- `slice(k)`, codac_Tube.cpp:339-359: the pointer given -/
def Mem.sliceAt (m : Mem) (k : Nat) : Option Nat :=
  if m.mode = .tree then m.tree.bind fun ls => ls[k]? else (m.chain.map Sl.id)[k]?

def Mem.step (m : Mem) : Op → Option Mem
  | .tree => m.mkTree
  | .poly => some m.mkPoly
  | .off => m.delTree.map Mem.delPoly
  | .sample i => m.delTree.bind fun m => m.delPoly.split i
  | .merge i => m.mergeAt i
  | .truncate a b =>
    if a + b < m.chain.length then
      (m.delFront (m.chain.take a)).bind fun m1 =>
        (m1.delBack (m.chain.drop (m.chain.length - b)).reverse).bind fun m2 =>
          ({ m2 with chain := (m.chain.drop a).take (m.chain.length - b - a) } : Mem).delTree.map Mem.delPoly
    else none
  | .assign n => (m.delAll m.chain).bind fun m => m.delTree.bind fun m => ({ m.delPoly with chain := [] } : Mem).grow (n + 1)
  | .selfAssign =>
    (m.delAll m.chain).bind fun m => m.delTree.bind fun m =>
      match m.chain with
      | [] => none
      | s :: _ => if s.id ∈ m.deadS then none else some m
  | .set i => m.notify i
  | .shift => m.delTree.map Mem.delPoly

def Mem.run (m : Mem) : List Op → Option Mem
  | [] => some m
  | o :: os => (m.step o).bind fun m => m.run os

/-- `Tube::~Tube`, codac_Tube.cpp:169-180 -/
def Mem.destroy (m : Mem) : Option Mem := m.delTree.bind fun m => (m.delPoly.delAll m.chain).map fun m => { m with chain := [] }

/-- before any allocation -/
def Mem.blank : Mem := ⟨[], .none, none, [], 0, 0, [], [], 0⟩

/-- the constructor `Tube(tdomain, timestep)` with `n + 1` slices, codac_Tube.cpp:44-83 -/
def Mem.build (n : Nat) : Option Mem := Mem.blank.grow (n + 1)

end Codac.Life
