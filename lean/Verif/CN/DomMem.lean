import Verif.Tube.Life

/-!
# Memory of the domains of a contractor network

Source: `src/core/cn/codac_Domain.cpp`, `codac_Domain.h`, `codac_ContractorNetwork.cpp`, `codac_ContractorNetwork_solve.cpp`.

First part: the objects `Domain` (constructors, copy, assignment, destructor, `set_ref_values`, `reset_value`). Each one refers to values and may own a copy of its initial value, kept for
`reset_interm_vars`. Objects are numbers given in the order of the allocations; `none` stands for a use of a pointer that is not initialised or freed, or for a failed assertion.

Second part: a network with a tube and the domains of its slices.
-/

namespace Codac.DomMem

/-- `Domain::Type`, codac_Domain.h:37 -/
inductive Ty
  | interval
  | box
  | slice
  | tube
  | tubeVec
  deriving DecidableEq

/-- the value of `m_init_i_ptr`, .., `m_init_tv_ptr` (a union), codac_Domain.h:164-170; `junk`: never initialised -/
inductive Ptr
  | null
  | obj (n : Nat)
  | junk
  deriving DecidableEq

/-- the object referred to by `m_ref_values_i`, .., `m_ref_values_tv`, codac_Domain.h:128-135: one of the user or one allocated by a constructor of `Domain` (`m_i_ptr`, ..); `wild`: never initialised -/
inductive Val
  | user (a : Nat)
  | own (n : Nat)
  | wild
  deriving DecidableEq

/-- a `Domain` object -/
structure Dom where
  ty : Ty
  val : Val
  init : Ptr
  deriving DecidableEq

/-- the `Domain` objects, in the order of their constructions (`none` once destroyed), and the objects they allocate -/
structure DMem where
  doms : List (Option Dom)
  /-- values allocated (`m_i_ptr`, ..): the destructor does not free them, codac_Domain.cpp:241-247 -/
  nextV : Nat
  /-- copies of initial values allocated -/
  nextI : Nat
  deadI : List Nat
  deriving DecidableEq

inductive DOp
  /-- `Domain()`, codac_Domain.cpp:23-27 -/
  | fresh
  /-- `Domain(Interval&)`, `Domain(IntervalVector&)`, `Domain(Slice&)`, `Domain(Tube&)`, `Domain(TubeVector&)`, `Domain(IntervalVar&)`, ..: the object `a` of the user, 72-81, 117-124, 146-153, 168-199, 219-228 -/
  | ref (ty : Ty) (a : Nat)
  /-- `Domain(const Interval&, interm_var)` and the same for the other types (none for slices); `Domain(double&)` and `Domain(Vector&)` with `interm = false`, 63-70, 103-115, 126-133, 155-166, 201-217, 230-237 -/
  | temp (ty : Ty) (interm : Bool)
  /-- `Domain(ad)`, 62-67 -/
  | copy (k : Nat)
  /-- `d = ad`, 270-337: the domain `k` receives the domain `l` -/
  | assign (k l : Nat)
  /-- `d.set_ref_values(ad)`, 339-388 -/
  | setRef (k l : Nat)
  /-- `d.reset_value()`, 607-641 -/
  | reset (k : Nat)
  /-- the destructor, 239-268 -/
  | destroy (k : Nat)

/-- the domain of index `k`, if it is not destroyed -/
def DMem.get (m : DMem) (k : Nat) : Option Dom := (m.doms[k]?).join

/-- `set_ref_values`, codac_Domain.cpp:339-388, on the domain `d`: for a slice, the pointer to the initial value is left as it is; for the other types it is replaced by a copy of
the one of `ad`, without being freed -/
def DMem.refValues (m : DMem) (d ad : Dom) : Option (Dom × DMem) :=
  if ad.ty = .slice then some ({ d with val := ad.val }, m)
  else
    match ad.init with
    | .junk => none
    | .null => some ({ d with val := ad.val, init := .null }, m)
    | .obj n => if n ∈ m.deadI then none else some ({ d with val := ad.val, init := .obj m.nextI }, { m with nextI := m.nextI + 1 })

/-- `Domain(Type, MemoryRef)`, codac_Domain.cpp:29-60: for tubes the pointer is not initialised -/
def blank (ty : Ty) : Dom := ⟨ty, .wild, if ty = .tube ∨ ty = .tubeVec then .junk else .null⟩

def DMem.step (m : DMem) : DOp → Option DMem
  | .fresh => some { m with doms := m.doms ++ [some ⟨.interval, .wild, .junk⟩] }
  | .ref ty a => some { m with doms := m.doms ++ [some { blank ty with val := .user a, init := .null }] }
  | .temp ty interm =>
    if ty = .slice then none
    else if interm then
      some { m with doms := m.doms ++ [some { blank ty with val := .own m.nextV, init := .obj m.nextI }], nextV := m.nextV + 1, nextI := m.nextI + 1 }
    else some { m with doms := m.doms ++ [some { blank ty with val := .own m.nextV, init := .null }], nextV := m.nextV + 1 }
  | .copy k => (m.get k).bind fun ad => (m.refValues (blank ad.ty) ad).map fun p => { p.2 with doms := p.2.doms ++ [some p.1] }
  | .assign k l =>
    (m.get k).bind fun d => (m.get l).bind fun ad =>
      (m.refValues { d with ty := ad.ty } ad).map fun p => { p.2 with doms := p.2.doms.set k (some p.1) }
  | .setRef k l =>
    (m.get k).bind fun d => (m.get l).bind fun ad =>
      if d.ty ≠ ad.ty then none else (m.refValues d ad).map fun p => { p.2 with doms := p.2.doms.set k (some p.1) }
  | .reset k => (m.get k).bind fun d =>
      if d.ty = .slice then none
      else match d.init with
        | .obj n => if n ∈ m.deadI then none else some m
        | _ => none
  | .destroy k => (m.get k).bind fun d =>
      if d.ty = .slice then some { m with doms := m.doms.set k none }
      else match d.init with
        | .junk => none
        | .null => some { m with doms := m.doms.set k none }
        | .obj n => if n ∈ m.deadI then none else some { m with doms := m.doms.set k none, deadI := m.deadI ++ [n] }

def DMem.run (m : DMem) : List DOp → Option DMem
  | [] => some m
  | o :: os => (m.step o).bind fun m => m.run os

/-- before any construction -/
def DMem.start : DMem := ⟨[], 0, 0, []⟩

/-! ## A network with a tube -/

/-- a network in which a contractor has been added on a tube, slice by slice (a static contractor or one that is not intertemporal such as `CtcDeriv`): the tube, the slices referred to by the domains of
the network, the number of slices (minus one) of the copy of the initial value if the tube was created by `create_interm_var`, and whether the contractors wait in the queue. The addresses are numbers never
used again. -/
structure TNet where
  tube : Life.Mem
  doms : List Nat
  init : Option Nat
  queued : Bool
  deriving DecidableEq

/-- `add` of a contractor on a tube: one domain and one contractor for each slice, codac_ContractorNetwork.cpp:193-262 (static), 313-373 (not intertemporal), and 430-446, 486-515 for the tube; the contractors
are put in the queue, 521-535. For an intermediate tube, the initial value is a copy of it (codac_Domain.cpp:213-214) -/
def addTube (m : Life.Mem) (interm : Bool) : TNet :=
  ⟨m, m.chain.map Life.Sl.id, if interm then some (m.chain.length - 1) else none, true⟩

inductive NOp
  /-- an operation of the user on the tube -/
  | user (o : Life.Op)
  /-- `add` of the `CtcDeriv` of the network again: it returns at once, codac_ContractorNetwork.cpp:290-301 -/
  | again
  /-- `add` of another contractor on the same tube, slice by slice -/
  | addCtc
  /-- `trigger_all_contractors()`, codac_ContractorNetwork_solve.cpp:181-200 -/
  | trigger
  /-- `reset_interm_vars()`, 202-213: `Domain::reset_value` assigns the copy to the tube, codac_Domain.cpp:624-627 -/
  | reset
  /-- `contract()`, 24-77: each contractor of the queue reads the slices of its domains, and their volumes are computed (`trigger_ctc_related_to_dom`, 253-276) -/
  | contract

def TNet.step (N : TNet) : NOp → Option TNet
  | .user o => (N.tube.step o).map fun m => { N with tube := m }
  | .again => some N
  | .addCtc => some { N with doms := N.doms ++ N.tube.chain.map Life.Sl.id, queued := true }
  | .trigger => some { N with queued := true }
  | .reset =>
    match N.init with
    | none => some { N with queued := true }
    | some k => (N.tube.step (.assign k)).map fun m => { N with tube := m, queued := true }
  | .contract => if N.queued && N.doms.any (fun s => decide (s ∈ N.tube.deadS)) then none else some { N with queued := false }

def TNet.run (N : TNet) : List NOp → Option TNet
  | [] => some N
  | o :: os => (N.step o).bind fun N => N.run os

end Codac.DomMem
