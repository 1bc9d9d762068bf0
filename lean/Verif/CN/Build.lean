import Mathlib.Data.List.Basic
import Mathlib.Data.List.Perm.Basic
import Mathlib.Data.List.Nodup
import Mathlib.Logic.Function.Basic

/-!
# Contractor network: how the graph is built

Source: `src/core/cn/codac_ContractorNetwork.cpp`, `codac_Hashcode.cpp`, `codac_Domain.cpp`, `codac_Contractor.cpp`.

Memory addresses are natural numbers. A network holds one `Domain` object by address and one `Contractor` object by key
(the addresses of its domains, then a code for the constraint); `std::map` is modelled by the list of its entries and the
search of an entry equivalent to the key (this is what `std::map` does when the order is a strict weak one, which is proved in
`Verif/Props/Network.lean`). A `Contractor*` is modelled by the contractor it points to: the network has one
object by key. Empty domains (exception, codac_ContractorNetwork.cpp:434-435) are not modelled: the domains are assumed non-empty.
-/

namespace Codac.Built

/-- a `Domain`: its type and the addresses it refers to (`Domain` constructors, codac_Domain.cpp:68-228). `a` is the address used
as hash code (`DomainHashcode::uintptr`, codac_Hashcode.cpp:105-153). For an interval `val` is the address of its values: it differs
from `a` for a `double` (76-81), which is copied when the `Domain` object is built. The components of a vector are
intervals (`Domain::vector_component`, 1213-1253), those of a tube its slices, those of a tube vector its tubes. -/
inductive Ref
  | interval (a val : Nat)
  | vec (a : Nat) (comps : List (Nat × Nat))
  | slice (a : Nat)
  | tube (a : Nat) (ss : List Nat)
  | tubeVec (a : Nat) (ts : List (Nat × List Nat))
  deriving DecidableEq

/-- `DomainHashcode::uintptr`, codac_Hashcode.cpp:105-153 -/
def Ref.addr : Ref → Nat
  | .interval a _ => a
  | .vec a _ => a
  | .slice a => a
  | .tube a _ => a
  | .tubeVec a _ => a

/-- `Contractor::Type` and the object the contractor refers to, codac_Contractor.cpp:24-49. `eval` and `deriv` are the `T_CODAC`
contractors of the classes `CtcEval` and `CtcDeriv`. (`CtcDist` is a static contractor: the code 4 is never given.) -/
inductive Kd
  | equality
  | component
  | ibex (obj : Nat)
  | eval (obj : Nat)
  | deriv (obj : Nat)
  | dyn (obj : Nat)
  deriving DecidableEq

/-- the last element of the key, codac_Hashcode.cpp:39-73 -/
def Kd.code : Kd → Nat
  | .equality => 0
  | .component => 1
  | .ibex o => o
  | .eval _ => 2
  | .deriv _ => 3
  | .dyn o => o

/-- `Contractor` (but `T_CN`): its constraint and its domains -/
structure Ct where
  kind : Kd
  doms : List Nat
  deriving DecidableEq

/-- `ContractorHashcode::ContractorHashcode`, codac_Hashcode.cpp:33-37 -/
def Ct.hash (c : Ct) : List Nat := c.doms ++ [c.kind.code]

/-- `ContractorHashcode::operator<`, codac_Hashcode.cpp:80-91: the first different element decides, two keys that agree on the length of
the shorter one are not ordered -/
def hLess : List Nat → List Nat → Bool
  | x :: xs, y :: ys => if x = y then hLess xs ys else decide (x < y)
  | _, _ => false

/-- the keys `std::map::find` takes for equal -/
def same (h h' : List Nat) : Bool := !hLess h h' && !hLess h' h

/-- `ContractorNetwork`: `m_map_domains`, `m_map_ctc`, the lists `Domain::m_v_ctc`, `m_deque`, `m_domains_related_to_ctcderiv` -/
structure Net where
  doms : List Ref
  ctcs : List Ct
  links : Nat → List Ct
  queue : List Ct
  pairs : List (Nat × Nat)

def Net.empty : Net := ⟨[], [], fun _ => [], [], []⟩

/-- the test `m_map_domains.find(hash) != m_map_domains.end()`, codac_ContractorNetwork.cpp:437-439 -/
def Net.has (N : Net) (a : Nat) : Bool := N.doms.any fun r => r.addr == a

/-- codac_ContractorNetwork.cpp:441-442 -/
def Net.push (N : Net) (r : Ref) : Net := { N with doms := N.doms ++ [r] }

/-- `add_ctc_to_queue`, codac_ContractorNetwork_solve.cpp:227-236 -/
def enqueue (c : Ct) (q : List Ct) : List Ct := if c.kind = .component then q ++ [c] else c :: q

/-- `ContractorNetwork::add_ctc`, codac_ContractorNetwork.cpp:522-538 -/
def Net.addCtc (N : Net) (c : Ct) : Ct × Net :=
  match N.ctcs.find? fun c' => same c'.hash c.hash with
  | some c' => (c', N)
  | none => (c, { N with ctcs := N.ctcs ++ [c], queue := enqueue c N.queue })

/-- the loops `for(auto& dom : …) dom->add_ctc(ctc_ptr)`; `Domain::add_ctc`, codac_Domain.cpp:473-477 -/
def Net.link (N : Net) (c : Ct) (ds : List Nat) : Net :=
  { N with links := fun d => N.links d ++ List.replicate (ds.count d) c }

/-- `add_ctc` then the links, codac_ContractorNetwork.cpp:257-265, 391-399, 463-467, 480-482, 498-502, 510-513, 123-128; `ls` are the domains linked, in
order (some are linked twice) -/
def Net.linkNew (N : Net) (k : Kd) (ds ls : List Nat) : Net :=
  (N.addCtc ⟨k, ds⟩).2.link (N.addCtc ⟨k, ds⟩).1 ls

/-- `add_dom` of an interval or of a slice, codac_ContractorNetwork.cpp:432-454 -/
def Net.addLeaf (N : Net) (r : Ref) : Net := if N.has r.addr then N else N.push r

/-- codac_ContractorNetwork.cpp:505-514 -/
def Net.addPairs (N : Net) : List Nat → Net
  | s :: s' :: ss => Net.addPairs ((((N.addLeaf (.slice s)).addLeaf (.slice s')).linkNew .component [s, s'] [s, s'])) (s' :: ss)
  | _ => N

/-- `add_dom` of a tube, codac_ContractorNetwork.cpp:432-442, 486-516 -/
def Net.addTube (N : Net) (a : Nat) (ss : List Nat) : Net :=
  if N.has a then N
  else
    let N1 := (ss.map Ref.slice).foldl Net.addLeaf (N.push (.tube a ss))
    (N1.linkNew .component (a :: ss) (a :: a :: ss)).addPairs ss

/-- `ContractorNetwork::add_dom`, codac_ContractorNetwork.cpp:432-520 -/
def Net.addDom (N : Net) : Ref → Net
  | .interval a v => N.addLeaf (.interval a v)
  | .slice a => N.addLeaf (.slice a)
  | .vec a cs =>
    if N.has a then N
    else
      ((cs.map fun c => Ref.interval c.1 c.2).foldl Net.addLeaf (N.push (.vec a cs))).linkNew .component
        (a :: cs.map Prod.fst) (a :: cs.map Prod.fst)
  | .tube a ss => N.addTube a ss
  | .tubeVec a ts =>
    if N.has a then N
    else
      (ts.foldl (fun N t => N.addTube t.1 t.2) (N.push (.tubeVec a ts))).linkNew .component
        (a :: ts.map Prod.fst) (a :: a :: ts.map Prod.fst)

/-- a row of the domains of a constraint: the domains are registered, the contractor is added and linked,
codac_ContractorNetwork.cpp:196-265 and 386-399 -/
def Net.addRow (N : Net) (k : Kd) (row : List Ref) : Net :=
  (row.foldl Net.addDom N).linkNew k (row.map Ref.addr) (row.map Ref.addr)

/-- `Domain::total_size`, codac_Domain.cpp:1047-1078 -/
def totalSize (ds : List Ref) : Nat :=
  (ds.map fun
    | .vec _ cs => cs.length
    | .tubeVec _ ts => ts.length
    | _ => 1).sum

/-- number of slices of a tube or of a tube vector (`TubeVector::nb_slices`, codac_TubeVector.cpp:279-285: its first component) -/
def Ref.slices? : Ref → Option Nat
  | .tube _ ss => some ss.length
  | .tubeVec _ ts => ts.head?.map fun t => t.2.length
  | _ => none

/-- `Domain::dyn_same_slicing`, codac_Domain.cpp:1012-1045; the slicings are compared by their numbers of slices here (the
code compares the bounds of the slices also) -/
def sameSlicing : Option Nat → List Ref → Bool
  | _, [] => true
  | none, .tube _ ss :: ds => sameSlicing (some ss.length) ds
  | some n, .tube _ ss :: ds => ss.length == n && sameSlicing (some n) ds
  | none, .tubeVec a ts :: ds => sameSlicing (Ref.slices? (.tubeVec a ts)) ds
  | some n, .tubeVec _ ts :: ds => (ts.all fun t => t.2.length == n) && sameSlicing (some n) ds
  | o, _ :: ds => sameSlicing o ds

/-- the domains of the `k`-th slice of the instance `i` of a static constraint, for one of its domains; `m` is the
number of instances. codac_ContractorNetwork.cpp:201-251; `none` for an exception, a failed assertion or the slice pointer
being null -/
def statPick (m i k : Nat) : Ref → Option (List Ref)
  | .interval a v => if m = 1 then some [.interval a v] else none
  | .slice a => some [.slice a]
  | .vec _ cs =>
    if m = 1 then some (cs.map fun c => Ref.interval c.1 c.2)
    else if cs.length ≠ m then none
    else cs[i]?.map fun c => [Ref.interval c.1 c.2]
  | .tube _ ss => if m = 1 then ss[k]?.map fun s => [Ref.slice s] else none
  | .tubeVec _ ts =>
    if m = 1 then ts.mapM fun t => t.2[k]?.map Ref.slice
    else if ts.length ≠ m then none
    else (ts[i]?.bind fun t => t.2[k]?).map fun s => [Ref.slice s]

/-- the vector `v_dom_ptr`, 200-254 -/
def statRow (nv m i k : Nat) (ds : List Ref) : Option (List Ref) :=
  (ds.mapM (statPick m i k)).bind fun rs => if rs.flatten.length = nv then some rs.flatten else none

/-- number of executions of the loop on `k` (191-268): `slices_nb` is the one of the last dynamic domain, and the loop is a `do while` -/
def statLoops (ds : List Ref) : Nat := max 1 ((ds.filterMap Ref.slices?).getLast?.getD 1)

/-- the two loops, 189-269 -/
def statRows (nv : Nat) (ds : List Ref) : Option (List (List Ref)) :=
  ((List.range (totalSize ds / nv)).flatMap fun i => (List.range (statLoops ds)).map fun k => (i, k)).mapM
    fun p => statRow nv (totalSize ds / nv) p.1 p.2 ds

/-- `ContractorNetwork::add(Ctc&, …)`, codac_ContractorNetwork.cpp:170-270; `nv` is the dimension `nb_var` of the contractor -/
def Net.addStatic (N : Net) (obj nv : Nat) (ds : List Ref) : Option Net :=
  if ds = [] ∨ sameSlicing none ds = false ∨ nv = 0 ∨ totalSize ds % nv ≠ 0 then none
  else (statRows nv ds).map fun rows => rows.foldl (fun N row => N.addRow (.ibex obj) row) (ds.foldl Net.addDom N)

/-- the slices of rank `k` of the domains of a dynamic constraint, codac_ContractorNetwork.cpp:335-381 -/
def dynPick (k : Nat) : Ref → Option (List Ref)
  | .tube _ ss => ss[k]?.map fun s => [Ref.slice s]
  | .tubeVec _ ts => ts.mapM fun t => t.2[k]?.map Ref.slice
  | _ => none

def isSlice : Ref → Bool
  | .slice _ => true
  | _ => false

def isTube : Ref → Bool
  | .tube _ _ => true
  | .tubeVec _ _ => true
  | _ => false

/-- the rows of slices, 335-381; the number of rows is the number of slices of the first domain -/
def dynRows (ds : List Ref) : Option (List (List Ref)) :=
  (List.range ((ds.filterMap Ref.slices?).head?.getD 0)).mapM fun k => (ds.mapM (dynPick k)).map List.flatten

/-- the end of `ContractorNetwork::add(DynCtc&, …)`, codac_ContractorNetwork.cpp:325-400: row by row, or as it is -/
def Net.addDynRows (N : Net) (k : Kd) (inter : Bool) (ds : List Ref) : Option Net :=
  if inter = false ∧ ds.all isSlice = false then
    if ds.all isTube = false ∨ sameSlicing none ds = false then none
    else (dynRows ds).map fun rows => rows.foldl (fun N row => N.addRow k row) (ds.foldl Net.addDom N)
  else some (N.addRow k ds)

/-- `add` of a `CtcDeriv` object, 297-400; `own` is the `CtcDeriv` object of the network (`m_ctc_deriv`) -/
def Net.addDeriv (N : Net) (own obj : Nat) (ds : List Ref) : Option Net :=
  if ds.all isSlice = false ∧ ds.length ≠ 2 then none
  else if obj = own ∧ ds.all isSlice = false then
    match ds with
    | [x, v] =>
      let N1 := (N.addDom x).addDom v
      if (x.addr, v.addr) ∈ N1.pairs then some N1
      else { N1 with pairs := N1.pairs ++ [(x.addr, v.addr)] }.addDynRows (.deriv obj) false ds
    | _ => none
  else N.addDynRows (.deriv obj) false ds

/-- `ContractorNetwork::add(DynCtc&, …)`, codac_ContractorNetwork.cpp:272-401. `CtcEval` is inter-temporal, `CtcDeriv` is not; `inter` is for
the other ones. -/
def Net.addDyn (N : Net) (own : Nat) (k : Kd) (inter : Bool) (ds : List Ref) : Option Net :=
  if ds = [] then none
  else
    match k with
    | .eval obj =>
      match ds with
      | [_, _, _] => N.addDynRows (.eval obj) true ds
      | [_, _, x, v] => (N.addDeriv own own [x, v]).bind fun N => N.addDynRows (.eval obj) true ds
      | _ => none
    | .deriv obj => N.addDeriv own obj ds
    | .dyn obj => N.addDynRows (.dyn obj) inter ds
    | _ => none

/-- `ContractorNetwork::subvector`, codac_ContractorNetwork.cpp:106-160: `v` is the vector, `(b, ds)` the vector created for the
components from `start` on -/
def Net.addSub (N : Net) (a : Nat) (cs : List (Nat × Nat)) (b : Nat) (ds : List (Nat × Nat)) (start : Nat) : Net :=
  (List.range ds.length).foldl (fun N i =>
    match ds[i]?, cs[i + start]? with
    | some s, some v =>
      ((N.addLeaf (.interval s.1 s.2)).addLeaf (.interval v.1 v.2)).linkNew .equality [s.1, v.1] [s.1, v.1]
    | _, _ => N)
    ((N.addDom (.vec a cs)).addDom (.vec b ds))

/-- comparison of the key of a sub-network with another key `h`, codac_Hashcode.cpp:25-31 and 80-91: the key has one element but its length
`m_n` is not initialised, `n` is the value found there. `none` for a read outside the array. -/
def cnSame (n ptr : Nat) (h : List Nat) : Option Bool :=
  if min n h.length = 0 then some true
  else if h.head? = some ptr then (if min n h.length = 1 then some true else none)
  else some false

/-- `ContractorNetwork::add(ContractorNetwork&)`, codac_ContractorNetwork.cpp:403-414 and 522-538, in a network without sub-network: the Boolean says if the
sub-network is a new contractor; otherwise its domains are linked to the contractor found. `ds` are the domains of the sub-network. (The links to the new
contractor, which is not a `Ct`, are not represented.) -/
def Net.addNet (N : Net) (n ptr : Nat) (ds : List Ref) : Option (Net × Bool) :=
  if N.ctcs.any fun c => cnSame n ptr c.hash == none then none
  else match N.ctcs.find? fun c => cnSame n ptr c.hash == some true with
    | some c => some ((ds.foldl Net.addDom N).link c (ds.map Ref.addr), false)
    | none => some (ds.foldl Net.addDom N, true)

/-- the calls of the interface that build a network -/
inductive Op
  /-- `add(Ctc&, …)` -/
  | stat (obj nv : Nat) (ds : List Ref)
  /-- `add(DynCtc&, …)` -/
  | dyn (k : Kd) (inter : Bool) (ds : List Ref)
  /-- `create_interm_var`, 62-104 -/
  | var (r : Ref)
  /-- `subvector` -/
  | sub (a : Nat) (cs : List (Nat × Nat)) (b : Nat) (ds : List (Nat × Nat)) (start : Nat)

def Net.run (own : Nat) (N : Net) : Op → Option Net
  | .stat obj nv ds => N.addStatic obj nv ds
  | .dyn k inter ds => N.addDyn own k inter ds
  | .var r => some (N.addDom r)
  | .sub a cs b ds start => some (N.addSub a cs b ds start)

def Net.runAll (own : Nat) : Net → List Op → Option Net
  | N, [] => some N
  | N, o :: os => (N.run own o).bind fun N => Net.runAll own N os

end Codac.Built
