import Mathlib.Logic.Function.Basic
import Mathlib.Data.List.Basic
import Mathlib.Data.List.Nodup
import Mathlib.Order.Basic

/-!
# Contractor network: model of the propagation

Source: `src/core/cn/codac_ContractorNetwork_solve.cpp`, `codac_ContractorNetwork.cpp`, `codac_Contractor.cpp`,
`codac_Domain.cpp`.

`D` are the `Domain` objects of the network, `C` its `Contractor` objects, `M` the memory the domains point to (two
domains may share a part of the memory: a box and its components, a tube and its slices, two neighbour slices and
their common gate), `W` the volumes. What a contractor does to the memory is `Graph.apply`; the contractors written in
`codac_Contractor.cpp` are modelled in `Verif/CN/Cells.lean`.
-/

namespace Codac.CN

/-- `Contractor::Type`, codac_Contractor.h: `T_IBEX`, `T_CODAC` and `T_EQUALITY` are the contracting ones -/
inductive Kind
  | contracting
  | component
  | subnet
  deriving DecidableEq

/-- the bipartite graph held by the network -/
structure Graph (D C M W : Type*) where
  /-- `Contractor::domains`, codac_Contractor.cpp:133-145 -/
  doms : C → List D
  /-- `Domain::contractors`, codac_Domain.cpp:463-471 -/
  ctcs : D → List C
  /-- the components of a `T_INTERVAL_VECTOR` domain (intervals: they have no component), nothing otherwise -/
  comps : D → List D
  /-- `Contractor::type` -/
  kind : C → Kind
  /-- `Contractor::contract`, codac_Contractor.cpp:207-409 -/
  apply : C → M → M
  /-- `Domain::compute_volume`, codac_Domain.cpp:504-574 -/
  vol : D → M → W
  /-- the test `current/saved < 1 - m_fixedpoint_ratio`, codac_ContractorNetwork_solve.cpp:259 -/
  drop : W → W → Bool

/-- the mutable part of the network -/
structure State (D C M W : Type*) where
  mem : M
  /-- `Domain::m_volume` -/
  saved : D → W
  /-- `Contractor::m_active` -/
  active : C → Bool
  /-- `ContractorNetwork::m_deque` -/
  queue : List C

variable {D C M W : Type*} [DecidableEq D] [DecidableEq C]

/-- `ContractorNetwork::add_ctc_to_queue`, codac_ContractorNetwork_solve.cpp:227-236 -/
def addToQueue (G : Graph D C M W) (c : C) (q : List C) : List C :=
  if G.kind c = .component then q ++ [c] else c :: q

/-- the loop on the contractors of a domain, codac_ContractorNetwork_solve.cpp:266-273: active flags and local queue -/
def activate (G : Graph D C M W) (avoid : Option C) : List C → (C → Bool) × List C → (C → Bool) × List C
  | [], r => r
  | c :: cs, r =>
    if some c ≠ avoid ∧ r.1 c = false then
      activate G avoid cs (Function.update r.1 c true, addToQueue G c r.2)
    else activate G avoid cs r

/-- `trigger_ctc_related_to_dom` without the recursion, codac_ContractorNetwork_solve.cpp:255-280 -/
def triggerOne (G : Graph D C M W) (avoid : Option C) (s : State D C M W) (d : D) : State D C M W :=
  let cur := G.vol d s.mem
  let s1 : State D C M W :=
    if G.drop cur (s.saved d) then
      let r := activate G avoid (G.ctcs d) (s.active, [])
      -- for(auto& c : ctc_deque) m_deque.push_front(c);
      { s with active := r.1, queue := r.2.reverse ++ s.queue }
    else s
  { s1 with saved := Function.update s1.saved d cur }

/-- `trigger_ctc_related_to_dom`, codac_ContractorNetwork_solve.cpp:255-298. The recursive calls are on the components of
a box, which are intervals: the recursion has depth one. -/
def trigger (G : Graph D C M W) (avoid : Option C) (s : State D C M W) (d : D) : State D C M W :=
  (d :: G.comps d).foldl (triggerOne G avoid) s

/-- one iteration of the loop of `contract`, codac_ContractorNetwork_solve.cpp:51-60. The domains of a sub-network
(`T_CN`) are the `Domain` objects of that sub-network, whose saved volumes were refreshed by its own `contract`, so
nothing is triggered in this case. -/
def step (G : Graph D C M W) (s : State D C M W) : State D C M W :=
  match s.queue with
  | [] => s
  | c :: q =>
    let m := G.apply c s.mem
    if G.kind c = .subnet then { s with mem := m, queue := q }
    else
      (G.doms c).foldl (trigger G (some c))
        { s with mem := m, queue := q, active := Function.update s.active c false }

/-- the loop of `contract` stopped after `n` iterations (by the time limit or because the queue is empty) -/
def steps (G : Graph D C M W) : Nat → State D C M W → State D C M W
  | 0, s => s
  | n + 1, s => steps G n (step G s)

/-- codac_ContractorNetwork_solve.cpp:35-36: the volumes are saved at the beginning of `contract` -/
def refresh (G : Graph D C M W) (s : State D C M W) : State D C M W :=
  { s with saved := fun d => G.vol d s.mem }

/-- `ContractorNetwork::contract`, codac_ContractorNetwork_solve.cpp:24-77, with `n` iterations of the loop -/
def contract (G : Graph D C M W) (n : Nat) (s : State D C M W) : State D C M W := steps G n (refresh G s)

/-- one pass of `contract_ordered_mode`, codac_ContractorNetwork_solve.cpp:125-146: all the contractors from the back of
the queue to its front, then in the other order without the first one. Volumes: those of the end of the pass (those of
domains not involved in the queue are refreshed too here, they are not in the code; `contract` refreshes them anyway) -/
def orderedPass (G : Graph D C M W) (s : State D C M W) : State D C M W :=
  let m1 := s.queue.reverse.foldl (fun m c => G.apply c m) s.mem
  let m2 := s.queue.tail.foldl (fun m c => G.apply c m) m1
  { s with mem := m2, saved := fun d => G.vol d m2 }

/-- `contract_ordered_mode` with `n` passes (the number of passes depends on the volumes), 118-148 -/
def orderedMode (G : Graph D C M W) : Nat → State D C M W → State D C M W
  | 0, s => s
  | n + 1, s => orderedMode G n (orderedPass G s)

/-- `trigger_all_contractors`, codac_ContractorNetwork_solve.cpp:182-200; `all` are the contractors in the order of the
map -/
def triggerAll (G : Graph D C M W) (all : List C) (s : State D C M W) : State D C M W :=
  { s with
    active := fun c => if c ∈ all then decide (G.kind c = .contracting) else s.active c
    queue := (all.filter fun c => decide (G.kind c = .contracting)).foldl (fun q c => addToQueue G c q) [] }

/-- `reset_interm_vars`, codac_ContractorNetwork_solve.cpp:202-213; `interm` are the intermediate variables in the order of
the map, `reset d` gives the memory where the values of `d` are the initial ones, `unset` is the volume `-1` -/
def resetInterm (G : Graph D C M W) (reset : D → M → M) (unset : W) (interm : List D) (all : List C)
    (s : State D C M W) : State D C M W :=
  triggerAll G all
    (interm.foldl (fun s d =>
      trigger G none { s with mem := reset d s.mem, saved := Function.update s.saved d unset } d) s)

/-- `add_ctc` of a new contractor, codac_ContractorNetwork.cpp:522-538, followed by its registration in its domains
(`dom->add_ctc(ctc_ptr)`, 264-265 and 398-399): `G` is the graph where `c` has been added -/
def enqueueNew (G : Graph D C M W) (c : C) (s : State D C M W) : State D C M W :=
  { s with active := Function.update s.active c true, queue := addToQueue G c s.queue }

/-- the graph where the contractor `c` is added -/
def addCtc (G : Graph D C M W) (c : C) (ds : List D) (k : Kind) (f : M → M) : Graph D C M W :=
  { G with
    doms := Function.update G.doms c ds
    kind := Function.update G.kind c k
    apply := Function.update G.apply c f
    ctcs := fun d => G.ctcs d ++ List.replicate (ds.count d) c }

end Codac.CN
