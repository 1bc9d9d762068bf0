import Verif.CN.Intervals
import Verif.CN.Sound

set_option linter.unusedSectionVars false

/-!
# Contractor networks with variables, and the contractor made of a network

Source: `src/core/cn/codac_ContractorNetwork_solve.cpp` (79-97, 202-253, 300-369), `codac_Domain.cpp`,
`src/core/contractors/static/codac_CtcCN.cpp`.

A `Domain` refers to two places: its memory (`m_ref_memory_*`, which identifies it) and its values (`m_ref_values_*`). They
are the same place except for the variables (`IntervalVar`, `IntervalVectorVar`) while `contract({{x,..},..})` runs, where
the values of the variable are those of the box given by the caller.
-/

namespace Codac.CN
open Codac

section
variable {K : Type*} [LinearOrder K]

/-- the memory with the references of the domains: `refC c` is the place of the values of the interval domain identified by
the place `c` (`m_ref_values_i`), `refB cs` those of the box domain identified by `cs` (`m_ref_values_iv`),
codac_Domain.h:120-160 -/
structure PMem (K : Type*) [LinearOrder K] where
  heap : Mem K
  refC : Nat → Nat
  refB : List Nat → List Nat

/-- the contractor as it acts on the places the domains refer to -/
def ICtc.through (ρ : Nat → Nat) : ICtc K → ICtc K
  | .ibex cells f => .ibex (cells.map ρ) f
  | .equality a b => .equality (ρ a) (ρ b)
  | .component cs => .component cs

/-- `Contractor::contract`, codac_Contractor.cpp:207-409: the values are read and written with `dom->interval()`, that is
through the references, codac_Domain.cpp:388-399 -/
def pApply (k : ICtc K) (p : PMem K) : PMem K := { p with heap := (k.through p.refC).apply p.heap }

/-- the identities of the domains a contractor works on -/
def ICtc.cells : ICtc K → List Nat
  | .ibex cells _ => cells
  | .equality a b => [a, b]
  | .component _ => []

end

section
variable {K : Type*} [Field K] [LinearOrder K] [IsStrictOrderedRing K] {C : Type*} [DecidableEq C]

/-- `Domain::compute_volume`, codac_Domain.cpp:504-519, through the references -/
def pVol : Dm → PMem K → Vol K
  | .cell c, p => volInterval (p.heap (p.refC c))
  | .box cs, p => volBox ((p.refB cs).map p.heap)

/-- a network with variables and intermediate variables. `known` are the domains of `m_map_domains`; `vars` those whose
memory is an `IntervalVar` or an `IntervalVectorVar`; `interm` those created by `create_interm_var`, with the initial values
`init` (`m_init_i_ptr`, `m_init_iv_ptr`); `comp cs` is the `T_COMPONENT` contractor of the box `cs` -/
structure VarNet (C K : Type*) [LinearOrder K] where
  N : Net Dm C (PMem K) (Vol K)
  known : List Dm
  vars : List Dm
  interm : List Dm
  init : Nat → Itv K
  comp : List Nat → C

/-- a network without contractor, with a fixed point ratio `r` -/
def emptyVarNet (r : K) (heap : Mem K) (vars interm : List Dm) (init : Nat → Itv K) (comp : List Nat → C) :
    VarNet C K where
  N := { G := { doms := fun _ => [], ctcs := fun _ => [], comps := compsDm, kind := fun _ => .contracting,
                apply := fun _ => id, vol := pVol, drop := dropVol r }
         s := { mem := ⟨heap, id, id⟩, saved := fun _ => some (-1), active := fun _ => false, queue := [] }
         all := [] }
  known := []
  vars := vars
  interm := interm
  init := init
  comp := comp

/-- `ContractorNetwork::add` of the contractor `k`, known as `c`, on its domains (codac_ContractorNetwork.cpp:160-400);
`doms`: the domains given by the user, and their components, that become known -/
def VarNet.add (S : VarNet C K) (c : C) (k : ICtc K) (doms : List Dm) : VarNet C K :=
  { S with N := (Op.add c k.doms k.kind (pApply k)).run (some (-1)) S.N, known := S.known ++ doms ++ k.doms }

/-- `add_dom` of a box: the box, its components and its `T_COMPONENT` contractor, codac_ContractorNetwork.cpp:471-484 -/
def VarNet.addBox (S : VarNet C K) (cs : List Nat) : VarNet C K := S.add (S.comp cs) (.component cs) []

/-- `var_ptr->set_ref_values(dom)` then `trigger_ctc_related_to_dom(var_ptr)` for an interval,
codac_ContractorNetwork_solve.cpp:336-338. The volume is taken from `dom`, a new `Domain` object: it is `-1`
(codac_Domain.h:180, codac_Domain.cpp:333-339) -/
def replaceCell (G : Graph Dm C (PMem K) (Vol K)) (s : State Dm C (PMem K) (Vol K)) (p : Nat × Nat) :
    State Dm C (PMem K) (Vol K) :=
  trigger G none
    { s with mem := { s.mem with refC := Function.update s.mem.refC p.1 p.2 },
             saved := Function.update s.saved (.cell p.1) (some (-1)) } (.cell p.1)

/-- the same lines for a box; the references of its components are not changed yet -/
def replaceBox (G : Graph Dm C (PMem K) (Vol K)) (s : State Dm C (PMem K) (Vol K)) (cs as : List Nat) :
    State Dm C (PMem K) (Vol K) :=
  trigger G none
    { s with mem := { s.mem with refB := Function.update s.mem.refB cs as },
             saved := Function.update s.saved (.box cs) (some (-1)) } (.box cs)

/-- a variable and the places of the values it is replaced by -/
inductive Assoc
  | cell (c a : Nat)
  | box (cs as : List Nat)
  deriving DecidableEq

/-- the pairs of intervals of an association -/
def Assoc.pairs : Assoc → List (Nat × Nat)
  | .cell c a => [(c, a)]
  | .box cs as => cs.zip as

/-- `replace_var_by_dom(v.first, v.first)`: the variable refers to its own memory again, 91-94 -/
def Assoc.back : Assoc → Assoc
  | .cell c _ => .cell c c
  | .box cs _ => .box cs cs

/-- the box variable is added to the network when only some of its components are known,
codac_ContractorNetwork_solve.cpp:306-330 -/
def VarNet.complete (S : VarNet C K) : Assoc → VarNet C K
  | .cell _ _ => S
  | .box cs _ => if Dm.box cs ∉ S.known ∧ cs.any (fun c => decide (Dm.cell c ∈ S.known)) = true then S.addBox cs else S

/-- the domains that have to be in the network, otherwise an exception is thrown, 333-334 -/
def Assoc.needs : Assoc → List Dm
  | .cell c _ => [.cell c]
  | .box cs _ => .box cs :: cs.map .cell

/-- the dimensions are the same, otherwise an exception is thrown, 347-348 -/
def Assoc.sized : Assoc → Bool
  | .cell _ _ => true
  | .box cs as => decide (cs.length = as.length)

/-- the new state of the network -/
def Assoc.apply (G : Graph Dm C (PMem K) (Vol K)) (s : State Dm C (PMem K) (Vol K)) : Assoc → State Dm C (PMem K) (Vol K)
  | .cell c a => replaceCell G s (c, a)
  | .box cs as => (cs.zip as).foldl (replaceCell G) (replaceBox G s cs as)

/-- `replace_var_by_dom`, codac_ContractorNetwork_solve.cpp:300-369; `none`: an exception is thrown -/
def VarNet.replace (S : VarNet C K) (v : Assoc) : Option (VarNet C K) :=
  let S1 := S.complete v
  if v.needs.all (fun d => decide (d ∈ S1.known)) = true ∧ v.sized = true then
    some { S1 with N := { S1.N with s := v.apply S1.N.G S1.N.s } }
  else none

def VarNet.replaceAll : VarNet C K → List Assoc → Option (VarNet C K)
  | S, [] => some S
  | S, v :: vs => (S.replace v).bind fun S' => S'.replaceAll vs

/-- `Domain::is_var_not_associated`, codac_Domain.cpp:483-502 -/
def unassociated (p : PMem K) : Dm → Bool
  | .cell c => decide (p.refC c = c)
  | .box cs => decide (p.refB cs = cs)

/-- `contract(verbose)`, codac_ContractorNetwork_solve.cpp:24-77: an exception is thrown (`none`) if a variable is not
associated. There is no time limit, the loop goes on until the queue is empty: `none` too if `n` iterations are not enough -/
def VarNet.propagate (S : VarNet C K) (n : Nat) : Option (VarNet C K) :=
  if S.vars.any (fun d => decide (d ∈ S.known) && unassociated S.N.s.mem d) = true then none
  else
    let s := contract S.N.G n S.N.s
    if s.queue = [] then some { S with N := { S.N with s := s } } else none

/-- `contract(var_dom, verbose)`, codac_ContractorNetwork_solve.cpp:79-97; the order of `vs` is the one of the unordered map -/
def VarNet.contractWith (S : VarNet C K) (vs : List Assoc) (n : Nat) : Option (VarNet C K) :=
  (S.replaceAll vs).bind fun S1 => (S1.propagate n).bind fun S2 => S2.replaceAll (vs.map Assoc.back)

/-- writing the values of a box -/
def writeCells : List (Nat × Itv K) → Mem K → Mem K
  | [], m => m
  | p :: ps, m => writeCells ps (Function.update m p.1 p.2)

/-- `Domain::reset_value`, codac_Domain.cpp:607-641 -/
def resetValue (init : Nat → Itv K) : Dm → PMem K → PMem K
  | .cell c, p => { p with heap := Function.update p.heap (p.refC c) (init c) }
  | .box cs, p => { p with heap := writeCells ((p.refB cs).zip (cs.map init)) p.heap }

/-- `reset_interm_vars`, codac_ContractorNetwork_solve.cpp:202-213 -/
def VarNet.resetInterm (S : VarNet C K) : VarNet C K :=
  { S with N := (Op.reset S.interm (resetValue S.init)).run (some (-1)) S.N }

/-- the box of the caller holds `X` in the places `xs` -/
def VarNet.write (S : VarNet C K) (xs : List Nat) (X : List (Itv K)) : VarNet C K :=
  { S with N := { S.N with s := { S.N.s with mem := { S.N.s.mem with heap := writeCells (xs.zip X) S.N.s.mem.heap } } } }

/-- `CtcCN::contract`, codac_CtcCN.cpp:18-26, for the variable `cs` and the box `X` held in the places `xs`; `none`: an
assert or an exception, or more than `n` iterations. The second component is the box after the call -/
def VarNet.ctcCN (S : VarNet C K) (cs xs : List Nat) (X : List (Itv K)) (n : Nat) : Option (VarNet C K × List (Itv K)) :=
  if xs.length = cs.length ∧ X.length = cs.length then
    (((S.write xs X).resetInterm).contractWith [.box cs xs] n).map fun S' => (S', xs.map S'.N.s.mem.heap)
  else none

/-- successive calls to `CtcCN::contract` with boxes `X` held in the places `xs` -/
def VarNet.runCN (cs : List Nat) : VarNet C K → List (List Nat × List (Itv K) × Nat) → Option (VarNet C K)
  | S, [] => some S
  | S, (xs, X, n) :: l => (S.ctcCN cs xs X n).bind fun r => r.1.runCN cs l

end

end Codac.CN
