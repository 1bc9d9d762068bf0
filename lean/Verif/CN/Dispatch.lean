import Verif.CN.Build
import Mathlib.Tactic.SplitIfs
import Mathlib.Tactic.Push

/-!
# The overload of a dynamic contractor chosen for a list of domains

Source: the functions `contract(vector<Domain*>&)` of `src/core/contractors/dyn/`: this is how a network runs a `DynCtc`
(codac_Contractor.cpp:348-351).

A call `contract(v_domains[i]->tube(), …)` is represented by the list of its domains: the types of the domains choose the overload. The
arguments `TimePropag` are not represented (they are the default ones).
-/

namespace Codac.Built

/-- the end of the function: the calls made, in order -/
inductive Disp
  /-- it returns -/
  | done (calls : List (List Ref))
  /-- a `DomainsTypeException` is thrown after these calls -/
  | thrown (calls : List (List Ref))
  /-- `v_domains[i]` is read outside of the vector -/
  | undef
  deriving DecidableEq

/-- `Domain::Type`, codac_Domain.h -/
inductive Ty
  | interval
  | vec
  | slice
  | tube
  | tubeVec
  deriving DecidableEq

/-- `Domain::type` -/
def Ref.ty : Ref → Ty
  | .interval _ _ => .interval
  | .vec _ _ => .vec
  | .slice _ => .slice
  | .tube _ _ => .tube
  | .tubeVec _ _ => .tubeVec

/-- the loop of `CtcDeriv::contract`, codac_CtcDeriv.cpp:63-71: from `i`, `n` passes left; `h` is half of the number of domains, `acc` the calls already made -/
def derivPairs (ds : List Ref) (h : Nat) : Nat → Nat → List (List Ref) → Disp
  | _, 0, acc => .done acc
  | i, n + 1, acc =>
    match ds[i]?, ds[i + h]? with
    | some x, some v =>
      if x.ty ≠ .slice ∨ v.ty ≠ .slice then .thrown acc else derivPairs ds h (i + 1) n (acc ++ [[x, v]])
    | _, _ => .undef

/-- `CtcDeriv::contract(vector<Domain*>&)`, codac_CtcDeriv.cpp:36-76. The second domain is read only if the first one is a tube or a
tube vector (`&&`). -/
def derivDisp (ds : List Ref) : Disp :=
  match ds with
  | [] => .undef
  | x :: rest =>
    if x.ty = .slice then
      if ds.length % 2 ≠ 0 then .thrown []
      else derivPairs ds (ds.length / 2) 0 (ds.length / 2) []
    else if x.ty = .tube ∨ x.ty = .tubeVec then
      match rest with
      | [] => .undef
      | v :: _ =>
        if v.ty = x.ty then if ds.length ≠ 2 then .thrown [] else .done [ds]
        else .thrown []
    else .thrown []

/-- `CtcEval::contract(vector<Domain*>&)`, codac_CtcEval.cpp:37-72 -/
def evalDisp (ds : List Ref) : Disp :=
  match ds with
  | [] => .undef
  | t :: rest =>
    if t.ty ≠ .interval then .thrown []
    else
      match rest with
      | [z, y, w] =>
        if z.ty = .interval ∧ y.ty = .tube ∧ w.ty = .tube then .done [ds]
        else if z.ty = .vec ∧ y.ty = .tubeVec ∧ w.ty = .tubeVec then .done [ds]
        else .thrown []
      | [z, y] =>
        if z.ty = .interval ∧ y.ty = .tube then .done [ds]
        else if z.ty = .vec ∧ y.ty = .tubeVec then .done [ds]
        else .thrown []
      | _ => .thrown []

/-- `CtcDelay::contract(vector<Domain*>&)`, codac_CtcDelay.cpp:25-44 -/
def delayDisp (ds : List Ref) : Disp :=
  match ds with
  | [a, x, y] =>
    if a.ty ≠ .interval then .thrown []
    else if x.ty = .tube ∧ y.ty = .tube then .done [ds]
    else if x.ty = .tubeVec ∧ y.ty = .tubeVec then .done [ds]
    else .thrown []
  | _ => .thrown []

/-- `CtcPicard::contract(vector<Domain*>&)`, codac_CtcPicard.cpp:49-62; `CtcLohner`, codac_CtcLohner.cpp:257-271; `CtcStatic`, codac_CtcStatic.cpp:33-46 -/
def oneDisp (ds : List Ref) : Disp :=
  match ds with
  | [x] => if x.ty = .tube then .done [ds] else if x.ty = .tubeVec then .done [ds] else .thrown []
  | _ => .thrown []

/-- `CtcChain::contract(vector<Domain*>&)`, codac_CtcChain.cpp:33-42 -/
def chainDisp (ds : List Ref) : Disp :=
  match ds with
  | [x, v, a] => if x.ty ≠ .tube ∨ v.ty ≠ .tube ∨ a.ty ≠ .tube then .thrown [] else .done [ds]
  | _ => .thrown []

/-- `CtcLinobs::contract(vector<Domain*>&)`, codac_CtcLinobs.cpp:63-71 -/
def linobsDisp (ds : List Ref) : Disp :=
  match ds with
  | [x, u] => if x.ty ≠ .tubeVec ∨ u.ty ≠ .tube then .thrown [] else .done [ds]
  | _ => .thrown []

/-- the lists of domains of the contractors made by `ContractorNetwork::add(DynCtc&, …)`, codac_ContractorNetwork.cpp:325-400 (`Net.addDynRows`) -/
def rowsOf (inter : Bool) (ds : List Ref) : Option (List (List Ref)) :=
  if inter = false ∧ ds.all isSlice = false then
    if ds.all isTube = false ∨ sameSlicing none ds = false then none else dynRows ds
  else some [ds]

/-- these are the contractors of the model of `add` -/
theorem addDynRows_rowsOf (N : Net) (k : Kd) (inter : Bool) (ds : List Ref) :
    N.addDynRows k inter ds = (rowsOf inter ds).map fun rows => rows.foldl (fun N row => N.addRow k row)
      (if inter = false ∧ ds.all isSlice = false then ds.foldl Net.addDom N else N) := by
  unfold Net.addDynRows rowsOf
  by_cases h : inter = false ∧ ds.all isSlice = false
  · rw [if_pos h, if_pos h, if_pos h]
    split_ifs <;> rfl
  · rw [if_neg h, if_neg h, if_neg h]; rfl

theorem derivPairs_done (ds : List Ref) (h : Nat) : ∀ (n i : Nat) (acc : List (List Ref)), i + n ≤ h → h + h = ds.length →
    (∀ d ∈ ds, d.ty = .slice) →
    derivPairs ds h i n acc = .done (acc ++ ((((ds.take h).drop i).take n).zip (((ds.drop h).drop i).take n)).map fun p => [p.1, p.2]) := by
  intro n
  induction n with
  | zero => intro i acc _ _ _; simp [derivPairs]
  | succ n ih =>
    intro i acc hi hl hs
    have h1 : i < ds.length := by omega
    have h2 : i + h < ds.length := by omega
    rw [derivPairs, List.getElem?_eq_getElem h1, List.getElem?_eq_getElem h2]
    simp only
    rw [if_neg (by simp [hs _ (List.getElem_mem h1), hs _ (List.getElem_mem h2)]), ih (i + 1) _ (by omega) hl hs]
    have e1 : (ds.take h).drop i = ds[i] :: (ds.take h).drop (i + 1) := by
      rw [List.drop_eq_getElem_cons (by simp; omega)]
      simp
    have e2 : (ds.drop h).drop i = ds[i + h] :: (ds.drop h).drop (i + 1) := by
      rw [List.drop_eq_getElem_cons (by simp; omega)]
      simp [Nat.add_comm]
    rw [e1, e2]
    simp

theorem derivPairs_thrown (ds : List Ref) (h : Nat) (hl : h + h = ds.length) : ∀ (n i : Nat) (acc : List (List Ref)), i + n = h →
    (∃ j, i ≤ j ∧ j < h ∧ ∃ d, (ds[j]? = some d ∨ ds[j + h]? = some d) ∧ d.ty ≠ .slice) →
    ∃ calls, derivPairs ds h i n acc = .thrown calls := by
  intro n
  induction n with
  | zero => rintro i acc hi ⟨j, h1, h2, _⟩; omega
  | succ n ih =>
    rintro i acc hi ⟨j, h1, h2, d, hd, ht⟩
    have b1 : i < ds.length := by omega
    have b2 : i + h < ds.length := by omega
    rw [derivPairs, List.getElem?_eq_getElem b1, List.getElem?_eq_getElem b2]
    simp only
    by_cases hc : ds[i].ty ≠ .slice ∨ ds[i + h].ty ≠ .slice
    · rw [if_pos hc]; exact ⟨_, rfl⟩
    · rw [if_neg hc]
      refine ih (i + 1) _ (by omega) ⟨j, ?_, h2, d, hd, ht⟩
      rcases Nat.lt_or_ge i j with hij | hij
      · omega
      · exfalso
        have e : j = i := by omega
        subst e
        push Not at hc
        rcases hd with hd | hd
        · rw [List.getElem?_eq_getElem b1] at hd
          cases hd; exact ht hc.1
        · rw [List.getElem?_eq_getElem b2] at hd
          cases hd; exact ht hc.2

end Codac.Built
