import Verif.CN.Intervals
import Verif.CN.Term
import Mathlib.Algebra.Order.Ring.Unbundled.Rat
import Mathlib.Algebra.Order.Field.Rat

set_option linter.unusedSectionVars false

/-!
# C25 - C28: contractor networks

A history is a list of public operations (`add`, `contract()` stopped after any number of iterations,
`contract_ordered_mode()`, `trigger_all_contractors()`, `reset_interm_vars()`) starting from a network without contractor.
-/

namespace Codac.Props
open Codac Codac.CN

/-! ### C25 -/

/-- the contractors of a network: IBEX contractors of a constraint `R` on intervals and slices, equalities between
intervals, symbolic `T_COMPONENT` contractors, and any other contractor (codac contractors, sub-networks) that keeps the
required values -/
inductive CtcFor {K : Type*} [LinearOrder K] (req : Nat → K → Prop) : (Mem K → Mem K) → Prop
  | ibex {R f ls} : IsCtc R f → (∀ l ∈ ls, l.Ok req) → (∀ j < 3, Supported R req (ls.map (Leaf.cell j))) →
      CtcFor req (ibexContract f ls)
  | equality {a b} : (∀ x, req a x ↔ req b x) → CtcFor req (equalityContract a b)
  | component : CtcFor req id
  | other {f} : (∀ m, Enc req m → Enc req (f m)) → CtcFor req f

/-- the operations of a history: the added contractors are contractors for the solution, the reset domains contain it -/
def OpFor {D C K : Type*} [LinearOrder K] (req : Nat → K → Prop) : Op D C (Mem K) → Prop
  | .add _ _ _ f => CtcFor req f
  | .reset interm f => ∀ d ∈ interm, ∀ m, Enc req m → Enc req (f d m)
  | _ => True

/-- a network without contractor -/
def noCtc {D C K W : Type*} [LinearOrder K] (comps : D → List D) (vol : D → Mem K → W) (drop : W → W → Bool) (unset : W)
    (m : Mem K) : Net D C (Mem K) W where
  G := { doms := fun _ => [], ctcs := fun _ => [], comps := comps, kind := fun _ => .contracting, apply := fun _ => id,
         vol := vol, drop := drop }
  s := { mem := m, saved := fun _ => unset, active := fun _ => false, queue := [] }
  all := []

theorem noCtc_inv {D C K W : Type*} [LinearOrder K] (comps : D → List D) (vol : D → Mem K → W) (drop : W → W → Bool)
    (unset : W) (m : Mem K) : NetInv (noCtc (C := C) comps vol drop unset m) :=
  ⟨⟨by simp [noCtc], by simp [noCtc], by simp [noCtc], by simp [noCtc], by simp [noCtc]⟩, by simp [noCtc]⟩

/-- no solution is lost by any history, whatever the volumes, the ratio, the order of the contractors, the interruptions -/
theorem C25_no_solution_lost {D C K W : Type*} [DecidableEq D] [DecidableEq C] [LinearOrder K] (comps : D → List D)
    (vol : D → Mem K → W) (drop : W → W → Bool) (unset : W) (m : Mem K) (req : Nat → K → Prop)
    (history : List (Op D C (Mem K))) (hh : ∀ o ∈ history, OpFor req o) (hm : ∀ c x, req c x → x ∈ m c) :
    ∀ c x, req c x → x ∈ (runOps unset history (noCtc comps vol drop unset m)).s.mem c := by
  refine runOps_mem (P := Enc req) unset history (noCtc_inv ..) (by simp [noCtc]) ?_ hm
  intro o ho
  have := hh o ho
  cases o with
  | add c ds k f =>
    intro m' hm'
    have this : CtcFor req f := this
    cases this with
    | ibex h1 h2 h3 => exact ibexContract_enc h1 h2 h3 hm'
    | equality h => exact equalityContract_enc h hm'
    | component => exact hm'
    | other h => exact h m' hm'
  | reset interm f => exact this
  | contract n => trivial
  | ordered n => trivial
  | triggerAll => trivial

/-- the operations that do not give back a value to a domain, with contracting contractors -/
def OpShrinks {D C K : Type*} [LinearOrder K] : Op D C (Mem K) → Prop
  | .add _ _ _ f => (∃ g ls, (∀ b, List.Forall₂ (· ≤ ·) (g b) b) ∧ f = ibexContract g ls) ∨
      (∃ a b, f = equalityContract a b) ∨ ∀ m, f m ≤ m
  | .reset _ _ => False
  | _ => True

/-- without `reset_interm_vars()`, the domains only shrink -/
theorem C25_domains_shrink {D C K W : Type*} [DecidableEq D] [DecidableEq C] [LinearOrder K] (comps : D → List D)
    (vol : D → Mem K → W) (drop : W → W → Bool) (unset : W) (m : Mem K)
    (history more : List (Op D C (Mem K))) (hh : ∀ o ∈ history ++ more, OpShrinks o) :
    ∀ c, (runOps unset (history ++ more) (noCtc comps vol drop unset m)).s.mem c ≤
      (runOps unset history (noCtc comps vol drop unset m)).s.mem c := by
  have keeps : ∀ m0 : Mem K, ∀ o ∈ history ++ more, o.Keeps (fun m' => m' ≤ m0) := by
    intro m0 o ho
    have := hh o ho
    cases o with
    | add c ds k f =>
      intro m' hm'
      refine le_trans ?_ hm'
      rcases this with ⟨g, ls, hg, rfl⟩ | ⟨a, b, rfl⟩ | h
      · exact ibexContract_le hg ls m'
      · exact equalityContract_le a b m'
      · exact h m'
    | reset interm f => exact absurd this id
    | contract n => trivial
    | ordered n => trivial
    | triggerAll => trivial
  have split : ∀ (os os' : List (Op D C (Mem K))) (N : Net D C (Mem K) W),
      runOps unset (os ++ os') N = runOps unset os' (runOps unset os N) := by
    intro os os' N
    induction os generalizing N with
    | nil => rfl
    | cons o os ih => exact ih _
  have good : ∀ (os : List (Op D C (Mem K))) (N : Net D C (Mem K) W), NetInv N → (∀ o ∈ os, o ∈ history ++ more) →
      (∀ m0, ∀ c ∈ N.all, ∀ m' ≤ m0, N.G.apply c m' ≤ m0) →
      ∀ m0, ∀ c ∈ (runOps unset os N).all, ∀ m' ≤ m0, (runOps unset os N).G.apply c m' ≤ m0 := by
    intro os
    induction os with
    | nil => intro N _ _ h; exact h
    | cons o os ih =>
      intro N hN ho h
      refine ih _ (run_inv unset hN o) (fun o' ho' => ho o' (by simp [ho'])) ?_
      intro m0
      cases o with
      | add c ds k f =>
        simp only [Op.run]
        split_ifs with hc
        · exact h m0
        · intro c' hc' m' hm'
          show Function.update N.G.apply c f c' m' ≤ m0
          by_cases e : c' = c
          · subst e; rw [Function.update_self]
            have hk : Op.Keeps (fun m' => m' ≤ m0) (Op.add c' ds k f) := keeps m0 _ (ho _ (by simp))
            exact hk m' hm'
          · rw [Function.update_of_ne e]; exact h m0 c' (by simpa [e] using hc') m' hm'
      | _ => exact h m0
  rw [split]
  refine runOps_mem (P := fun m' => m' ≤ (runOps unset history (noCtc comps vol drop unset m)).s.mem) unset more
    (runOps_inv unset history (noCtc_inv ..)) ?_ (fun o ho => keeps _ o (List.mem_append_right _ ho)) le_rfl
  intro c hc m' hm'
  exact good history _ (noCtc_inv ..) (fun o ho => List.mem_append_left _ ho) (by simp [noCtc]) _ c hc m' hm'

/-- a sub-network used as a contractor keeps the solutions, whatever its own queue and history -/
theorem C25_subnetwork {D C K W : Type*} [DecidableEq D] [DecidableEq C] [LinearOrder K] {req : Nat → K → Prop}
    {N : Net D C (Mem K) W} (hN : NetInv N) (hG : ∀ c ∈ N.all, CtcFor req (N.G.apply c)) (n : Nat) :
    CtcFor req (fun m => (contract N.G n { N.s with mem := m }).mem) := by
  refine .other fun m hm => ?_
  refine steps_mem (P := Enc req) (all := N.all) ?_ n
    (s := refresh N.G { N.s with mem := m }) ⟨hN.q.nodup, hN.q.known, hN.q.act, hN.q.que, hN.q.ctcs⟩ hm
  intro c hc m' hm'
  have := hG c hc
  generalize N.G.apply c = f at this
  cases this with
  | ibex h1 h2 h3 => exact ibexContract_enc h1 h2 h3 hm'
  | equality h => exact equalityContract_enc h hm'
  | component => exact hm'
  | other h => exact h m' hm'

/-! witnesses: `x` is the cell 0, `y` the cell 1 -/

/-- the IBEX contractor of `x ∈ X` -/
def capTo (X : Itv ℚ) : List (Itv ℚ) → List (Itv ℚ)
  | [x] => [x ⊓ X]
  | b => b

theorem capTo_ctc (X : Itv ℚ) : IsCtc (fun xs => ∀ x ∈ xs, x ∈ X) (capTo X) := by
  refine ⟨fun b => ?_, fun b xs h hb => ?_⟩
  · unfold capTo
    split
    · exact .cons inf_le_left .nil
    · exact List.forall₂_same.mpr fun _ _ => le_rfl
  · unfold capTo
    split
    · cases hb with
      | cons h1 h2 =>
        cases h2
        exact .cons (Itv.mem_inf.mpr ⟨h1, h _ (by simp)⟩) .nil
    · exact hb

theorem capTo_idem (X : Itv ℚ) (b : List (Itv ℚ)) : capTo X (capTo X b) = capTo X b := by
  match b with
  | [] => rfl
  | [x] => simp [capTo]
  | _ :: _ :: _ => rfl

def cnMem (X Y : Itv ℚ) : Mem ℚ
  | 0 => X
  | 1 => Y
  | _ => Itv.icc 0 1

/-- an IBEX contractor on a slice and an interval: `a` is a slice of `[0,1]` made of the cells 2 (envelope), 3 and 4
(gates), and its values have to be in `[0,2]`; the signal is constant, equal to 1 -/
example :
    let l : Leaf ℚ := .slice ⟨0, 1, 2, 3, 4, none, none⟩
    CtcFor (fun _ x => x = (1 : ℚ)) (ibexContract (capTo (Itv.icc 0 2)) [l]) ∧
    ∀ c, ibexContract (capTo (Itv.icc 0 2)) [l] (fun _ => Itv.icc (-5) 5) c =
      if c = 2 ∨ c = 3 ∨ c = 4 then Itv.icc 0 2 else Itv.icc (-5) 5 := by
  refine ⟨.ibex (capTo_ctc _) ?_ ?_, ?_⟩
  · intro l hl
    simp only [List.mem_singleton] at hl
    subst hl
    exact ⟨fun _ h => h, fun _ h => h, fun _ h => by simp at h, fun _ h => by simp at h⟩
  · intro j _ i c x hc hx
    refine ⟨[x], by intro y hy; simp at hy; subst hy; subst hx; decide +kernel, .cons hx .nil, ?_⟩
    cases i with
    | zero => rfl
    | succ i => simp at hc
  · intro c
    have e : (Itv.icc (-5) 5 : Itv ℚ) ⊓ Itv.icc 0 2 = Itv.icc 0 2 := by decide +kernel
    simp only [ibexContract, List.any_cons, Leaf.isSlice, List.any_nil, Bool.or_false, if_true, ibexPass, List.map_cons,
      List.map_nil, Leaf.cell, capTo, List.zip_cons_cons, List.zip_nil_left, writeAll, Leaf.write, infCell]
    by_cases h2 : c = 2
    · subst h2; simp [Function.update, e]
    · by_cases h3 : c = 3
      · subst h3; simp [Function.update, e]
      · by_cases h4 : c = 4
        · subst h4; simp [Function.update, e]
        · simp [Function.update, h2, h3, h4]

/-- a history with two contractors, interrupted after one iteration and resumed: the solution `x = y = 1` is kept -/
example :
    let N := runOps (some (-1)) [.add 0 [.cell 0] .contracting (ibexContract (capTo (Itv.icc 0 2)) [.interval 0]),
      .add 1 [.cell 0, .cell 1] .contracting (equalityContract 0 1), .contract 1, .contract 5]
      (emptyNet Nat (1/10 : ℚ) (cnMem (Itv.icc (-4) 4) (Itv.icc 1 9)))
    N.s.queue = [] ∧ N.s.mem 0 = Itv.icc 1 2 ∧ N.s.mem 1 = Itv.icc 1 2 := by decide +kernel

/-! ### C26 -/

/-- at any point of any history, each contractor is at most once in the queue; those of the queue are active, and a
contractor which is not a sub-network is in the queue if and only if it is active -/
theorem C26_queue_partial {D C K W : Type*} [DecidableEq D] [DecidableEq C] [LinearOrder K] (comps : D → List D)
    (vol : D → Mem K → W) (drop : W → W → Bool) (unset : W) (m : Mem K) (history : List (Op D C (Mem K))) :
    let N := runOps unset history (noCtc comps vol drop unset m)
    N.s.queue.Nodup ∧ (∀ c ∈ N.s.queue, c ∈ N.all ∧ N.s.active c = true) ∧
      (∀ c ∈ N.all, N.G.kind c ≠ .subnet → (N.s.active c = true ↔ c ∈ N.s.queue)) ∧
      (N.s.queue = [] → ∀ c ∈ N.all, N.G.kind c ≠ .subnet → N.s.active c = false) := by
  have h := runOps_inv unset history (noCtc_inv (C := C) comps vol drop unset m)
  refine ⟨h.q.nodup, fun c hc => ⟨h.q.known c hc, h.q.act c hc⟩, fun c hc hk => ⟨h.q.que c hc hk, h.q.act c⟩, ?_⟩
  intro he c hc hk
  rw [← Bool.not_eq_true]
  intro ha
  have := h.q.que c hc hk ha
  rw [he] at this
  simp at this

example :
    let N := runOps (some (-1)) [.add 0 [.cell 0] .contracting (ibexContract (capTo (Itv.icc 0 2)) [.interval 0]),
      .add 1 [.cell 0, .cell 1] .contracting (equalityContract 0 1), .contract 2]
      (emptyNet Nat (1/10 : ℚ) (cnMem (Itv.icc (-4) 4) (Itv.icc 1 9)))
    N.s.queue = [1] ∧ N.s.active 0 = false ∧ N.s.active 1 = true := by decide +kernel

/-- a sub-network stays active when it leaves the queue -/
theorem C26_subnet_fails :
    let N := runOps (some (-1)) [.add 0 [.cell 0, .cell 1] .subnet (equalityContract 0 1), .contract 5]
      (emptyNet Nat (1/10 : ℚ) (cnMem (Itv.icc (-4) 4) (Itv.icc 1 9)))
    N.s.queue = [] ∧ N.s.active 0 = true := by decide +kernel

/-! ### C27 -/

/-- General form: `val d m` is the value of a domain, domains may share memory. If `contract()` is called when the
contractors out of the queue have nothing to do, and returns with an empty queue, then no contractor changes anything.
`Regular` lists what is required: contracting, idempotent contractors depending on their domains, each changed domain being
linked to the domains of the contractor that changed it, and volumes that see every change. -/
theorem C27_fixpoint_general_partial {D C M W V : Type*} [DecidableEq D] [DecidableEq C] [PartialOrder V]
    {all : List C} {G : Graph D C M W} {val : D → M → V} {P : M → Prop} (hR : Regular all G val P) (n : Nat)
    {s : State D C M W} (hq : QInv all G s) (hp : P s.mem) (hs : ∀ c ∈ all, c ∉ s.queue → G.apply c s.mem = s.mem)
    (he : (contract G n s).queue = []) : ∀ c ∈ all, G.apply c (contract G n s).mem = (contract G n s).mem := by
  obtain ⟨seen, h, -⟩ := contract_finv hR n hq hp hs
  exact finv_end h he

/-- Networks of intervals and boxes with IBEX contractors and equalities, ratio 0, bounded domains containing a solution
`x`: after any history of `add`, `contract()` interrupted anywhere, `trigger_all_contractors()` and
`reset_interm_vars()`, if the queue is empty then no contractor changes anything.
Missing: positive ratio, unbounded domains, problems without solution, sub-networks, `contract_ordered_mode()` (all false,
see below), slices and tubes (under the hypotheses of the general form). -/
theorem C27_fixpoint_partial {C K : Type*} [DecidableEq C] [Field K] [LinearOrder K] [IsStrictOrderedRing K]
    (ct : C → ICtc K) (x : Nat → K) (hg : ∀ c, (ct c).Good x) (m : Mem K) (hx : ∀ c, x c ∈ m c)
    (hb : ∀ c, ∃ a b, m c ≤ Itv.icc a b) (history : List (UserOp C K)) (hh : ∀ o ∈ history, o.Keeps x) :
    let N := runOps (some (-1)) (history.map (UserOp.op ct)) (emptyNet C 0 m)
    N.s.queue = [] → ∀ c ∈ N.all, (ct c).apply N.s.mem = N.s.mem := by
  intro N he c hc
  have h := runOps_uinv hg history (emptyNet_uinv ct ⟨hx, hb⟩) hh
  have := h.stable c hc (by show c ∉ N.s.queue; rw [he]; simp)
  rwa [h.desc.apply c hc] at this

def cnCt : Nat → ICtc ℚ
  | 0 => .ibex [0] (capTo (Itv.icc 0 2))
  | 1 => .equality 0 1
  | _ => .component [0, 1]

/-- the hypotheses are met -/
example : (∀ c, (cnCt c).Good (fun _ => 1)) ∧
    (∀ c, (1 : ℚ) ∈ cnMem (Itv.icc (-4) 4) (Itv.icc 1 9) c) ∧
    (∀ c, ∃ a b, cnMem (Itv.icc (-4) 4) (Itv.icc 1 9) c ≤ Itv.icc a b) ∧
    (runOps (some (-1)) ([.add 0, .add 1, .add 2, .contract 1, .contract 9].map (UserOp.op cnCt))
      (emptyNet Nat 0 (cnMem (Itv.icc (-4) 4) (Itv.icc 1 9)))).s.queue = [] := by
  refine ⟨?_, ?_, ?_, by decide +kernel⟩
  · intro c
    match c with
    | 0 =>
      refine ⟨by simp, ⟨_, capTo_ctc _, ?_⟩, capTo_idem _⟩
      intro x hx; simp at hx; subst hx; decide +kernel
    | 1 => rfl
    | _ + 2 => trivial
  · intro c
    match c with
    | 0 => decide +kernel
    | 1 => decide +kernel
    | _ + 2 => show (1 : ℚ) ∈ Itv.icc (0 : ℚ) 1; decide +kernel
  · intro c
    match c with
    | 0 => exact ⟨-4, 4, le_rfl⟩
    | 1 => exact ⟨1, 9, le_rfl⟩
    | _ + 2 => exact ⟨0, 1, le_rfl⟩

/-- `contract()` ends: if the contractors cannot contract for ever (a decreasing integer, for instance the number of
machine numbers in the domains), the queue becomes empty, for any volumes such that an unchanged volume does not trigger -/
theorem C27_contract_ends {D C M W : Type*} [DecidableEq D] [DecidableEq C] [DecidableEq W] {N : Net D C M W} (hN : NetInv N)
    (hdrop : ∀ w, N.G.drop w w = false) (ds : List D)
    (hds : ∀ c ∈ N.all, ∀ d ∈ N.G.doms c, d ∈ ds ∧ ∀ e ∈ N.G.comps d, e ∈ ds) (rank : M → Nat)
    (hrank : ∀ c ∈ N.all, ∀ m, N.G.apply c m = m ∨ rank (N.G.apply c m) < rank m) :
    ∃ n, (contract N.G n N.s).queue = [] :=
  steps_terminate hdrop hds rank hrank (refresh N.G N.s) ⟨hN.q.nodup, hN.q.known, hN.q.act, hN.q.que, hN.q.ctcs⟩

/-- the test on the volumes satisfies the hypothesis of `C27_contract_ends` for every ratio in `[0,1]` -/
theorem C27_unchanged_volume_does_not_trigger {K : Type*} [Field K] [LinearOrder K] [IsStrictOrderedRing K] (r : K)
    (h0 : 0 ≤ r) (w : Vol K) : dropVol r w w = false := by
  cases w with
  | none => rfl
  | some v =>
    simp only [dropVol]
    split_ifs with h
    · rfl
    · rw [div_self h, decide_eq_false_iff_not, not_lt]; linarith

/-- two contractors pulling two integers down, one unit at a time -/
def pullCtc (c : Nat) (m : Nat × Nat) : Nat × Nat :=
  if c = 0 then (min m.1 m.2, m.2) else (m.1, min m.2 (m.1 - 1))

theorem pullCtc_rank (c : Nat) (m : Nat × Nat) :
    pullCtc c m = m ∨ (pullCtc c m).1 + (pullCtc c m).2 < m.1 + m.2 := by
  obtain ⟨a, b⟩ := m
  simp only [pullCtc]
  split_ifs
  · rcases le_total a b with h | h
    · left; simp [h]
    · rcases h.lt_or_eq with h' | h'
      · right; simp [min_eq_right h]; omega
      · left; simp [h']
  · rcases le_total b (a - 1) with h | h
    · left; simp [h]
    · rcases h.lt_or_eq with h' | h'
      · right; simp [min_eq_right h]; omega
      · left; simp [← h']

def pullNet : Net Bool Nat (Nat × Nat) Nat where
  G := { doms := fun _ => [false, true], ctcs := fun _ => [0, 1], comps := fun _ => [], kind := fun _ => .contracting,
         apply := pullCtc, vol := fun d m => if d then m.2 else m.1, drop := fun cur saved => decide (cur < saved) }
  s := { mem := (5, 7), saved := fun _ => 0, active := fun c => decide (c < 2), queue := [0, 1] }
  all := [0, 1]

example : ∃ n, (contract pullNet.G n pullNet.s).queue = [] :=
  C27_contract_ends ⟨⟨by decide, by decide, by decide, by decide, fun _ c hc => hc⟩, by decide⟩ (fun w => by simp [pullNet])
    [false, true] (fun _ _ d _ => ⟨by cases d <;> simp, by simp [pullNet]⟩) (fun m => m.1 + m.2) fun c _ m => pullCtc_rank c m

/-- it takes 12 iterations -/
example : (contract pullNet.G 11 pullNet.s).queue ≠ [] ∧ (contract pullNet.G 12 pullNet.s).queue = [] ∧
    (contract pullNet.G 12 pullNet.s).mem = (0, 0) := by decide +kernel

/-- with a positive ratio: contractions by less than the ratio add up. Here the ratio is 1/10, and `x` has lost 17% since
the last call of `x = y` when the propagation stops -/
theorem C27_ratio_fails :
    let N := runOps (some (-1)) [.add 0 [.cell 0] .contracting (ibexContract (capTo (Itv.icc 0 83)) [.interval 0]),
      .add 1 [.cell 0] .contracting (ibexContract (capTo (Itv.icc 0 91)) [.interval 0]),
      .add 2 [.cell 0, .cell 1] .contracting (equalityContract 0 1), .contract 9]
      (emptyNet Nat (1/10 : ℚ) (cnMem (Itv.icc 0 100) (Itv.icc 0 100)))
    N.s.queue = [] ∧ N.s.mem 0 = Itv.icc 0 83 ∧ N.s.mem 1 = Itv.icc 0 100 := by decide +kernel

/-- unbounded intervals all have the same volume: `x` becomes `[0,+∞]`, `x = y` is not called again -/
theorem C27_unbounded_fails :
    let N := runOps (some (-1)) [
      .add 0 [.cell 0] .contracting (ibexContract (capTo (Itv.ofBounds (some 0) none)) [.interval 0]),
      .add 1 [.cell 0, .cell 1] .contracting (equalityContract 0 1), .contract 9]
      (emptyNet Nat (0 : ℚ) (cnMem Itv.all Itv.all))
    N.s.queue = [] ∧ N.s.mem 0 = Itv.ofBounds (some 0) none ∧ N.s.mem 1 = Itv.all := by decide +kernel

/-- a sub-network (here `x = y`) is called once: it stays active, so it is not put back in the queue -/
theorem C27_subnetwork_fails :
    let N := runOps (some (-1)) [.add 0 [.cell 0] .contracting (ibexContract (capTo (Itv.icc 0 2)) [.interval 0]),
      .add 1 [.cell 0, .cell 1] .subnet (equalityContract 0 1), .contract 9]
      (emptyNet Nat (0 : ℚ) (cnMem (Itv.icc (-4) 4) (Itv.icc (-9) 9)))
    N.s.queue = [] ∧ N.s.mem 0 = Itv.icc 0 2 ∧ N.s.mem 1 = Itv.icc (-4) 4 := by decide +kernel

/-- a contractor on the box made of the cells 0 and 1, and the interval 2: `[2] = [0]` -/
def boxHistory : List (Op Dm Nat (Mem ℚ)) :=
  [.add 0 [.box [0, 1], .cell 0, .cell 1] .component id,
   .add 1 [.cell 0] .contracting (ibexContract (capTo (Itv.icc 0 2)) [.interval 0]),
   .add 2 [.box [0, 1], .cell 2] .contracting (equalityContract 0 2)]

def boxMem (Y : Itv ℚ) : Mem ℚ
  | 0 => Itv.icc (-4) 4
  | 1 => Y
  | _ => Itv.icc (-9) 9

/-- a time limit between the contraction of a component and the check of its box: the next `contract()` takes the current
volumes as references, so that the contractor of the box is never called again. Without the interruption, it is. -/
theorem C27_interrupted_fails :
    (let N := runOps (some (-1)) (boxHistory ++ [.contract 2, .contract 9]) (emptyNet Nat (0 : ℚ) (boxMem (Itv.icc 0 1)))
     N.s.queue = [] ∧ N.s.mem 0 = Itv.icc 0 2 ∧ N.s.mem 2 = Itv.icc (-4) 4) ∧
    (let N := runOps (some (-1)) (boxHistory ++ [.contract 11]) (emptyNet Nat (0 : ℚ) (boxMem (Itv.icc 0 1)))
     N.s.queue = [] ∧ N.s.mem 0 = Itv.icc 0 2 ∧ N.s.mem 2 = Itv.icc 0 2) := by decide +kernel

/-- a box with a degenerate component always has a volume 0: its contractors are not called again -/
theorem C27_flat_box_fails :
    let N := runOps (some (-1)) (boxHistory ++ [.contract 11]) (emptyNet Nat (0 : ℚ) (boxMem (Itv.icc 1 1)))
    N.s.queue = [] ∧ N.s.mem 0 = Itv.icc 0 2 ∧ N.s.mem 2 = Itv.icc (-4) 4 := by decide +kernel

/-- `contract_ordered_mode()` does not trigger the contractors out of the queue: the next `contract()` ends although
`x = y` has something to do -/
theorem C27_ordered_mode_fails :
    let N := runOps (some (-1)) [.add 0 [.cell 0, .cell 1] .contracting (equalityContract 0 1), .contract 3,
      .add 1 [.cell 0] .contracting (ibexContract (capTo (Itv.icc 0 2)) [.interval 0]), .ordered 1, .contract 9]
      (emptyNet Nat (0 : ℚ) (cnMem (Itv.icc (-4) 4) (Itv.icc (-9) 9)))
    N.s.queue = [] ∧ N.s.mem 0 = Itv.icc 0 2 ∧ N.s.mem 1 = Itv.icc (-4) 4 := by decide +kernel

/-! ### C28 -/

/-- an iteration of `contract()` empties the interval `d` of the contractor `c`, in any state of any network: if the saved
volume of `d` is not zero, the other contractors attached to `d` are then active and in the queue.
Missing: degenerate intervals (saved volume 0), see below; sub-networks. -/
theorem C28_emptiness_triggers_partial {C K : Type*} [DecidableEq C] [Field K] [LinearOrder K] [IsStrictOrderedRing K]
    {r : K} (hr : r < 1) {N : Net Dm C (Mem K) (Vol K)} (hN : NetInv N) (hvol : N.G.vol = volDm)
    (hdrop : N.G.drop = dropVol r) {c : C} {q : List C} (hq : N.s.queue = c :: q) (hk : N.G.kind c ≠ .subnet) {i : Nat}
    (hd : Dm.cell i ∈ N.G.doms c) (he : N.G.apply c N.s.mem i = Itv.empty) (hs : N.s.saved (.cell i) ≠ some 0) :
    ∀ x ∈ N.G.ctcs (.cell i), x ≠ c → (step N.G N.s).active x = true ∧
      (N.G.kind x ≠ .subnet → x ∈ (step N.G N.s).queue) := by
  classical
  intro x hx hxc
  have ha : (step N.G N.s).active x = true := by
    refine step_active hq hk hd ?_ hx hxc
    rw [hvol, hdrop]
    simp only [volDm, he, volInterval]
    cases hsv : N.s.saved (.cell i) with
    | none => simp only [dropVol, decide_eq_true_eq]; linarith
    | some v =>
      have hv : v ≠ 0 := fun e => hs (by rw [hsv, e])
      simp only [dropVol]
      rw [if_neg hv, decide_eq_true_eq, zero_div]; linarith
  exact ⟨ha, fun hkx => (step_qinv hN.q).que x (hN.q.ctcs _ x hx) hkx ha⟩

/-- the volume of an interval which is not empty is zero only if it is degenerate -/
theorem C28_zero_volume_iff {K : Type*} [Field K] [LinearOrder K] [IsStrictOrderedRing K] (X : Itv K) (hX : ∃ x, x ∈ X) :
    volInterval X = some 0 ↔ ∃ a, X = Itv.icc a a := by
  obtain ⟨x, hx⟩ := hX
  constructor
  · intro h
    cases X with
    | empty => exact absurd hx (Itv.not_mem_empty x)
    | mk lo hi hlh =>
      cases lo with
      | none => simp [volInterval] at h
      | some lo =>
        cases hi with
        | none => simp [volInterval] at h
        | some hi =>
          simp only [volInterval, Option.some.injEq] at h
          have e : hi = lo := by linarith
          subst e
          exact ⟨hi, by simp [Itv.icc, Itv.ofBounds]⟩
  · rintro ⟨a, rfl⟩
    simp [Itv.icc, Itv.ofBounds, volInterval]

/-- the hypotheses of `C28_emptiness_triggers_partial` are met: `x = [0,4]` is emptied by `x ∈ [5,6]`; `x = y` empties `y` -/
example :
    let N := runOps (some (-1)) [.add 0 [.cell 0] .contracting (ibexContract (capTo (Itv.icc 5 6)) [.interval 0]),
      .add 1 [.cell 0, .cell 1] .contracting (equalityContract 0 1), .contract 1]
      (emptyNet Nat (1/10 : ℚ) (cnMem (Itv.icc 0 4) (Itv.icc (-9) 9)))
    N.s.queue = [0] ∧ N.G.apply 0 N.s.mem 0 = Itv.empty ∧ N.s.saved (.cell 0) = some 4 ∧
      (step N.G N.s).queue = [1] ∧ (contract N.G 9 N.s).mem 1 = Itv.empty := by decide +kernel

/-- the same with `x = [1,1]`: 0/0 is not lower than the ratio, `x` becomes empty and `y` stays `[1,1]` -/
theorem C28_degenerate_fails :
    let N := runOps (some (-1)) [.add 0 [.cell 0] .contracting (ibexContract (capTo (Itv.icc 5 6)) [.interval 0]),
      .add 1 [.cell 0, .cell 1] .contracting (equalityContract 0 1), .contract 9]
      (emptyNet Nat (1/10 : ℚ) (cnMem (Itv.icc 1 1) (Itv.icc (-9) 9)))
    N.s.queue = [] ∧ N.s.mem 0 = Itv.empty ∧ N.s.mem 1 = Itv.icc 1 1 := by decide +kernel

end Codac.Props
