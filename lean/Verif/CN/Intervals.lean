import Verif.CN.Cells
import Mathlib.Tactic.Linarith
import Mathlib.Algebra.Order.Field.Basic

set_option linter.unusedSectionVars false

/-!
# Networks of intervals, boxes and static contractors

The domains are intervals and boxes; an IBEX contractor is attached to the components of a box
(codac_ContractorNetwork.cpp:211-217), a box is linked to its components by a `T_COMPONENT` contractor (471-484).
-/

namespace Codac.CN
open Codac

/-- `T_INTERVAL` and `T_INTERVAL_VECTOR` domains -/
inductive Dm
  | cell (c : Nat)
  | box (cs : List Nat)
  deriving DecidableEq

section
variable {K : Type*} [LinearOrder K]

/-- the contractors of such a network -/
inductive ICtc (K : Type*) [LinearOrder K]
  | ibex (cells : List Nat) (f : List (Itv K) → List (Itv K))
  | equality (a b : Nat)
  | component (cs : List Nat)

def ICtc.doms : ICtc K → List Dm
  | .ibex cells _ => cells.map .cell
  | .equality a b => [.cell a, .cell b]
  | .component cs => .box cs :: cs.map .cell

def ICtc.kind : ICtc K → Kind
  | .component _ => .component
  | _ => .contracting

/-- `Contractor::contract`, codac_Contractor.cpp:207-409 -/
def ICtc.apply : ICtc K → Mem K → Mem K
  | .ibex cells f => ibexContract f (cells.map .interval)
  | .equality a b => equalityContract a b
  | .component _ => id

/-! ### writing a list of cells -/

theorem writeAll_interval_of_not_mem {cells : List Nat} {vs : List (Itv K)} {m : Mem K} {c : Nat} (hc : c ∉ cells) :
    writeAll 0 ((cells.map Leaf.interval).zip vs) m c = m c := by
  induction cells generalizing vs m with
  | nil => rfl
  | cons d ds ih =>
    cases vs with
    | nil => rfl
    | cons v vs =>
      simp only [List.mem_cons, not_or] at hc
      show writeAll 0 ((ds.map Leaf.interval).zip vs) (Function.update m d v) c = m c
      rw [ih hc.2, Function.update_of_ne hc.1]

theorem map_writeAll_interval {cells : List Nat} (hn : cells.Nodup) {vs : List (Itv K)} (hv : vs.length = cells.length)
    (m : Mem K) : cells.map (writeAll 0 ((cells.map Leaf.interval).zip vs) m) = vs := by
  induction cells generalizing vs m with
  | nil => simp at hv; simp [hv]
  | cons d ds ih =>
    cases vs with
    | nil => simp at hv
    | cons v vs =>
      rw [List.nodup_cons] at hn
      simp only [List.length_cons, Nat.add_right_cancel_iff] at hv
      rw [List.map_cons]
      show writeAll 0 ((ds.map Leaf.interval).zip vs) (Function.update m d v) d
        :: ds.map (writeAll 0 ((ds.map Leaf.interval).zip vs) (Function.update m d v)) = v :: vs
      rw [ih hn.2 hv, writeAll_interval_of_not_mem hn.1, Function.update_self]

theorem writeAll_interval_self {cells : List Nat} {m : Mem K} :
    writeAll 0 ((cells.map Leaf.interval).zip (cells.map m)) m = m := by
  induction cells with
  | nil => rfl
  | cons d ds ih =>
    show writeAll 0 ((ds.map Leaf.interval).zip (ds.map m)) (Function.update m d (m d)) = m
    rw [Function.update_eq_self, ih]

theorem ibex_intervals (cells : List Nat) (f : List (Itv K) → List (Itv K)) (m : Mem K) :
    (ICtc.ibex cells f).apply m = writeAll 0 ((cells.map Leaf.interval).zip (f (cells.map m))) m := by
  have h : (cells.map (Leaf.interval (K := K))).any Leaf.isSlice = false := by
    rw [List.any_eq_false]
    intro l hl
    rw [List.mem_map] at hl
    obtain ⟨c, -, rfl⟩ := hl
    simp [Leaf.isSlice]
  show ibexContract f (cells.map .interval) m = _
  unfold ibexContract
  simp only [h, Bool.false_eq_true, if_false]
  unfold ibexPass
  rw [List.map_map]
  rfl

/-- what is required from the contractors: `x` is a solution -/
def ICtc.Good (x : Nat → K) : ICtc K → Prop
  | .ibex cells f => cells.Nodup ∧ (∃ R, IsCtc R f ∧ R (cells.map x)) ∧ ∀ b, f (f b) = f b
  | .equality a b => x a = x b
  | .component _ => True

/-- the memory contains the solution and is bounded -/
def Inside (x : Nat → K) (m : Mem K) : Prop :=
  (∀ c, x c ∈ m c) ∧ ∀ c, ∃ a b, m c ≤ Itv.icc a b

theorem ICtc.apply_le {x : Nat → K} {k : ICtc K} (hk : k.Good x) (m : Mem K) : k.apply m ≤ m := by
  cases k with
  | ibex cells f =>
    obtain ⟨-, ⟨R, hf, -⟩, -⟩ := hk
    exact ibexContract_le hf.sub _ m
  | equality a b => exact equalityContract_le a b m
  | component cs => exact le_rfl

theorem ICtc.apply_sol {x : Nat → K} {k : ICtc K} (hk : k.Good x) {m : Mem K} (hm : ∀ c, x c ∈ m c) :
    ∀ c, x c ∈ k.apply m c := by
  have he : Enc (fun c y => y = x c) m := fun c y hy => hy ▸ hm c
  suffices Enc (fun c y => y = x c) (k.apply m) from fun c => this c _ rfl
  cases k with
  | ibex cells f =>
    obtain ⟨-, ⟨R, hf, hR⟩, -⟩ := hk
    refine ibexContract_enc hf ?_ ?_ he
    · intro l hl
      rw [List.mem_map] at hl
      obtain ⟨c, -, rfl⟩ := hl
      trivial
    · intro j _ i c y hc hy
      rw [List.map_map] at hc ⊢
      have e : (Leaf.cell (K := K) j ∘ Leaf.interval) = id := by funext c; rfl
      rw [e, List.map_id] at hc ⊢
      refine ⟨cells.map x, hR, ?_, by rw [List.getElem?_map, hc, hy]; rfl⟩
      rw [List.forall₂_map_left_iff]
      exact List.forall₂_same.mpr fun c _ => rfl
  | equality a b =>
    have hk : x a = x b := hk
    exact equalityContract_enc (fun y => by rw [hk]) he
  | component cs => exact he

theorem ICtc.apply_inside {x : Nat → K} {k : ICtc K} (hk : k.Good x) {m : Mem K} (hm : Inside x m) :
    Inside x (k.apply m) :=
  ⟨ICtc.apply_sol hk hm.1, fun c => by
    obtain ⟨a, b, h⟩ := hm.2 c
    exact ⟨a, b, le_trans (ICtc.apply_le hk m c) h⟩⟩

theorem ICtc.apply_idem {x : Nat → K} {k : ICtc K} (hk : k.Good x) (m : Mem K) :
    k.apply (k.apply m) = k.apply m := by
  cases k with
  | ibex cells f =>
    obtain ⟨hn, ⟨R, hf, -⟩, hi⟩ := hk
    have hlen : (f (cells.map m)).length = cells.length := by
      rw [(hf.sub _).length_eq, List.length_map]
    rw [ibex_intervals cells f m, ibex_intervals cells f, map_writeAll_interval hn hlen, hi]
    conv_rhs => rw [← writeAll_interval_self (cells := cells)
      (m := writeAll 0 ((cells.map Leaf.interval).zip (f (cells.map m))) m)]
    rw [map_writeAll_interval hn hlen]
  | equality a b =>
    show equalityContract a b (equalityContract a b m) = equalityContract a b m
    have ha : equalityContract a b m a = m a ⊓ m b := by
      unfold equalityContract
      by_cases e : a = b
      · subst e; simp
      · simp [Function.update_of_ne e]
    have hb : equalityContract a b m b = m a ⊓ m b := by
      simp [equalityContract]
    have hu : ∀ m' : Mem K, equalityContract a b m' =
        Function.update (Function.update m' a (m' a ⊓ m' b)) b (m' a ⊓ m' b) := fun _ => rfl
    rw [hu (equalityContract a b m), ha, hb, inf_idem]
    funext c
    by_cases e : c = b
    · subst e; simp [hb]
    · rw [Function.update_of_ne e]
      by_cases e' : c = a
      · subst e'; simp [ha]
      · rw [Function.update_of_ne e']
  | component cs => rfl

/-- an interval is seen by the contractors, a box is not (only `T_COMPONENT` contractors are attached to it) -/
def valDm : Dm → Mem K → Itv K
  | .cell c, m => m c
  | .box _, _ => ⊤

theorem ICtc.apply_other {k : ICtc K} {m : Mem K} {d : Dm} (h : valDm d (k.apply m) ≠ valDm d m) : d ∈ k.doms := by
  cases d with
  | box cs => exact absurd rfl h
  | cell c =>
    cases k with
    | ibex cells f =>
      by_contra hc
      apply h
      have hc' : c ∉ cells := fun hx => hc (List.mem_map.mpr ⟨c, hx, rfl⟩)
      show (ICtc.ibex cells f).apply m c = m c
      rw [ibex_intervals, writeAll_interval_of_not_mem hc']
    | equality a b =>
      by_contra hc
      apply h
      simp only [ICtc.doms, List.mem_cons, Dm.cell.injEq, List.not_mem_nil, or_false, not_or] at hc
      show equalityContract a b m c = m c
      unfold equalityContract
      rw [Function.update_of_ne hc.2, Function.update_of_ne hc.1]
    | component cs => exact absurd rfl h

theorem ICtc.apply_local {x : Nat → K} {k : ICtc K} (hk : k.Good x) {m m' : Mem K}
    (h : ∀ d ∈ k.doms, valDm d m' = valDm d m) (hs : k.apply m = m) : k.apply m' = m' := by
  cases k with
  | ibex cells f =>
    obtain ⟨hn, ⟨R, hf, -⟩, -⟩ := hk
    have e : cells.map m' = cells.map m :=
      List.map_congr_left fun c hc => h (.cell c) (List.mem_map.mpr ⟨c, hc, rfl⟩)
    have hlen : (f (cells.map m)).length = cells.length := by
      rw [(hf.sub _).length_eq, List.length_map]
    rw [ibex_intervals] at hs ⊢
    have h1 : f (cells.map m) = cells.map m := by
      have := map_writeAll_interval hn hlen m
      rw [hs] at this
      exact this.symm
    rw [e, h1, ← e, writeAll_interval_self]
  | equality a b =>
    have h1 : m' a = m a := h (.cell a) (by simp [ICtc.doms])
    have h2 : m' b = m b := h (.cell b) (by simp [ICtc.doms])
    have hs' : equalityContract a b m = m := hs
    have ha : m a ⊓ m b = m a := by
      have := congrFun hs' a
      unfold equalityContract at this
      by_cases e : a = b
      · subst e; simp
      · simpa [Function.update_of_ne e] using this
    have hb : m a ⊓ m b = m b := by
      have := congrFun hs' b
      simpa [equalityContract] using this
    show equalityContract a b m' = m'
    unfold equalityContract
    dsimp only
    rw [h1, h2]
    funext c
    by_cases e : c = b
    · subst e; rw [Function.update_self, hb, h2]
    · rw [Function.update_of_ne e]
      by_cases e' : c = a
      · subst e'; rw [Function.update_self, ha, h1]
      · rw [Function.update_of_ne e']
  | component cs => rfl

end

section
variable {K : Type*} [Field K] [LinearOrder K] [IsStrictOrderedRing K]

/-- `Domain::compute_volume`, codac_Domain.cpp:504-519 -/
def volDm : Dm → Mem K → Vol K
  | .cell c, m => volInterval (m c)
  | .box cs, m => volBox (cs.map m)

/-- the components of a box -/
def compsDm : Dm → List Dm
  | .cell _ => []
  | .box cs => cs.map .cell

/-- a network without contractor, with a fixed point ratio `r` -/
def emptyNet (C : Type*) (r : K) (m : Mem K) : Net Dm C (Mem K) (Vol K) where
  G := { doms := fun _ => [], ctcs := fun _ => [], comps := compsDm, kind := fun _ => .contracting, apply := fun _ => id,
         vol := volDm, drop := dropVol r }
  s := { mem := m, saved := fun _ => some (-1), active := fun _ => false, queue := [] }
  all := []

theorem emptyNet_inv (C : Type*) [DecidableEq C] (r : K) (m : Mem K) : NetInv (emptyNet C r m) :=
  ⟨⟨by simp [emptyNet], by simp [emptyNet], by simp [emptyNet], by simp [emptyNet], by simp [emptyNet]⟩,
    by simp [emptyNet]⟩

theorem bounded_form {X : Itv K} {x a b : K} (hx : x ∈ X) (h : X ≤ Itv.icc a b) :
    ∃ lo hi hlh, X = Itv.mk (some lo) (some hi) hlh := by
  have hs := Itv.le_iff.mp h
  cases X with
  | empty => exact absurd hx (Itv.not_mem_empty x)
  | mk lo hi hlh =>
    cases lo with
    | none =>
      exfalso
      have h2 : min x a - 1 ∈ Itv.mk none hi hlh := by
        refine ⟨trivial, ?_⟩
        cases hi with
        | none => trivial
        | some hi =>
          have : x ≤ hi := hx.2
          have := min_le_left x a
          show min x a - 1 ≤ hi
          linarith
      have h3 := Itv.mem_icc.mp (hs _ h2)
      have := min_le_right x a
      linarith [h3.1]
    | some lo =>
      cases hi with
      | none =>
        exfalso
        have h2 : max x b + 1 ∈ Itv.mk (some lo) none hlh := by
          refine ⟨?_, trivial⟩
          have : lo ≤ x := hx.1
          have := le_max_left x b
          show lo ≤ max x b + 1
          linarith
        have h3 := Itv.mem_icc.mp (hs _ h2)
        have := le_max_right x b
        linarith [h3.2]
      | some hi => exact ⟨lo, hi, hlh, rfl⟩

theorem drop_of_lt {X Y : Itv K} {x : K} (hx : x ∈ X) (h : X < Y) {a b : K} (hY : Y ≤ Itv.icc a b) :
    dropVol 0 (volInterval X) (volInterval Y) = true := by
  have hXY := Itv.le_iff.mp h.le
  obtain ⟨lo, hi, h1, rfl⟩ := bounded_form (hXY x hx) hY
  obtain ⟨lo', hi', h2, rfl⟩ := bounded_form hx (le_trans h.le hY)
  have h2' : lo' ≤ hi' := h2
  have e1 := hXY lo' ⟨le_refl lo', h2'⟩
  have e2 := hXY hi' ⟨h2', le_refl hi'⟩
  have e1' : lo ≤ lo' := e1.1
  have e2' : hi' ≤ hi := e2.2
  have hlt : hi' - lo' < hi - lo := by
    rcases e1'.lt_or_eq with e | e
    · linarith
    · rcases e2'.lt_or_eq with e' | e'
      · linarith
      · subst e e'; exact absurd h (lt_irrefl _)
  have hpos : 0 < hi - lo := by linarith
  simp only [volInterval, dropVol]
  rw [if_neg hpos.ne', decide_eq_true_eq, div_lt_iff₀ hpos]
  linarith

/-! ### the networks built with the API -/

variable {C : Type*} [DecidableEq C]

/-- the contractors of the network are those of `ct`, and they are registered in their domains -/
structure Described (ct : C → ICtc K) (r : K) (N : Net Dm C (Mem K) (Vol K)) : Prop where
  doms : ∀ c ∈ N.all, N.G.doms c = (ct c).doms
  kind : ∀ c ∈ N.all, N.G.kind c = (ct c).kind
  apply : ∀ c ∈ N.all, N.G.apply c = (ct c).apply
  reg : ∀ c ∈ N.all, ∀ d ∈ N.G.doms c, c ∈ N.G.ctcs d
  vol : N.G.vol = volDm
  drop : N.G.drop = dropVol r
  comps : N.G.comps = compsDm

theorem Described.regular {ct : C → ICtc K} {N : Net Dm C (Mem K) (Vol K)} (h : Described ct 0 N) {x : Nat → K}
    (hg : ∀ c ∈ N.all, (ct c).Good x) : Regular N.all N.G valDm (Inside x) := by
  refine ⟨?_, h.reg, ?_, ?_, ?_, ?_, ?_, ?_⟩
  · intro c hc; rw [h.kind c hc]; cases ct c <;> simp [ICtc.kind]
  · intro c hc m hm; rw [h.apply c hc]; exact ICtc.apply_inside (hg c hc) hm
  · intro c hc m hm d
    rw [h.apply c hc]
    cases d with
    | cell i => exact ICtc.apply_le (hg c hc) m i
    | box cs => exact le_rfl
  · intro c hc m hm; rw [h.apply c hc]; exact ICtc.apply_idem (hg c hc) m
  · intro c hc m m' _ _ hd hs
    rw [h.apply c hc] at hs ⊢
    rw [h.doms c hc] at hd
    exact ICtc.apply_local (hg c hc) hd hs
  · intro c hc m hm d hd
    rw [h.apply c hc] at hd
    apply Touched.base
    rw [h.doms c hc]
    exact ICtc.apply_other hd
  · intro d m m' hm hm' hlt
    rw [h.vol, h.drop]
    cases d with
    | box cs => exact absurd hlt (lt_irrefl _)
    | cell i =>
      obtain ⟨a, b, hb⟩ := hm.2 i
      exact drop_of_lt (hm'.1 i) hlt hb

theorem Described.disjoint {ct : C → ICtc K} {r : K} {N : Net Dm C (Mem K) (Vol K)} (h : Described ct r N) {x : Nat → K} :
    Disjoint' N.all N.G valDm (Inside x) := by
  intro c hc m hm d hd
  rw [h.apply c hc] at hd
  rw [h.doms c hc]
  exact ICtc.apply_other hd

/-- the public operations considered here: `add` of a contractor of `ct`, `contract` interrupted anywhere,
`trigger_all_contractors`, `reset_interm_vars` -/
inductive UserOp (C : Type*) (K : Type*) [LinearOrder K]
  | add (c : C)
  | contract (n : Nat)
  | triggerAll
  | reset (interm : List Dm) (f : Dm → Mem K → Mem K)

def UserOp.op (ct : C → ICtc K) : UserOp C K → Op Dm C (Mem K)
  | .add c => .add c (ct c).doms (ct c).kind (ct c).apply
  | .contract n => .contract n
  | .triggerAll => .triggerAll
  | .reset interm f => .reset interm f

theorem run_described {ct : C → ICtc K} {r : K} {N : Net Dm C (Mem K) (Vol K)} (h : Described ct r N)
    (o : UserOp C K) : Described ct r ((o.op ct).run (some (-1)) N) := by
  cases o with
  | contract n => exact ⟨h.doms, h.kind, h.apply, h.reg, h.vol, h.drop, h.comps⟩
  | triggerAll => exact ⟨h.doms, h.kind, h.apply, h.reg, h.vol, h.drop, h.comps⟩
  | reset interm f => exact ⟨h.doms, h.kind, h.apply, h.reg, h.vol, h.drop, h.comps⟩
  | add c =>
    simp only [UserOp.op, Op.run]
    split_ifs with hc
    · exact ⟨h.doms, h.kind, h.apply, fun c' hc' d hd => List.mem_append_left _ (h.reg c' hc' d hd), h.vol, h.drop, h.comps⟩
    · refine ⟨?_, ?_, ?_, ?_, h.vol, h.drop, h.comps⟩
      · intro c' hc'
        show Function.update N.G.doms c _ c' = _
        by_cases e : c' = c
        · subst e; simp
        · rw [Function.update_of_ne e]; exact h.doms c' (by simpa [e] using hc')
      · intro c' hc'
        show Function.update N.G.kind c _ c' = _
        by_cases e : c' = c
        · subst e; simp
        · rw [Function.update_of_ne e]; exact h.kind c' (by simpa [e] using hc')
      · intro c' hc'
        show Function.update N.G.apply c _ c' = _
        by_cases e : c' = c
        · subst e; simp
        · rw [Function.update_of_ne e]; exact h.apply c' (by simpa [e] using hc')
      · intro c' hc' d hd
        have hd : d ∈ Function.update N.G.doms c (ct c).doms c' := hd
        show c' ∈ N.G.ctcs d ++ List.replicate ((ct c).doms.count d) c
        by_cases e : c' = c
        · subst e
          rw [Function.update_self] at hd
          rw [List.mem_append]; right
          rw [List.mem_replicate]
          exact ⟨(List.count_pos_iff.mpr hd).ne', rfl⟩
        · rw [Function.update_of_ne e] at hd
          exact List.mem_append_left _ (h.reg c' (by simpa [e] using hc') d hd)

/-- the invariant of the histories: the contractors out of the queue have nothing to do -/
structure UInv (ct : C → ICtc K) (x : Nat → K) (N : Net Dm C (Mem K) (Vol K)) : Prop where
  net : NetInv N
  desc : Described ct 0 N
  inside : Inside x N.s.mem
  stable : ∀ c ∈ N.all, c ∉ N.s.queue → N.G.apply c N.s.mem = N.s.mem

def UserOp.Keeps (x : Nat → K) : UserOp C K → Prop
  | .reset interm f => ∀ d ∈ interm, ∀ m, Inside x m → Inside x (f d m)
  | _ => True

theorem run_uinv {ct : C → ICtc K} {x : Nat → K} (hg : ∀ c, (ct c).Good x) {N : Net Dm C (Mem K) (Vol K)}
    (h : UInv ct x N) {o : UserOp C K} (ho : o.Keeps x) : UInv ct x ((o.op ct).run (some (-1)) N) := by
  have h1 := run_inv (some (-1) : Vol K) h.net (o.op ct)
  have h2 := run_described h.desc o
  have hR := h.desc.regular (x := x) fun c _ => hg c
  have h3 : Inside x ((o.op ct).run (some (-1)) N).s.mem := by
    refine (run_mem (P := Inside x) _ h.net hR.keep (o := o.op ct) ?_ h.inside).1
    cases o with
    | add c => exact fun m hm => ICtc.apply_inside (hg c) hm
    | contract n => trivial
    | triggerAll => trivial
    | reset interm f => exact ho
  refine ⟨h1, h2, h3, ?_⟩
  have htrig : ∀ s : State Dm C (Mem K) (Vol K), ∀ c ∈ N.all, c ∉ (triggerAll N.G N.all s).queue →
      N.G.apply c s.mem = s.mem := by
    intro s c hc hq
    have hk : N.G.kind c ≠ .contracting := by
      intro hk
      apply hq
      show c ∈ (N.all.filter fun c => decide (N.G.kind c = .contracting)).foldl (fun q c => addToQueue N.G c q) []
      rw [mem_foldl_addToQueue]
      left; simp [hc, hk]
    rw [h.desc.kind c hc] at hk
    rw [h.desc.apply c hc]
    generalize ct c = k at hk ⊢
    cases k <;> first | rfl | exact absurd rfl hk
  cases o with
  | contract n =>
    obtain ⟨seen, h4, h5⟩ := contract_finv hR n h.net.q h.inside h.stable
    exact finv_resume h4 (h5 h.desc.disjoint)
  | triggerAll => exact htrig N.s
  | reset interm f => exact htrig _
  | add c =>
    simp only [UserOp.op, Op.run] at h1 h2 ⊢
    split_ifs at h1 h2 ⊢ with hc
    · exact h.stable
    · intro c' hc' hq
      have hq : c' ∉ addToQueue _ c N.s.queue := hq
      rw [mem_addToQueue, not_or] at hq
      show Function.update N.G.apply c _ c' N.s.mem = N.s.mem
      rw [Function.update_of_ne hq.1]
      exact h.stable c' (by simpa [hq.1] using hc') hq.2

theorem runOps_uinv {ct : C → ICtc K} {x : Nat → K} (hg : ∀ c, (ct c).Good x) (os : List (UserOp C K))
    {N : Net Dm C (Mem K) (Vol K)} (h : UInv ct x N) (ho : ∀ o ∈ os, o.Keeps x) :
    UInv ct x (runOps (some (-1)) (os.map (UserOp.op ct)) N) := by
  induction os generalizing N with
  | nil => exact h
  | cons o os ih => exact ih (run_uinv hg h (ho o (by simp))) fun o' ho' => ho o' (by simp [ho'])

theorem emptyNet_uinv (ct : C → ICtc K) {x : Nat → K} {m : Mem K} (hm : Inside x m) : UInv ct x (emptyNet C 0 m) :=
  ⟨emptyNet_inv C 0 m, ⟨by simp [emptyNet], by simp [emptyNet], by simp [emptyNet], by simp [emptyNet], rfl, rfl, rfl⟩,
    hm, by simp [emptyNet]⟩

end

end Codac.CN
