import Verif.CN.BuildOps
import Verif.CN.Fix
import Verif.Tube.Ops
import Verif.Tube.EvalMono
import Verif.Tube.Examples
import Mathlib.Data.Rat.Defs
import Mathlib.Algebra.Order.Field.Rat

/-!
# C95, C96: building a contractor network
-/

namespace Codac.Props
open Codac.Built

/-! ## C95: the constraints of a network are those it was given

`Op.Wants`, `Instance` and `DynInstance` (`Verif/CN/BuildOps.lean`) say which constraints a call asks for, `Part` (`Verif/CN/BuildProofs.lean`) which
links join a domain and its parts; `Layout.Ok` says that the objects of the program are at different addresses. -/

section C95
variable {L : Layout}

/-- The order on the keys of the contractors is a strict weak order, as `std::map` requires. -/
theorem C95_order (hL : L.Ok) {a b c : Ct} (ha : a.In L) (hb : b.In L) (hc : c.In L) :
    hLess a.hash a.hash = false ∧ (hLess a.hash b.hash = true → hLess b.hash c.hash = true → hLess a.hash c.hash = true) ∧
      (same a.hash b.hash = true → same b.hash c.hash = true → same a.hash c.hash = true) := by
  refine ⟨hLess_irrefl _, hLess_trans, ?_⟩
  rw [same_hash hL ha hb, same_hash hL hb hc, same_hash hL ha hc]
  rintro ⟨e1, e2⟩ ⟨e3, e4⟩
  exact ⟨e1.trans e3, e2.trans e4⟩

/-- Two contractors are merged exactly when they have the same domains in the same order and the same constraint (the same object; any two `CtcEval`,
any two `CtcDeriv`). -/
theorem C95_merge (hL : L.Ok) {a b : Ct} (ha : a.In L) (hb : b.In L) :
    same a.hash b.hash = true ↔ a.doms = b.doms ∧ SameCons a.kind b.kind := same_hash hL ha hb

/-- Without the hypothesis on the addresses it is not an order: three keys, the second one equivalent to the two others, which are not. -/
theorem C95_prefix_fails : same [10, 20] [10] = true ∧ same [10] [10, 30] = true ∧ same [10, 20] [10, 30] = false := by
  decide

/-- Every constraint asked for is in the network: for each slice and each component. -/
theorem C95_constraints (hL : L.Ok) {own : Nat} {ops : List Built.Op} (ho : ∀ o ∈ ops, o.In L) {N : Net}
    (hN : Net.empty.runAll own ops = some N) {o : Built.Op} (hm : o ∈ ops) {k : Kd} {doms : List Nat} (hw : o.Wants own k doms) :
    ∃ c ∈ N.ctcs, c.doms = doms ∧ SameCons c.kind k :=
  (runAll_done hL ops (empty_ok L own) ho hN).all k doms ⟨o, hm, hw⟩

/-- The network has no other contractor, but the links between its domains and their parts. -/
theorem C95_nothing_else (hL : L.Ok) {own : Nat} {ops : List Built.Op} (ho : ∀ o ∈ ops, o.In L) {N : Net}
    (hN : Net.empty.runAll own ops = some N) {c : Ct} (hc : c ∈ N.ctcs) :
    (∃ o ∈ ops, o.Wants own c.kind c.doms) ∨ ∃ r ∈ N.doms, Part r c := by
  rcases (runAll_done hL ops (empty_ok L own) ho hN).org c hc with h | h | h
  · simp [Net.empty] at h
  · exact Or.inr h
  · exact Or.inl h

/-- A domain is registered once, with its parts and the links to them. -/
theorem C95_parts (hL : L.Ok) {own : Nat} {ops : List Built.Op} (ho : ∀ o ∈ ops, o.In L) {N : Net}
    (hN : Net.empty.runAll own ops = some N) :
    (N.doms.map Ref.addr).Nodup ∧ ∀ r ∈ N.doms, (∀ p ∈ r.parts, p ∈ N.doms) ∧
      ∀ c, Part r c → ∃ c' ∈ N.ctcs, c'.doms = c.doms ∧ c'.kind = .component := by
  have h := (runAll_done hL ops (empty_ok L own) ho hN).ok
  refine ⟨h.inv.nodup, fun r hr => ⟨h.closed.parts r hr (by simp), ?_⟩⟩
  intro c hp
  obtain ⟨c', h1, h2, h3⟩ := h.closed.cts r hr (by simp) c hp
  refine ⟨c', h1, h2, ?_⟩
  have hk : c.kind = .component := by cases hp <;> rfl
  rw [hk] at h3
  generalize c'.kind = k at h3
  cases k <;> simp [SameCons] at h3 ⊢

/-- A contractor is listed by a domain exactly when the domain is one of its domains; it is waiting for propagation, once. -/
theorem C95_links (hL : L.Ok) {own : Nat} {ops : List Built.Op} (ho : ∀ o ∈ ops, o.In L) {N : Net}
    (hN : Net.empty.runAll own ops = some N) :
    (∀ d c, c ∈ N.links d ↔ c ∈ N.ctcs ∧ d ∈ c.doms) ∧ (∀ c ∈ N.ctcs, ∀ d ∈ c.doms, ∃ r ∈ N.doms, r.addr = d) ∧
      N.queue.Nodup ∧ ∀ c, c ∈ N.queue ↔ c ∈ N.ctcs := by
  have h := (runAll_done hL ops (empty_ok L own) ho hN).ok.inv
  refine ⟨fun d c => ⟨h.lnk d c, fun hc => h.reg c hc.1 d hc.2⟩, h.known, ?_, fun c => h.que.mem_iff⟩
  rw [h.que.nodup_iff]
  refine h.uniq.imp ?_
  intro a b hab e
  subst e
  have : same a.hash a.hash = true := by simp [same, hLess_irrefl]
  rw [this] at hab
  exact absurd hab (by simp)

/-- The network is a correct start for the propagation: the invariant of the queue used by the proofs on `contract` (C26, C27) holds. -/
theorem C95_ready (hL : L.Ok) {own : Nat} {ops : List Built.Op} (ho : ∀ o ∈ ops, o.In L) {N : Net}
    (hN : Net.empty.runAll own ops = some N) {M W : Type*} (G : CN.Graph Nat Ct M W) (hG : G.ctcs = N.links) (s : CN.State Nat Ct M W)
    (hq : s.queue = N.queue) (ha : ∀ c, s.active c = true ↔ c ∈ N.ctcs) : CN.QInv N.ctcs G s := by
  obtain ⟨h1, h2, h3, h4⟩ := C95_links hL ho hN
  refine ⟨hq ▸ h3, fun c hc => (h4 c).1 (hq ▸ hc), fun c hc => (ha c).2 ((h4 c).1 (hq ▸ hc)), fun c hc _ _ => hq ▸ (h4 c).2 hc, ?_⟩
  intro d c hc
  rw [hG] at hc
  exact ((h1 d c).1 hc).1

/-- A sub-network is added when the value found in the field left uninitialised is not zero. -/
theorem C95_subnet_partial {N : Net} {n ptr : Nat} (hn : n ≠ 0) (hp : ∀ c ∈ N.ctcs, c.hash.head? ≠ some ptr) (ds : List Ref) :
    ∃ N', N.addNet n ptr ds = some (N', true) := by
  have key : ∀ c ∈ N.ctcs, cnSame n ptr c.hash = some false := by
    intro c hc
    unfold cnSame
    have hl : c.hash.length ≠ 0 := by simp [Ct.hash]
    rw [if_neg (by omega), if_neg (hp c hc)]
  unfold Net.addNet
  rw [if_neg, List.find?_eq_none.2]
  · exact ⟨_, rfl⟩
  · intro c hc
    simp [key c hc]
  · simp only [List.any_eq_true, not_exists, not_and]
    intro c hc
    simp [key c hc]

/-- When the value is zero, no sub-network is added to a network that has a contractor: the call has no effect but linking the domains of the
sub-network to a contractor that is not theirs. -/
theorem C95_subnet_fails {N : Net} (hN : N.ctcs ≠ []) (ptr : Nat) (ds : List Ref) : ∃ N', N.addNet 0 ptr ds = some (N', false) := by
  have key : ∀ h, cnSame 0 ptr h = some true := by simp [cnSame]
  unfold Net.addNet
  rw [if_neg (by simp [key])]
  cases e : N.ctcs with
  | nil => exact absurd e hN
  | cons c cs =>
    simp only [List.find?_cons, key]
    exact ⟨_, rfl⟩

/-- `double t = 0; cn.add(ctc_eval, {t, z, x}); t = 1; cn.add(ctc_eval, {t, z, x});`: the second constraint `z = x(1)` is not added. -/
theorem C95_double_fails (own : Nat) :
    (Net.empty.runAll own [.dyn (.eval 100) true [.interval 10 200, .interval 11 11, .tube 20 [21, 22]],
        .dyn (.eval 100) true [.interval 10 201, .interval 11 11, .tube 20 [21, 22]]]).map (fun N => (N.doms, N.ctcs, N.queue)) =
      (Net.empty.runAll own [.dyn (.eval 100) true [.interval 10 200, .interval 11 11, .tube 20 [21, 22]]]).map
        (fun N => (N.doms, N.ctcs, N.queue)) ∧
    (Net.empty.runAll own [.dyn (.eval 100) true [.interval 10 200, .interval 11 11, .tube 20 [21, 22]]]).map
      (fun N => decide (Ref.interval 10 201 ∈ N.doms)) = some false := by
  constructor <;> rfl

/-- a program: an instant, a value, two tubes of two slices, a box of two components and a copy of its second component -/
def progRefs : List Ref :=
  [.interval 10 200, .interval 11 11, .tube 20 [21, 22], .slice 21, .slice 22, .tube 30 [31, 32], .slice 31, .slice 32,
    .vec 40 [(41, 41), (42, 42)], .interval 41 41, .interval 42 42, .vec 50 [(51, 51)], .interval 51 51]

def progL : Layout := ⟨fun r => r ∈ progRefs, fun n => n = 100, fun n => n = 101⟩

theorem progL_ok : progL.Ok where
  full := by
    intro a h
    simp [progL, progRefs] at h
  vfull := by
    intro a h
    simp [progL, progRefs] at h
  inj := by
    have h : ∀ r ∈ progRefs, ∀ r' ∈ progRefs, r.addr = r'.addr → r = r' := by decide
    exact fun r r' h1 h2 => h r h1 r' h2
  sub := by
    have h : ∀ r ∈ progRefs, ∀ p ∈ r.parts, p ∈ progRefs := by decide
    exact h
  dom := by
    have h : ∀ r ∈ progRefs, 4 < r.addr ∧ ¬ r.addr = 100 ∧ ¬ r.addr = 101 := by decide
    exact h
  obj := by
    rintro n (h | h)
    · have h' : n = 100 := h
      omega
    · have h' : n = 101 := h
      omega
  sd := by
    intro n h h'
    have h1 : n = 100 := h
    have h2 : n = 101 := h'
    omega

/-- `z = x(t)` with the derivative, a static constraint of dimension 2 on the box, then on the two tubes, a sub-vector -/
def progOps : List Built.Op :=
  [.dyn (.eval 7) true [.interval 10 200, .interval 11 11, .tube 20 [21, 22], .tube 30 [31, 32]], .stat 100 2 [.vec 40 [(41, 41), (42, 42)]],
    .stat 100 2 [.tube 20 [21, 22], .tube 30 [31, 32]], .sub 40 [(41, 41), (42, 42)] 50 [(51, 51)] 1]

example : ∀ o ∈ progOps, o.In progL := by
  intro o ho
  simp only [progOps, List.mem_cons, List.not_mem_nil, or_false] at ho
  rcases ho with rfl | rfl | rfl | rfl <;> simp [Built.Op.In, progL, progRefs, Kd.In]

example : (Net.empty.runAll 8 progOps).map (fun N => N.ctcs) =
    some [⟨.component, [20, 21, 22]⟩, ⟨.component, [21, 22]⟩, ⟨.component, [30, 31, 32]⟩, ⟨.component, [31, 32]⟩,
      ⟨.deriv 8, [21, 31]⟩, ⟨.deriv 8, [22, 32]⟩, ⟨.eval 7, [10, 11, 20, 30]⟩, ⟨.component, [40, 41, 42]⟩, ⟨.ibex 100, [41, 42]⟩,
      ⟨.ibex 100, [21, 31]⟩, ⟨.ibex 100, [22, 32]⟩, ⟨.component, [50, 51]⟩, ⟨.equality, [51, 42]⟩] := by rfl

/-- a constraint asked for: the static one at the second slice -/
example : (Built.Op.stat 100 2 [.tube 20 [21, 22], .tube 30 [31, 32]]).Wants 8 (.ibex 100) [22, 32] := by
  refine ⟨rfl, 1, ⟨?_, ?_⟩, Or.inl ⟨rfl, rfl⟩⟩
  · intro r hr n hn
    simp only [List.mem_cons, List.not_mem_nil, or_false] at hr
    rcases hr with rfl | rfl <;> simp [Ref.slices?] at hn <;> omega
  · intro h
    have := h (.tube 20 [21, 22]) (by simp)
    simp [Ref.slices?] at this

end C95

/-! ## C96: the tubes given to a network are clipped -/

section C96
variable {K : Type*} [LinearOrder K]

/-- `Domain::Domain(Tube&)`, codac_Domain.cpp:185-194, run each time a tube is given to a network: `t &= Interval(-99999.,99999.)` (and the same for
slices and tube vectors, 175-183 and 212-221); `big` is this interval -/
def clipTube (big : Itv K) (T : Tube K) : Tube K := T.map fun X => X ⊓ big

/-- The trajectories kept when a tube is given to a network are those that stay in `[-99999,99999]`. -/
theorem C96_clip_partial {T : Tube K} (hT : T.WF) (big : Itv K) (f : K → K) :
    (clipTube big T).Encloses f ↔ T.Encloses f ∧ ∀ t, T.t0 ≤ t → t ≤ T.tf → f t ∈ big := by
  constructor
  · intro h
    have hs : ∀ s ∈ T.slices, f s.lb ∈ s.inG ⊓ big ∧ f s.ub ∈ s.outG ⊓ big ∧ ∀ t, s.lb < t → t < s.ub → f t ∈ s.cod ⊓ big := by
      intro s hs
      refine h ⟨s.lb, s.ub, s.cod ⊓ big, s.inG ⊓ big, s.outG ⊓ big⟩ ?_
      unfold clipTube Tube.map
      rw [mapWith_slices _ _ hT, List.mem_map]
      exact ⟨s, hs, rfl⟩
    refine ⟨fun s hs' => ⟨(Itv.mem_inf.1 (hs s hs').1).1, (Itv.mem_inf.1 (hs s hs').2.1).1, fun t h1 h2 =>
      (Itv.mem_inf.1 ((hs s hs').2.2 t h1 h2)).1⟩, ?_⟩
    intro t h1 h2
    obtain ⟨s, hs', h3, h4⟩ := hT.exists_slice h1 h2
    rcases eq_or_lt_of_le h3 with e | h3
    · rw [← e]
      exact (Itv.mem_inf.1 (hs s hs').1).2
    · rcases eq_or_lt_of_le h4 with e | h4
      · rw [e]
        exact (Itv.mem_inf.1 (hs s hs').2.1).2
      · exact (Itv.mem_inf.1 ((hs s hs').2.2 t h3 h4)).2
  · rintro ⟨h1, h2⟩
    refine mapWith_encloses hT (f := f) ?_ ?_ h1
    · intro s hs t h3 h4 h5
      have hb := hT.tiles.mem_bounds hs
      exact Itv.mem_inf.2 ⟨h5, h2 t (le_trans hb.1 h3.le) (le_trans h4.le hb.2.2)⟩
    · intro t X h3 h4 h5
      exact Itv.mem_inf.2 ⟨h5, h2 t h3 h4⟩

/-- The trajectories that leave this interval are lost, before any contraction: `x(t) = 100000`. -/
theorem C96_fails : (Tube.single (0 : ℚ) 1 (Itv.icc 0 200000)).Encloses (fun _ => 100000) ∧
    ¬ (clipTube (Itv.icc (-99999) 99999) (Tube.single (0 : ℚ) 1 (Itv.icc 0 200000))).Encloses (fun _ => 100000) := by
  have hw : (Tube.single (0 : ℚ) 1 (Itv.icc 0 200000)).WF := ⟨by simp [Tube.single], by simp [Tube.single, Codac.Tiles]⟩
  constructor
  · intro s hs
    simp only [Tube.single, Tube.slices] at hs
    have : s = ⟨0, 1, Itv.icc 0 200000, Itv.icc 0 200000, Itv.icc 0 200000⟩ := by
      simpa using hs
    subst this
    have hm : (100000 : ℚ) ∈ Itv.icc (0 : ℚ) 200000 := Itv.mem_icc.2 ⟨by norm_num, by norm_num⟩
    exact ⟨hm, hm, fun _ _ _ => hm⟩
  · rw [C96_clip_partial hw]
    rintro ⟨_, h⟩
    have := h 0 (by simp [Tube.single]) (by simp [Tube.single])
    rw [Itv.mem_icc] at this
    norm_num at this

end C96

end Codac.Props
