import Verif.CN.VarsProofs
import Mathlib.Data.Rat.Lemmas
import Mathlib.Algebra.Order.Ring.Rat
import Mathlib.Tactic.NormNum

set_option linter.unusedSectionVars false

/-!
# C112: a contractor network used as a contractor

`CtcCN(cn, x).contract(box)` resets the intermediate variables of the network, gives `box` as values of the variable `x`,
and propagates; `cn.contract({{x, box}, ..})` only gives the values and propagates. The domains of the network are numbered
(`Nat`); `v` is a choice of a value for each of them; the box of the caller is in memory in the places `xs`, which are not
domains of the network.
-/

namespace Codac.Props
open Codac Codac.CN

variable {K : Type*} [Field K] [LinearOrder K] [IsStrictOrderedRing K] {C : Type*} [DecidableEq C]

/-- the network can be used: it is built from the contractors `ct` on domains in `U`, and no variable is associated yet -/
def Usable (ct : C → ICtc K) (U : Nat → Prop) (S : VarNet C K) : Prop :=
  Ready ct U S ∧ S.N.s.mem.refC = id ∧ S.N.s.mem.refB = id

/-- `v` satisfies all the constraints of the network -/
def NetSolution (ct : C → ICtc K) (S : VarNet C K) (v : Nat → K) : Prop := ∀ c ∈ S.N.all, (ct c).HasSol v

/-- each component of the box contains the value of the corresponding domain -/
def BoxHas (v : Nat → K) (cs : List Nat) (X : List (Itv K)) : Prop := List.Forall₂ (fun c Y => v c ∈ Y) cs X

/-- the box of the caller is somewhere else in memory -/
structure CallerBox (U : Nat → Prop) (S : VarNet C K) (xs : List Nat) : Prop where
  nodup : xs.Nodup
  fresh : ∀ a ∈ xs, ¬ U a
  interm : ∀ a ∈ xs, a ∉ intermCells S.interm

/-- networks built with `add` from an empty one can be used -/
theorem usable_empty (ct : C → ICtc K) (U : Nat → Prop) (r : K) (heap : Mem K) (vars interm : List Dm)
    (init : Nat → Itv K) (comp : List Nat → C) (hcomp : ∀ cs, ct (comp cs) = .component cs) :
    Usable ct U (emptyVarNet r heap vars interm init comp) :=
  ⟨⟨⟨⟨by simp [emptyVarNet], by simp [emptyVarNet], by simp [emptyVarNet], by simp [emptyVarNet], by simp [emptyVarNet]⟩,
    by simp [emptyVarNet]⟩, by simp [emptyVarNet], by simp [emptyVarNet], hcomp, by simp [emptyVarNet]⟩, rfl, rfl⟩

theorem usable_add {ct : C → ICtc K} {U : Nat → Prop} {S : VarNet C K} (h : Usable ct U S) (c : C) (doms : List Dm)
    (hc : ∀ a ∈ (ct c).cells, U a) : Usable ct U (S.add c (ct c) doms) := by
  refine ⟨ready_add h.1 c doms hc, ?_⟩
  simp only [VarNet.add, Op.run]
  split_ifs <;> exact ⟨h.2.1, h.2.2⟩

/-- one call: the solutions whose values are in the box, in the initial values of the intermediate variables, and in the
present values of the other domains, are kept; the box and the other domains only shrink -/
theorem C112_call {ct : C → ICtc K} {U : Nat → Prop} {S S' : VarNet C K} (h : Usable ct U S) {cs xs : List Nat}
    (hcs : cs.Nodup) (hU : ∀ c ∈ cs, U c) (hx : CallerBox U S xs) {X X' : List (Itv K)} {n : Nat}
    (e : S.ctcCN cs xs X n = some (S', X')) :
    (∀ v, NetSolution ct S v → BoxHas v cs X → (∀ c, U c → c ∉ cs → c ∈ intermCells S.interm → v c ∈ S.init c) →
      (∀ c, U c → c ∉ cs → c ∉ intermCells S.interm → v c ∈ S.N.s.mem.heap c) → BoxHas v cs X') ∧
    ((∀ c ∈ S.N.all, (ct c).Contracts) → List.Forall₂ (· ≤ ·) X' X ∧
      ∀ c, c ∉ intermCells S.interm → c ∉ xs → S'.N.s.mem.heap c ≤ S.N.s.mem.heap c) ∧
    Usable ct U S' := by
  obtain ⟨h1, hC, hB⟩ := h
  obtain ⟨l1, l2, eX, S0, a1, a2, a3, a4, a5, a6, a7, a8, -⟩ := ctcCN_parts h1 hC hB e hx.nodup hx.interm
  obtain ⟨c1, -, c3, c4⟩ := ctcCN_ready h1 hC hB e
  have hz := setRefs_zip hcs l1
  have hf : (cs.zip xs).map Prod.fst = cs := List.map_fst_zip (by omega)
  have hpl : ∀ m : Mem K, cs.map (fun c => m (placesOf [.box cs xs] c)) = xs.map m := by
    intro m
    conv_rhs => rw [← hz]
    rw [places_box, List.map_map]; rfl
  refine ⟨fun v hsol hX hint hoth => ?_, fun hct => ?_, c1, c3, c4⟩
  · have key := contractWith_keeps a1 a3 a4 a5 (places_inj hcs hx.nodup l1 hx.fresh) (a2.sol hsol) (v := v) ?_
    · unfold BoxHas
      rw [eX, ← hpl, List.forall₂_map_right_iff]
      exact List.forall₂_same.mpr fun c hc => key c (hU c hc)
    · intro c hc
      by_cases hcc : c ∈ cs
      · unfold BoxHas at hX
        rw [← a6, ← hpl, List.forall₂_map_right_iff] at hX
        exact List.forall₂_same.mp hX c hcc
      · rw [places_box, setRefs_of_not_mem (by rw [hf]; exact hcc)]
        by_cases hi : c ∈ intermCells S.interm
        · show v c ∈ S0.N.s.mem.heap c
          rw [a7 c hi]; exact hint c hc hcc hi
        · show v c ∈ S0.N.s.mem.heap c
          rw [a8 c hi (fun hxx => hx.fresh c hxx hc)]; exact hoth c hc hcc hi
  · have hle := contractWith_le a1 a3 a4 a5 (a2.contracts hct)
    refine ⟨?_, fun c hi hxx => ?_⟩
    · rw [eX, ← a6, List.forall₂_map_left_iff, List.forall₂_map_right_iff]
      exact List.forall₂_same.mpr fun a _ => hle a
    · rw [← a8 c hi hxx]; exact hle c

/-- a network whose domains are the variable and intermediate variables is a contractor, whatever the boxes it was called
with before: no solution is lost and the box only shrinks. (With other domains: `C112_constant_fails`) -/
theorem C112_history_partial {ct : C → ICtc K} {U : Nat → Prop} {S S1 S' : VarNet C K} (h : Usable ct U S)
    {cs xs : List Nat} (hcs : cs.Nodup) (hU : ∀ c ∈ cs, U c) (hall : ∀ c, U c → c ∈ cs ∨ c ∈ intermCells S.interm)
    {before : List (List Nat × List (Itv K) × Nat)} (hb : S.runCN cs before = some S1)
    (hx : CallerBox U S xs) {X X' : List (Itv K)} {n : Nat} (e : S1.ctcCN cs xs X n = some (S', X')) :
    (∀ v, NetSolution ct S v → BoxHas v cs X → (∀ c, U c → c ∉ cs → v c ∈ S.init c) → BoxHas v cs X') ∧
    ((∀ c ∈ S.N.all, (ct c).Contracts) → List.Forall₂ (· ≤ ·) X' X) := by
  obtain ⟨b1, b2, b3, b4⟩ := runCN_ready before h.1 h.2.1 h.2.2 hb
  have hx1 : CallerBox U S1 xs := ⟨hx.nodup, hx.fresh, by rw [b2.interm]; exact hx.interm⟩
  obtain ⟨k1, k2, -⟩ := C112_call ⟨b1, b3, b4⟩ hcs hU hx1 e
  refine ⟨fun v hsol hX hi => k1 v (b2.sol hsol) hX ?_ ?_, fun hct => (k2 (b2.contracts hct)).1⟩
  · intro c hc hcc _; rw [b2.init]; exact hi c hc hcc
  · intro c hc hcc hn
    rw [b2.interm] at hn
    exact absurd (hall c hc) (by simp [hcc, hn])

/-- every contractor of the network is called: for a monotonic contractor `f` attached to the domains `cells`, what is left
of these domains is in what `f` leaves of the box and of the initial values (`start`) -/
theorem C112_each_contractor {ct : C → ICtc K} {U : Nat → Prop} {S S' : VarNet C K} (h : Usable ct U S)
    {cs xs : List Nat} (hcs : cs.Nodup) (hx : CallerBox U S xs) (hct : ∀ c ∈ S.N.all, (ct c).Contracts)
    {X X' : List (Itv K)} {n : Nat} (e : S.ctcCN cs xs X n = some (S', X'))
    {c : C} (hc : c ∈ S.N.all) {cells : List Nat} {f : List (Itv K) → List (Itv K)} (hf : ct c = .ibex cells f)
    (hn : cells.Nodup) (hmono : ∀ a b, List.Forall₂ (· ≤ ·) a b → List.Forall₂ (· ≤ ·) (f a) (f b))
    {start : Nat → Itv K} (hstart : cs.map start = X) (hint : ∀ c ∈ intermCells S.interm, c ∉ cs → start c = S.init c)
    (hoth : ∀ c, c ∉ intermCells S.interm → c ∉ cs → start c = S.N.s.mem.heap c) :
    ∃ fin : Nat → Itv K, cs.map fin = X' ∧ List.Forall₂ (· ≤ ·) (cells.map fin) (f (cells.map start)) := by
  obtain ⟨h1, hC, hB⟩ := h
  obtain ⟨l1, l2, eX, S0, a1, a2, a3, a4, a5, a6, a7, a8, a9⟩ := ctcCN_parts h1 hC hB e hx.nodup hx.interm
  obtain ⟨-, -, -, -, S2, r1, r2, r3, r4, r5, r6, r7⟩ := contractWith_parts a1 a3 a4 a5
  have hz := setRefs_zip hcs l1
  have hfst : (cs.zip xs).map Prod.fst = cs := List.map_fst_zip (by omega)
  set ρ := placesOf [.box cs xs] with hρ
  have hpl : ∀ m : Mem K, cs.map (fun c => m (ρ c)) = xs.map m := by
    intro m
    conv_rhs => rw [← hz]
    rw [hρ, places_box, List.map_map]; rfl
  refine ⟨fun c => S'.N.s.mem.heap (ρ c), by rw [eX, hpl], ?_⟩
  have hcU := h1.cells c hc
  rw [hf] at hcU
  have hcU : ∀ a ∈ cells, U a := hcU
  have hinj := places_inj hcs hx.nodup l1 hx.fresh
  rw [← hρ] at hinj
  have hin2 : c ∈ S2.N.all := r2.old c (a2.old c hc)
  have hq : c ∈ S2.N.s.queue := r5 c (a9 c hc (by rw [hf]; rfl))
  have hle : ∀ c ∈ S2.N.all, ∀ p, (S2.N.G.apply c p).heap ≤ p.heap ∧ (S2.N.G.apply c p).refC = p.refC := by
    intro c hc p
    rw [r1.apply c hc]
    exact ⟨ICtc.apply_le' (ICtc.through_contracts (r2.contracts (a2.contracts hct) c hc) _) _, rfl⟩
  obtain ⟨p, p1, p2, p3⟩ := steps_each hle n (refresh_qinv r1.inv.q) (s := refresh S2.N.G S2.N.s) hq r6
  rw [r1.apply c hin2, hf] at p3
  have p2 : p.refC = ρ := p2.trans r4
  have p1 : p.heap ≤ S0.N.s.mem.heap := by
    have : p.heap ≤ S2.N.s.mem.heap := p1
    rw [r3] at this; exact this
  have hnr : (cells.map ρ).Nodup := List.Nodup.map_on (fun a ha b hb hab => hinj a b (hcU a ha) (hcU b hb) hab) hn
  have hcon := hct c hc
  rw [hf] at hcon
  have hcon : ∀ b, List.Forall₂ (· ≤ ·) (f b) b := hcon
  have e3 : (cells.map ρ).map (pApply (.ibex cells f) p).heap = f ((cells.map ρ).map p.heap) := by
    unfold pApply
    rw [p2]
    show (cells.map ρ).map ((ICtc.ibex (cells.map ρ) f).apply p.heap) = _
    rw [ibex_intervals]
    exact map_writeAll_interval hnr (by rw [(hcon _).length_eq, List.length_map]) p.heap
  have e4 : List.Forall₂ (· ≤ ·) (f ((cells.map ρ).map p.heap)) (f (cells.map start)) := by
    apply hmono
    rw [List.map_map, List.forall₂_map_left_iff, List.forall₂_map_right_iff]
    refine List.forall₂_same.mpr fun a ha => le_trans (p1 (ρ a)) ?_
    apply le_of_eq
    by_cases hac : a ∈ cs
    · have hs : cs.map (fun c => S0.N.s.mem.heap (ρ c)) = cs.map start := by rw [hpl, a6, hstart]
      exact List.map_inj_left.mp hs a hac
    · have : ρ a = a := by rw [hρ, places_box]; exact setRefs_of_not_mem (by rw [hfst]; exact hac)
      rw [this]
      by_cases hi : a ∈ intermCells S.interm
      · rw [a7 a hi, hint a hi hac]
      · rw [a8 a hi (fun hxx => hx.fresh a hxx (hcU a ha)), hoth a hi hac]
  rw [← e3] at e4
  have e5 : List.Forall₂ (· ≤ ·) (cells.map fun c => S'.N.s.mem.heap (ρ c)) ((cells.map ρ).map (pApply (.ibex cells f) p).heap) := by
    rw [List.map_map, List.forall₂_map_left_iff, List.forall₂_map_right_iff]
    refine List.forall₂_same.mpr fun a _ => ?_
    rw [r7]
    exact p3 (ρ a)
  have trans2 : ∀ {a b d : List (Itv K)}, List.Forall₂ (· ≤ ·) a b → List.Forall₂ (· ≤ ·) b d → List.Forall₂ (· ≤ ·) a d := by
    intro a b d h
    induction h generalizing d with
    | nil => exact fun h => h
    | cons h1 _ ih =>
      intro h'
      cases h' with
      | cons h2 h3 => exact List.Forall₂.cons (le_trans h1 h2) (ih h3)
  exact trans2 e5 e4

/-- `contract({{x,box},..})`: the solutions whose values are in the boxes given for the variables and in the present values
of the other domains are kept, nothing grows, and the variables are free again afterwards -/
theorem C112_variables {ct : C → ICtc K} {U : Nat → Prop} {S S' : VarNet C K} (h : Usable ct U S) {vs : List Assoc}
    (hinj : ∀ c c', U c → U c' → placesOf vs c = placesOf vs c' → c = c') {n : Nat}
    (e : S.contractWith vs n = some S') :
    (∀ v, NetSolution ct S v → (∀ c, U c → v c ∈ S.N.s.mem.heap (placesOf vs c)) →
      ∀ c, U c → v c ∈ S'.N.s.mem.heap (placesOf vs c)) ∧
    ((∀ c ∈ S.N.all, (ct c).Contracts) → S'.N.s.mem.heap ≤ S.N.s.mem.heap) ∧ Usable ct U S' := by
  obtain ⟨h1, hC, hB⟩ := h
  obtain ⟨c1, -, c3, c4, -⟩ := contractWith_parts h1 hC hB e
  exact ⟨fun v hs hv => contractWith_keeps h1 hC hB e hinj hs hv, contractWith_le h1 hC hB e, c1, c3, c4⟩

/-- the domains know their contractors; the test of `trigger_ctc_related_to_dom` is the one of the code, with a ratio less than 1 -/
structure Linked (ct : C → ICtc K) (r : K) (S : VarNet C K) : Prop where
  ratio : r < 1
  drop : S.N.G.drop = dropVol r
  vol : S.N.G.vol = pVol
  comp : ∀ cs, ct (S.comp cs) = .component cs
  ctcs : ∀ k ∈ S.N.all, ∀ d ∈ (ct k).doms, k ∈ S.N.G.ctcs d

theorem linked_empty (ct : C → ICtc K) {r : K} (hr : r < 1) (heap : Mem K) (vars interm : List Dm)
    (init : Nat → Itv K) (comp : List Nat → C) (hcomp : ∀ cs, ct (comp cs) = .component cs) :
    Linked ct r (emptyVarNet r heap vars interm init comp) := ⟨hr, rfl, rfl, hcomp, by simp [emptyVarNet]⟩

theorem linked_add {ct : C → ICtc K} {r : K} {S : VarNet C K} (h : Linked ct r S) (c : C) (doms : List Dm) :
    Linked ct r (S.add c (ct c) doms) := by
  refine ⟨h.ratio, ?_, ?_, h.comp, ?_⟩
  · simp only [VarNet.add, Op.run]
    split_ifs <;> exact h.drop
  · simp only [VarNet.add, Op.run]
    split_ifs <;> exact h.vol
  · intro k hk d hd
    simp only [VarNet.add, Op.run] at hk ⊢
    split_ifs at hk ⊢ with e
    · exact List.mem_append_left _ (h.ctcs k hk d hd)
    · rcases List.mem_cons.mp hk with rfl | hk
      · exact List.mem_append_right _ (List.mem_replicate.mpr ⟨(List.count_pos_iff.mpr hd).ne', rfl⟩)
      · exact List.mem_append_left _ (h.ctcs k hk d hd)

theorem linked_complete {ct : C → ICtc K} {r : K} {S : VarNet C K} (h : Linked ct r S) (v : Assoc) : Linked ct r (S.complete v) := by
  cases v with
  | cell c a => exact h
  | box cs as =>
    unfold VarNet.complete
    dsimp only
    split_ifs
    · have := linked_add h (S.comp cs) []
      rw [h.comp cs] at this
      exact this
    · exact h

theorem volInterval_drop {r : K} (hr : r < 1) (X : Itv K) : dropVol r (volInterval X) (some (-1)) = true := by
  have key : ∀ v : K, 0 ≤ v → dropVol r (some v) (some (-1)) = true := by
    intro v hv
    unfold dropVol
    dsimp only
    rw [if_neg (by simp), decide_eq_true_eq, div_neg, div_one]
    linarith
  rcases X with _ | ⟨_ | a, _ | b, p⟩
  · exact key 0 le_rfl
  · exact key _ (by norm_num)
  · exact key _ (by norm_num)
  · exact key _ (by norm_num)
  · exact key _ (sub_nonneg.mpr p)

/-- the contractors of an interval that is replaced are put in the queue -/
theorem replaceCell_queue {all : List C} {G : Graph Dm C (PMem K) (Vol K)} {s : State Dm C (PMem K) (Vol K)} (h : QInv all G s) {r : K} (hr : r < 1)
    (hd : G.drop = dropVol r) (hv : G.vol = pVol) (p : Nat × Nat) {k : C} (hk : k ∈ G.ctcs (.cell p.1)) (hs : G.kind k ≠ .subnet) :
    k ∈ (replaceCell G s p).queue := by
  unfold replaceCell trigger
  rw [List.foldl_cons]
  refine foldl_triggerOne_queue G none _ _ k ?_
  rw [(triggerOne_spec G none _ (.cell p.1)).2.2.2.1 k]
  by_cases ha : s.active k = true
  · exact Or.inl (h.que k (h.ctcs _ k hk) hs ha)
  · refine Or.inr ⟨?_, hk, by simp, by simpa using ha⟩
    dsimp only
    rw [Function.update_self, hd, hv]
    exact volInterval_drop hr _

theorem foldl_replaceCell_queue {all : List C} {G : Graph Dm C (PMem K) (Vol K)} (ps : List (Nat × Nat)) {s : State Dm C (PMem K) (Vol K)} (h : QInv all G s)
    {r : K} (hr : r < 1) (hd : G.drop = dropVol r) (hv : G.vol = pVol) {p : Nat × Nat} (hp : p ∈ ps) {k : C} (hk : k ∈ G.ctcs (.cell p.1))
    (hs : G.kind k ≠ .subnet) : k ∈ (ps.foldl (replaceCell G) s).queue := by
  induction ps generalizing s with
  | nil => cases hp
  | cons q ps ih =>
    rw [List.foldl_cons]
    rcases List.mem_cons.mp hp with rfl | hp
    · exact (foldl_replaceCell_spec ps (replaceCell_spec h p).1).2.2 k (replaceCell_queue h hr hd hv p hk hs)
    · exact ih (replaceCell_spec h q).1 hp

theorem replaceAll_queue {ct : C → ICtc K} {U : Nat → Prop} {r : K} (vs : List Assoc) {S S' : VarNet C K} (h : Ready ct U S) (hl : Linked ct r S)
    (e : S.replaceAll vs = some S') {k : C} (hk : k ∈ S.N.all) (hkd : (ct k).kind ≠ .subnet) {c : Nat} (hc : Dm.cell c ∈ (ct k).doms)
    (hin : c ∈ (vs.flatMap Assoc.pairs).map Prod.fst) : k ∈ S'.N.s.queue := by
  induction vs generalizing S with
  | nil => cases hin
  | cons v vs ih =>
    have e : (S.replace v).bind (fun S' => S'.replaceAll vs) = some S' := e
    obtain ⟨S1, h1, h2⟩ := Option.bind_eq_some_iff.mp e
    obtain ⟨a1, a2, -⟩ := replace_spec h h1
    obtain ⟨-, -, -, -, -, b6⟩ := replaceAll_spec vs a1 h2
    have l1 : Linked ct r S1 ∧ (c ∈ v.pairs.map Prod.fst → k ∈ S1.N.s.queue) := by
      have lc := linked_complete hl v
      obtain ⟨k1, k2, k3, k4⟩ := complete_spec h v
      unfold VarNet.replace at h1
      dsimp only at h1
      split_ifs at h1
      cases h1
      refine ⟨⟨lc.ratio, lc.drop, lc.vol, lc.comp, lc.ctcs⟩, fun hm => ?_⟩
      have hk' := k2.old k hk
      have hkk : (S.complete v).N.G.kind k ≠ .subnet := by rw [k1.kind k hk']; exact hkd
      have hct := lc.ctcs k hk' _ hc
      obtain ⟨p, hp, rfl⟩ := List.mem_map.mp hm
      cases v with
      | cell c' a =>
        obtain rfl := List.mem_singleton.mp hp
        exact replaceCell_queue k1.inv.q lc.ratio lc.drop lc.vol _ hct hkk
      | box cs as => exact foldl_replaceCell_queue _ (replaceBox_spec k1.inv.q cs as).1 lc.ratio lc.drop lc.vol hp hct hkk
    rw [List.flatMap_cons, List.map_append, List.mem_append] at hin
    rcases hin with hin | hin
    · exact b6 k (l1.2 hin)
    · exact ih a1 l1.1 h2 (a2.old k hk) hin

/-- `contract({{x,box},..})`, with or without previous calls: each contractor of a variable that is given is used on the new values; at the end the values are
within those it gives on the values at the beginning -/
theorem C112_variables_each {ct : C → ICtc K} {U : Nat → Prop} {r : K} {S S' : VarNet C K} (h : Usable ct U S) (hl : Linked ct r S) {vs : List Assoc}
    (hinj : ∀ c c', U c → U c' → placesOf vs c = placesOf vs c' → c = c') (hct : ∀ c ∈ S.N.all, (ct c).Contracts) {n : Nat}
    (e : S.contractWith vs n = some S') {k : C} (hk : k ∈ S.N.all) {cells : List Nat} {f : List (Itv K) → List (Itv K)} (hf : ct k = .ibex cells f)
    (hn : cells.Nodup) (hmono : ∀ a b, List.Forall₂ (· ≤ ·) a b → List.Forall₂ (· ≤ ·) (f a) (f b))
    (hgiven : ∃ c ∈ cells, c ∈ (vs.flatMap Assoc.pairs).map Prod.fst) :
    List.Forall₂ (· ≤ ·) (cells.map fun c => S'.N.s.mem.heap (placesOf vs c)) (f (cells.map fun c => S.N.s.mem.heap (placesOf vs c))) := by
  obtain ⟨h1, hC, hB⟩ := h
  obtain ⟨S2, q1, q2⟩ := Option.bind_eq_some_iff.mp (show (S.replaceAll vs).bind _ = some S' from e)
  obtain ⟨S3, q3, q4⟩ := Option.bind_eq_some_iff.mp q2
  obtain ⟨r1, r2, r3, r4, -, r5⟩ := replaceAll_spec vs h1 q1
  obtain ⟨b1, b2, b3⟩ := propagate_spec r1 q3
  obtain ⟨c1, c2, c3, -⟩ := replaceAll_spec _ b3 q4
  obtain ⟨c0, hc0, hg⟩ := hgiven
  have hq : k ∈ S2.N.s.queue := replaceAll_queue vs h1 hl q1 hk (by rw [hf]; simp [ICtc.kind]) (c := c0)
    (by rw [hf]; exact List.mem_map_of_mem hc0) hg
  have hin2 : k ∈ S2.N.all := r2.old k hk
  set ρ := placesOf vs with hρ
  have hcU := h1.cells k hk
  rw [hf] at hcU
  have hcU : ∀ a ∈ cells, U a := hcU
  have hle : ∀ c ∈ S2.N.all, ∀ p, (S2.N.G.apply c p).heap ≤ p.heap ∧ (S2.N.G.apply c p).refC = p.refC := by
    intro c hc p
    rw [r1.apply c hc]
    exact ⟨ICtc.apply_le' (ICtc.through_contracts (r2.contracts hct c hc) _) _, rfl⟩
  obtain ⟨p, p1, p2, p3⟩ := steps_each hle n (refresh_qinv r1.inv.q) (s := refresh S2.N.G S2.N.s) hq b2
  rw [r1.apply k hin2, hf] at p3
  have p2 : p.refC = ρ := by
    have : p.refC = S2.N.s.mem.refC := p2
    rw [this, r4, hC]
    rfl
  have p1 : p.heap ≤ S.N.s.mem.heap := by
    have : p.heap ≤ S2.N.s.mem.heap := p1
    rw [r3] at this; exact this
  have hnr : (cells.map ρ).Nodup := List.Nodup.map_on (fun a ha b hb hab => hinj a b (hcU a ha) (hcU b hb) hab) hn
  have hcon := hct k hk
  rw [hf] at hcon
  have hcon : ∀ b, List.Forall₂ (· ≤ ·) (f b) b := hcon
  have e3 : (cells.map ρ).map (pApply (.ibex cells f) p).heap = f ((cells.map ρ).map p.heap) := by
    unfold pApply
    rw [p2]
    show (cells.map ρ).map ((ICtc.ibex (cells.map ρ) f).apply p.heap) = _
    rw [ibex_intervals]
    exact map_writeAll_interval hnr (by rw [(hcon _).length_eq, List.length_map]) p.heap
  have e4 : List.Forall₂ (· ≤ ·) (f ((cells.map ρ).map p.heap)) (f (cells.map fun c => S.N.s.mem.heap (ρ c))) := by
    apply hmono
    rw [List.map_map, List.forall₂_map_left_iff, List.forall₂_map_right_iff]
    exact List.forall₂_same.mpr fun a _ => p1 (ρ a)
  rw [← e3] at e4
  have e5 : List.Forall₂ (· ≤ ·) (cells.map fun c => S'.N.s.mem.heap (ρ c)) ((cells.map ρ).map (pApply (.ibex cells f) p).heap) := by
    rw [List.map_map, List.forall₂_map_left_iff, List.forall₂_map_right_iff]
    refine List.forall₂_same.mpr fun a _ => ?_
    rw [c3, b1]
    exact p3 (ρ a)
  have trans2 : ∀ {a b d : List (Itv K)}, List.Forall₂ (· ≤ ·) a b → List.Forall₂ (· ≤ ·) b d → List.Forall₂ (· ≤ ·) a d := by
    intro a b d h
    induction h generalizing d with
    | nil => exact fun h => h
    | cons h1 _ ih =>
      intro h'
      cases h' with
      | cons h2 h3 => exact List.Forall₂.cons (le_trans h1 h2) (ih h3)
  exact trans2 e5 e4

/-- a network with a variable that has no values cannot be propagated: `contract()` throws -/
theorem C112_unassociated {ct : C → ICtc K} {U : Nat → Prop} {S : VarNet C K} (h : Usable ct U S) {d : Dm}
    (hv : d ∈ S.vars) (hk : d ∈ S.known) (n : Nat) : S.propagate n = none := by
  unfold VarNet.propagate
  rw [if_pos]
  rw [List.any_eq_true]
  refine ⟨d, hv, ?_⟩
  rw [Bool.and_eq_true, decide_eq_true_eq]
  refine ⟨hk, ?_⟩
  cases d with
  | cell c => simp [unassociated, h.2.1]
  | box cs => simp [unassociated, h.2.2]

/-! ### an example, and the domains that are not intermediate variables -/

/-- `x = y` as an IBEX contractor -/
def sameCtc : List (Itv ℚ) → List (Itv ℚ)
  | [a, b] => [a ⊓ b, a ⊓ b]
  | l => l

theorem sameCtc_ok : IsCtc (fun xs => ∃ x, xs = [x, x]) sameCtc := by
  constructor
  · intro b
    unfold sameCtc
    split
    · exact .cons inf_le_left (.cons inf_le_right .nil)
    · exact List.forall₂_same.mpr fun _ _ => le_rfl
  · rintro b xs ⟨x, rfl⟩ h
    cases h with
    | cons h1 h =>
      cases h with
      | cons h2 h =>
        cases h
        exact .cons (Itv.mem_inf.mpr ⟨h1, h2⟩) (.cons (Itv.mem_inf.mpr ⟨h1, h2⟩) .nil)

theorem sameCtc_mono (a b : List (Itv ℚ)) (h : List.Forall₂ (· ≤ ·) a b) : List.Forall₂ (· ≤ ·) (sameCtc a) (sameCtc b) := by
  cases h with
  | nil => exact .nil
  | cons h1 h =>
    cases h with
    | nil => exact .cons h1 .nil
    | cons h2 h =>
      cases h with
      | nil => exact .cons (inf_le_inf h1 h2) (.cons (inf_le_inf h1 h2) .nil)
      | cons h3 h => exact .cons h1 (.cons h2 (.cons h3 h))

/-- a variable of dimension 2 (domains 0 and 1), a domain 2, and the constraints `x[0] = z`, `x[1] = z` -/
def cnvCt : Nat ⊕ List Nat → ICtc ℚ
  | .inl 0 => .ibex [0, 2] sameCtc
  | .inl _ => .equality 1 2
  | .inr cs => .component cs

/-- the network; the third domain is an intermediate variable or not -/
def cnvNet (interm : List Dm) : VarNet (Nat ⊕ List Nat) ℚ :=
  (((emptyVarNet 0 (fun c => if c < 2 then ⊤ else Itv.icc 0 10) [.box [0, 1]] interm (fun _ => Itv.icc 0 10) Sum.inr).add
    (.inl 0) (cnvCt (.inl 0)) []).add (.inl 1) (cnvCt (.inl 1)) []).addBox [0, 1]

theorem cnvNet_usable (interm : List Dm) : Usable cnvCt (fun c => c < 3) (cnvNet interm) :=
  usable_add (usable_add (usable_add (usable_empty cnvCt _ _ _ _ _ _ _ fun _ => rfl) _ _
    (by simp [cnvCt, ICtc.cells])) _ _ (by simp [cnvCt, ICtc.cells])) (.inr [0, 1]) _ (by simp [cnvCt, ICtc.cells])

/-- so are the hypotheses of `C112_variables_each` for this network -/
theorem cnvNet_linked (interm : List Dm) : Linked cnvCt 0 (cnvNet interm) :=
  linked_add (linked_add (linked_add (linked_empty cnvCt (by norm_num) _ _ _ _ _ fun _ => rfl) (.inl 0) []) (.inl 1) []) (.inr [0, 1]) []

theorem cnvNet_solution (interm : List Dm) : NetSolution cnvCt (cnvNet interm) (fun _ => 1) := by
  intro c hc
  have : c = .inr [0, 1] ∨ c = .inl 1 ∨ c = .inl 0 := by
    have e : (cnvNet interm).N.all = [.inr [0, 1], .inl 1, .inl 0] := rfl
    rw [e] at hc; simpa using hc
  rcases this with rfl | rfl | rfl
  · trivial
  · rfl
  · exact ⟨_, sameCtc_ok, 1, rfl⟩

/-- the boxes of three calls: [5,6]×[0,9], [0,2]×[1,9] -/
def cnvFirst : List (Itv ℚ) := [Itv.icc 5 6, Itv.icc 0 9]
def cnvSecond : List (Itv ℚ) := [Itv.icc 0 2, Itv.icc 1 9]

/-- with an intermediate variable, the second call contracts [0,2]×[1,9] to [1,2]×[1,2], as it should -/
example : ((((cnvNet [.cell 2]).runCN [0, 1] [([10, 11], cnvFirst, 20)]).bind
    fun S => (S.ctcCN [0, 1] [12, 13] cnvSecond 20)).map Prod.snd) = some [Itv.icc 1 2, Itv.icc 1 2] := by
  decide +kernel

/-- a call with given variables -/
example : (((cnvNet []).write [10, 11] cnvSecond).contractWith [.box [0, 1] [10, 11]] 20).map (fun S => [10, 11, 2].map S.N.s.mem.heap) =
    some [Itv.icc 1 2, Itv.icc 1 2, Itv.icc 1 2] := by decide +kernel

example : CallerBox (fun c => c < 3) (cnvNet [.cell 2]) [12, 13] := ⟨by decide, by decide, by decide⟩
example : ∀ c, c < 3 → c ∈ [0, 1] ∨ c ∈ intermCells (cnvNet [.cell 2]).interm := by decide

/-- false for the other domains of the network: with the domain [0,10] given by value in place of an intermediate variable
(or a tube, as in the test of the class), the call with [5,6]×[0,9] contracts it to [5,6] and it stays so: the next call
with [0,2]×[1,9] loses the solution (1,1) -/
theorem C112_constant_fails :
    ∃ S1 S' : VarNet (Nat ⊕ List Nat) ℚ, ∃ X' : List (Itv ℚ),
      (cnvNet []).runCN [0, 1] [([10, 11], cnvFirst, 20)] = some S1 ∧
      S1.ctcCN [0, 1] [12, 13] cnvSecond 20 = some (S', X') ∧
      NetSolution cnvCt (cnvNet []) (fun _ => 1) ∧ BoxHas (fun _ => 1) [0, 1] cnvSecond ∧
      (1 : ℚ) ∈ (cnvNet []).N.s.mem.heap 2 ∧ ¬ BoxHas (fun _ => 1) [0, 1] X' := by
  have h : ((((cnvNet []).runCN [0, 1] [([10, 11], cnvFirst, 20)]).bind
      fun S => (S.ctcCN [0, 1] [12, 13] cnvSecond 20)).map fun r => r.2.head?) = some (some (⊥ : Itv ℚ)) := by decide +kernel
  obtain ⟨r, h1, h2⟩ := Option.map_eq_some_iff.mp h
  obtain ⟨S1, h3, h4⟩ := Option.bind_eq_some_iff.mp h1
  refine ⟨S1, r.1, r.2, h3, h4, cnvNet_solution [], ?_, ?_, ?_⟩
  · refine .cons ?_ (.cons ?_ .nil)
    · exact Itv.mem_icc.mpr ⟨by norm_num, by norm_num⟩
    · exact Itv.mem_icc.mpr ⟨by norm_num, by norm_num⟩
  · show (1 : ℚ) ∈ (if 2 < 2 then ⊤ else Itv.icc 0 10 : Itv ℚ)
    exact Itv.mem_icc.mpr ⟨by norm_num, by norm_num⟩
  · intro hb
    unfold BoxHas at hb
    cases hr : r.2 with
    | nil => rw [hr] at h2; cases h2
    | cons Y l =>
      rw [hr] at h2 hb
      have e : Y = ⊥ := by simpa using h2
      cases hb with
      | cons h5 _ => rw [e] at h5; exact Itv.not_mem_bot _ h5

end Codac.Props
