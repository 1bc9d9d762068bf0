import Verif.CN.Vars

set_option linter.unusedSectionVars false

/-! # Proofs on contractor networks with variables -/

namespace Codac.CN
open Codac

section
variable {K : Type*} [LinearOrder K]

/-- the values `v` satisfy the constraint of the contractor -/
def ICtc.HasSol (v : Nat → K) : ICtc K → Prop
  | .ibex cells f => ∃ R, IsCtc R f ∧ R (cells.map v)
  | .equality a b => v a = v b
  | .component _ => True

/-- the contractor only contracts -/
def ICtc.Contracts : ICtc K → Prop
  | .ibex _ f => ∀ b, List.Forall₂ (· ≤ ·) (f b) b
  | _ => True

theorem ICtc.apply_le' {k : ICtc K} (hk : k.Contracts) (m : Mem K) : k.apply m ≤ m := by
  cases k with
  | ibex cells f => exact ibexContract_le hk _ m
  | equality a b => exact equalityContract_le a b m
  | component cs => exact le_rfl

theorem ICtc.through_contracts {k : ICtc K} (hk : k.Contracts) (ρ : Nat → Nat) : (k.through ρ).Contracts := by
  cases k <;> exact hk

theorem ICtc.HasSol.contracts {v : Nat → K} {k : ICtc K} (hk : k.HasSol v) : k.Contracts := by
  cases k with
  | ibex cells f => obtain ⟨R, h, -⟩ := hk; exact h.sub
  | equality a b => trivial
  | component cs => trivial

theorem pApply_keeps {U : Nat → Prop} {ρ : Nat → Nat} (hρ : ∀ c c', U c → U c' → ρ c = ρ c' → c = c') {v : Nat → K}
    {k : ICtc K} (hk : k.HasSol v) (hc : ∀ a ∈ k.cells, U a) {p : PMem K} (hp : p.refC = ρ)
    (hv : ∀ c, U c → v c ∈ p.heap (ρ c)) : ∀ c, U c → v c ∈ (pApply k p).heap (ρ c) := by
  set req : Nat → K → Prop := fun a y => ∃ c, U c ∧ ρ c = a ∧ y = v c with hreq
  have he : Enc req p.heap := by
    rintro a y ⟨c, hc, rfl, rfl⟩
    exact hv c hc
  suffices Enc req (pApply k p).heap from fun c hc => this (ρ c) (v c) ⟨c, hc, rfl, rfl⟩
  unfold pApply
  rw [hp]
  cases k with
  | ibex cells f =>
    obtain ⟨R, hf, hR⟩ := hk
    refine ibexContract_enc hf ?_ ?_ he
    · intro l hl
      rw [List.mem_map] at hl
      obtain ⟨c, -, rfl⟩ := hl
      trivial
    · intro j _ i a y ha hy
      rw [List.map_map] at ha ⊢
      have e : (Leaf.cell (K := K) j ∘ Leaf.interval) = id := by funext c; rfl
      rw [e, List.map_id] at ha ⊢
      refine ⟨cells.map v, hR, ?_, ?_⟩
      · rw [List.forall₂_map_left_iff, List.forall₂_map_right_iff]
        exact List.forall₂_same.mpr fun c h => ⟨c, hc c h, rfl, rfl⟩
      · rw [List.getElem?_map] at ha ⊢
        cases h : cells[i]? with
        | none => rw [h] at ha; cases ha
        | some c0 =>
          rw [h] at ha
          obtain ⟨c, hU, h1, rfl⟩ := hy
          have h2 : ρ c0 = a := by simpa using ha
          have := hρ c0 c (hc c0 (List.mem_of_getElem? h)) hU (h2.trans h1.symm)
          subst this
          rfl
  | equality a b =>
    refine equalityContract_enc (fun y => ?_) he
    have hk : v a = v b := hk
    have ha : U a := hc a (by simp [ICtc.cells])
    have hb : U b := hc b (by simp [ICtc.cells])
    constructor
    · rintro ⟨c, hU, h1, rfl⟩
      have := hρ c a hU ha h1
      subst this
      exact ⟨b, hb, rfl, hk⟩
    · rintro ⟨c, hU, h1, rfl⟩
      have := hρ c b hU hb h1
      subst this
      exact ⟨a, ha, rfl, hk.symm⟩
  | component cs => exact he

end

section
variable {K : Type*} [Field K] [LinearOrder K] [IsStrictOrderedRing K] {C : Type*} [DecidableEq C]

/-- a network built with the contractors of `ct`, whose domains are in `U` -/
structure Ready (ct : C → ICtc K) (U : Nat → Prop) (S : VarNet C K) : Prop where
  inv : NetInv S.N
  apply : ∀ c ∈ S.N.all, S.N.G.apply c = pApply (ct c)
  kind : ∀ c ∈ S.N.all, S.N.G.kind c = (ct c).kind
  comp : ∀ cs, ct (S.comp cs) = .component cs
  cells : ∀ c ∈ S.N.all, ∀ a ∈ (ct c).cells, U a

/-- what stays the same: intermediate variables, contractors up to those of boxes -/
structure Same (ct : C → ICtc K) (S S' : VarNet C K) : Prop where
  init : S'.init = S.init
  interm : S'.interm = S.interm
  vars : S'.vars = S.vars
  comp : S'.comp = S.comp
  old : ∀ c ∈ S.N.all, c ∈ S'.N.all
  new : ∀ c ∈ S'.N.all, c ∈ S.N.all ∨ ∃ cs, ct c = .component cs

theorem Same.refl (ct : C → ICtc K) (S : VarNet C K) : Same ct S S :=
  ⟨rfl, rfl, rfl, rfl, fun _ h => h, fun _ h => Or.inl h⟩

theorem Same.trans {ct : C → ICtc K} {S S' S'' : VarNet C K} (h : Same ct S S') (h' : Same ct S' S'') : Same ct S S'' :=
  ⟨h'.init.trans h.init, h'.interm.trans h.interm, h'.vars.trans h.vars, h'.comp.trans h.comp,
    fun c hc => h'.old c (h.old c hc), fun c hc => by
      rcases h'.new c hc with e | e
      · exact h.new c e
      · exact Or.inr e⟩

theorem ready_add {ct : C → ICtc K} {U : Nat → Prop} {S : VarNet C K} (h : Ready ct U S) (c : C) (doms : List Dm)
    (hc : ∀ a ∈ (ct c).cells, U a) : Ready ct U (S.add c (ct c) doms) := by
  have hi := run_inv (some (-1) : Vol K) h.inv (Op.add c (ct c).doms (ct c).kind (pApply (ct c)))
  refine ⟨hi, ?_, ?_, h.comp, ?_⟩
  all_goals
    intro x hx
    simp only [VarNet.add, Op.run] at hx ⊢
    split_ifs at hx ⊢ with e
  · exact h.apply x hx
  · by_cases e' : x = c
    · subst e'; simp [addCtc]
    · simp only [addCtc, Function.update_of_ne e']
      rcases List.mem_cons.mp hx with e'' | e''
      · exact absurd e'' e'
      · exact h.apply x e''
  · exact h.kind x hx
  · by_cases e' : x = c
    · subst e'; simp [addCtc]
    · simp only [addCtc, Function.update_of_ne e']
      rcases List.mem_cons.mp hx with e'' | e''
      · exact absurd e'' e'
      · exact h.kind x e''
  · exact h.cells x hx
  · rcases List.mem_cons.mp hx with e'' | e''
    · subst e''; exact hc
    · exact h.cells x e''

theorem complete_spec {ct : C → ICtc K} {U : Nat → Prop} {S : VarNet C K} (h : Ready ct U S) (v : Assoc) :
    Ready ct U (S.complete v) ∧ Same ct S (S.complete v) ∧ (S.complete v).N.s.mem = S.N.s.mem ∧
      (∀ c ∈ S.N.s.queue, c ∈ (S.complete v).N.s.queue) := by
  cases v with
  | cell c a => exact ⟨h, Same.refl ct S, rfl, fun _ hc => hc⟩
  | box cs as =>
    by_cases e : Dm.box cs ∉ S.known ∧ cs.any (fun c => decide (Dm.cell c ∈ S.known)) = true
    · rw [show S.complete (.box cs as) = S.addBox cs from if_pos e]
      have hr := ready_add h (S.comp cs) [] (by rw [h.comp cs]; simp [ICtc.cells])
      rw [h.comp cs] at hr
      refine ⟨hr, ⟨rfl, rfl, rfl, rfl, ?_, ?_⟩, ?_, ?_⟩
      · intro c hc
        simp only [VarNet.addBox, VarNet.add, Op.run]
        split_ifs
        · exact hc
        · exact List.mem_cons_of_mem _ hc
      · intro c hc
        simp only [VarNet.addBox, VarNet.add, Op.run] at hc
        split_ifs at hc
        · exact Or.inl hc
        · rcases List.mem_cons.mp hc with e' | e'
          · subst e'; exact Or.inr ⟨cs, h.comp cs⟩
          · exact Or.inl e'
      · simp only [VarNet.addBox, VarNet.add, Op.run]
        split_ifs <;> rfl
      · intro c hc
        simp only [VarNet.addBox, VarNet.add, Op.run]
        split_ifs
        · exact hc
        · simp only [enqueueNew]
          rw [mem_addToQueue]; exact Or.inr hc
    · rw [show S.complete (.box cs as) = S from if_neg e]
      exact ⟨h, Same.refl ct S, rfl, fun _ hc => hc⟩

theorem foldl_triggerOne_queue (G : Graph Dm C (PMem K) (Vol K)) (avoid : Option C) (ds : List Dm)
    (s : State Dm C (PMem K) (Vol K)) : ∀ c ∈ s.queue, c ∈ (ds.foldl (triggerOne G avoid) s).queue := by
  induction ds generalizing s with
  | nil => exact fun _ h => h
  | cons d ds ih =>
    intro c hc
    rw [List.foldl_cons]
    refine ih _ c ?_
    rw [(triggerOne_spec G avoid s d).2.2.2.1 c]
    exact Or.inl hc

theorem replaceCell_spec {all : List C} {G : Graph Dm C (PMem K) (Vol K)} {s : State Dm C (PMem K) (Vol K)}
    (h : QInv all G s) (p : Nat × Nat) :
    QInv all G (replaceCell G s p) ∧
      (replaceCell G s p).mem = { s.mem with refC := Function.update s.mem.refC p.1 p.2 } ∧
      (∀ c ∈ s.queue, c ∈ (replaceCell G s p).queue) := by
  unfold replaceCell trigger
  refine ⟨foldl_triggerOne_qinv none _ ⟨h.nodup, h.known, h.act, h.que, h.ctcs⟩, ?_, ?_⟩
  · rw [foldl_triggerOne_mem]
  · intro c hc; exact foldl_triggerOne_queue G none _ _ c hc

theorem replaceBox_spec {all : List C} {G : Graph Dm C (PMem K) (Vol K)} {s : State Dm C (PMem K) (Vol K)}
    (h : QInv all G s) (cs as : List Nat) :
    QInv all G (replaceBox G s cs as) ∧
      (replaceBox G s cs as).mem = { s.mem with refB := Function.update s.mem.refB cs as } ∧
      (∀ c ∈ s.queue, c ∈ (replaceBox G s cs as).queue) := by
  unfold replaceBox trigger
  refine ⟨foldl_triggerOne_qinv none _ ⟨h.nodup, h.known, h.act, h.que, h.ctcs⟩, ?_, ?_⟩
  · rw [foldl_triggerOne_mem]
  · intro c hc; exact foldl_triggerOne_queue G none _ _ c hc

/-- the references after the replacement of variables -/
def setRefs (ρ : Nat → Nat) (ps : List (Nat × Nat)) : Nat → Nat :=
  ps.foldl (fun ρ p => Function.update ρ p.1 p.2) ρ

def Assoc.setB (σ : List Nat → List Nat) : Assoc → List Nat → List Nat
  | .cell _ _ => σ
  | .box cs as => Function.update σ cs as

theorem foldl_replaceCell_spec {all : List C} {G : Graph Dm C (PMem K) (Vol K)} (ps : List (Nat × Nat))
    {s : State Dm C (PMem K) (Vol K)} (h : QInv all G s) :
    QInv all G (ps.foldl (replaceCell G) s) ∧
      (ps.foldl (replaceCell G) s).mem = { s.mem with refC := setRefs s.mem.refC ps } ∧
      (∀ c ∈ s.queue, c ∈ (ps.foldl (replaceCell G) s).queue) := by
  induction ps generalizing s with
  | nil => exact ⟨h, rfl, fun _ h => h⟩
  | cons p ps ih =>
    obtain ⟨h1, h2, h3⟩ := replaceCell_spec h p
    obtain ⟨h4, h5, h6⟩ := ih h1
    refine ⟨h4, ?_, fun c hc => h6 c (h3 c hc)⟩
    rw [List.foldl_cons, h5, h2]
    rfl

theorem apply_spec {all : List C} {G : Graph Dm C (PMem K) (Vol K)} {s : State Dm C (PMem K) (Vol K)}
    (h : QInv all G s) (v : Assoc) :
    QInv all G (v.apply G s) ∧
      (v.apply G s).mem = { heap := s.mem.heap, refC := setRefs s.mem.refC v.pairs, refB := v.setB s.mem.refB } ∧
      (∀ c ∈ s.queue, c ∈ (v.apply G s).queue) := by
  cases v with
  | cell c a => exact replaceCell_spec h (c, a)
  | box cs as =>
    obtain ⟨h1, h2, h3⟩ := replaceBox_spec h cs as
    obtain ⟨h4, h5, h6⟩ := foldl_replaceCell_spec (cs.zip as) h1
    refine ⟨h4, ?_, fun c hc => h6 c (h3 c hc)⟩
    show (List.foldl (replaceCell G) (replaceBox G s cs as) (cs.zip as)).mem = _
    rw [h5, h2]
    rfl

theorem replace_spec {ct : C → ICtc K} {U : Nat → Prop} {S S' : VarNet C K} (h : Ready ct U S) {v : Assoc}
    (e : S.replace v = some S') :
    Ready ct U S' ∧ Same ct S S' ∧ S'.N.s.mem.heap = S.N.s.mem.heap ∧
      S'.N.s.mem.refC = setRefs S.N.s.mem.refC v.pairs ∧ S'.N.s.mem.refB = v.setB S.N.s.mem.refB ∧
      (∀ c ∈ S.N.s.queue, c ∈ S'.N.s.queue) := by
  obtain ⟨h1, h2, h3, h4⟩ := complete_spec h v
  unfold VarNet.replace at e
  dsimp only at e
  split_ifs at e with hc
  cases e
  obtain ⟨h5, h6, h7⟩ := apply_spec h1.inv.q v
  refine ⟨⟨⟨h5, h1.inv.all⟩, h1.apply, h1.kind, h1.comp, h1.cells⟩, ⟨h2.init, h2.interm, h2.vars, h2.comp, h2.old, h2.new⟩,
    ?_, ?_, ?_, fun c hc => h7 c (h4 c hc)⟩
  · show (Assoc.apply _ _ v).mem.heap = _
    rw [h6, h3]
  · show (Assoc.apply _ _ v).mem.refC = _
    rw [h6, h3]
  · show (Assoc.apply _ _ v).mem.refB = _
    rw [h6, h3]

theorem setRefs_append (ρ : Nat → Nat) (l l' : List (Nat × Nat)) : setRefs ρ (l ++ l') = setRefs (setRefs ρ l) l' := by
  unfold setRefs; rw [List.foldl_append]

theorem replaceAll_spec {ct : C → ICtc K} {U : Nat → Prop} (vs : List Assoc) {S S' : VarNet C K} (h : Ready ct U S)
    (e : S.replaceAll vs = some S') :
    Ready ct U S' ∧ Same ct S S' ∧ S'.N.s.mem.heap = S.N.s.mem.heap ∧
      S'.N.s.mem.refC = setRefs S.N.s.mem.refC (vs.flatMap Assoc.pairs) ∧
      S'.N.s.mem.refB = vs.foldl Assoc.setB S.N.s.mem.refB ∧
      (∀ c ∈ S.N.s.queue, c ∈ S'.N.s.queue) := by
  induction vs generalizing S with
  | nil =>
    have e : some S = some S' := e
    cases e
    exact ⟨h, Same.refl ct _, rfl, rfl, rfl, fun _ h => h⟩
  | cons v vs ih =>
    have e : (S.replace v).bind (fun S' => S'.replaceAll vs) = some S' := e
    obtain ⟨S1, h1, h2⟩ := Option.bind_eq_some_iff.mp e
    obtain ⟨a1, a2, a3, a4, a5, a6⟩ := replace_spec h h1
    obtain ⟨b1, b2, b3, b4, b5, b6⟩ := ih a1 h2
    refine ⟨b1, a2.trans b2, b3.trans a3, ?_, ?_, fun c hc => b6 c (a6 c hc)⟩
    · rw [b4, a4, List.flatMap_cons, setRefs_append]
    · rw [b5, a5]; rfl

/-! ### the references go back -/

theorem setRefs_of_not_mem {ρ : Nat → Nat} {ps : List (Nat × Nat)} {c : Nat} (h : c ∉ ps.map Prod.fst) :
    setRefs ρ ps c = ρ c := by
  induction ps generalizing ρ with
  | nil => rfl
  | cons p ps ih =>
    rw [List.map_cons, List.mem_cons, not_or] at h
    show setRefs (Function.update ρ p.1 p.2) ps c = ρ c
    rw [ih h.2, Function.update_of_ne h.1]

theorem setRefs_mem {ρ : Nat → Nat} {ps : List (Nat × Nat)} {c : Nat} (h : c ∈ ps.map Prod.fst) :
    ∃ p ∈ ps, p.1 = c ∧ setRefs ρ ps c = p.2 := by
  induction ps generalizing ρ with
  | nil => cases h
  | cons p ps ih =>
    by_cases e : c ∈ ps.map Prod.fst
    · obtain ⟨q, h1, h2, h3⟩ := ih (ρ := Function.update ρ p.1 p.2) e
      exact ⟨q, List.mem_cons_of_mem _ h1, h2, h3⟩
    · rw [List.map_cons, List.mem_cons] at h
      rcases h with h | h
      · refine ⟨p, by simp, h.symm, ?_⟩
        show setRefs (Function.update ρ p.1 p.2) ps c = p.2
        rw [setRefs_of_not_mem e, h, Function.update_self]
      · exact absurd h e

theorem mem_back_pairs {v : Assoc} {p : Nat × Nat} (h : p ∈ v.back.pairs) : p.2 = p.1 := by
  cases v with
  | cell c a => simp [Assoc.back, Assoc.pairs] at h; rw [h]
  | box cs as =>
    simp only [Assoc.back, Assoc.pairs] at h
    obtain ⟨i, hi⟩ := List.mem_iff_getElem?.mp h
    rw [List.getElem?_zip_eq_some] at hi
    exact Option.some.inj (hi.2.symm.trans hi.1)

theorem fst_back {v : Assoc} {c : Nat} (h : c ∈ v.pairs.map Prod.fst) : c ∈ v.back.pairs.map Prod.fst := by
  cases v with
  | cell c a => exact h
  | box cs as =>
    simp only [Assoc.back, Assoc.pairs] at h ⊢
    obtain ⟨p, hp, rfl⟩ := List.mem_map.mp h
    rw [List.map_fst_zip le_rfl]
    exact (List.of_mem_zip hp).1

theorem refs_back (vs : List Assoc) :
    setRefs (setRefs id (vs.flatMap Assoc.pairs)) ((vs.map Assoc.back).flatMap Assoc.pairs) = id := by
  funext c
  by_cases h : c ∈ ((vs.map Assoc.back).flatMap Assoc.pairs).map Prod.fst
  · obtain ⟨p, h1, h2, h3⟩ := setRefs_mem (ρ := setRefs id (vs.flatMap Assoc.pairs)) h
    rw [h3]
    rw [List.mem_flatMap] at h1
    obtain ⟨w, hw, hp⟩ := h1
    obtain ⟨v, -, rfl⟩ := List.mem_map.mp hw
    rw [mem_back_pairs hp, h2]; rfl
  · rw [setRefs_of_not_mem h]
    apply setRefs_of_not_mem
    intro h'
    apply h
    obtain ⟨p, hp, rfl⟩ := List.mem_map.mp h'
    rw [List.mem_flatMap] at hp
    obtain ⟨v, hv, hp⟩ := hp
    have := fst_back (v := v) (List.mem_map.mpr ⟨p, hp, rfl⟩)
    obtain ⟨q, hq, e⟩ := List.mem_map.mp this
    exact List.mem_map.mpr ⟨q, List.mem_flatMap.mpr ⟨v.back, List.mem_map.mpr ⟨v, hv, rfl⟩, hq⟩, e⟩

theorem foldl_setB_own (vs : List Assoc) (σ : List Nat → List Nat) (cs : List Nat) :
    (vs.foldl Assoc.setB σ cs = σ cs ∧ ∀ v ∈ vs, ∀ as, v ≠ .box cs as) ∨ ∃ v ∈ vs, ∃ as, v = .box cs as ∧
      vs.foldl Assoc.setB σ cs = as := by
  induction vs generalizing σ with
  | nil => exact Or.inl ⟨rfl, fun _ h => by cases h⟩
  | cons v vs ih =>
    rw [List.foldl_cons]
    rcases ih (v.setB σ) with ⟨h1, h2⟩ | ⟨w, hw, as, h1, h2⟩
    · cases v with
      | cell c a =>
        refine Or.inl ⟨h1, ?_⟩
        intro w hw as e
        rcases List.mem_cons.mp hw with rfl | hw
        · cases e
        · exact h2 w hw as e
      | box cs' as' =>
        by_cases e : cs = cs'
        · subst e
          refine Or.inr ⟨_, List.mem_cons_self, as', rfl, ?_⟩
          rw [h1]; simp [Assoc.setB]
        · refine Or.inl ⟨?_, ?_⟩
          · rw [h1]; simp [Assoc.setB, Function.update_of_ne e]
          · intro w hw as e'
            rcases List.mem_cons.mp hw with rfl | hw
            · cases e'; exact e rfl
            · exact h2 w hw as e'
    · exact Or.inr ⟨w, List.mem_cons_of_mem _ hw, as, h1, h2⟩

theorem boxes_back (vs : List Assoc) :
    (vs.map Assoc.back).foldl Assoc.setB (vs.foldl Assoc.setB id) = id := by
  funext cs
  rcases foldl_setB_own (vs.map Assoc.back) (vs.foldl Assoc.setB id) cs with ⟨h1, h2⟩ | ⟨v, hv, as, h1, h2⟩
  · rw [h1]
    rcases foldl_setB_own vs id cs with ⟨h3, -⟩ | ⟨v, hv, as, h3, -⟩
    · rw [h3]
    · exact absurd (by rw [h3]; rfl) (h2 v.back (List.mem_map.mpr ⟨v, hv, rfl⟩) cs)
  · rw [h2]
    obtain ⟨w, -, rfl⟩ := List.mem_map.mp hv
    cases w with
    | cell c a => cases h1
    | box cs' as' =>
      simp only [Assoc.back, Assoc.box.injEq] at h1
      rw [← h1.2, ← h1.1]; rfl

/-! ### the propagation -/

theorem propagate_spec {ct : C → ICtc K} {U : Nat → Prop} {S S' : VarNet C K} (h : Ready ct U S) {n : Nat}
    (e : S.propagate n = some S') :
    S' = { S with N := { S.N with s := contract S.N.G n S.N.s } } ∧ (contract S.N.G n S.N.s).queue = [] ∧ Ready ct U S' := by
  unfold VarNet.propagate at e
  dsimp only at e
  split_ifs at e with h1 h2
  cases e
  refine ⟨rfl, h2, ⟨?_, h.apply, h.kind, h.comp, h.cells⟩⟩
  exact run_inv (some (-1) : Vol K) h.inv (Op.contract n)

theorem refresh_qinv {all : List C} {G : Graph Dm C (PMem K) (Vol K)} {s : State Dm C (PMem K) (Vol K)}
    (h : QInv all G s) : QInv all G (refresh G s) := ⟨h.nodup, h.known, h.act, h.que, h.ctcs⟩

theorem contract_refs {ct : C → ICtc K} {U : Nat → Prop} {S : VarNet C K} (h : Ready ct U S) (n : Nat) :
    (contract S.N.G n S.N.s).mem.refC = S.N.s.mem.refC ∧ (contract S.N.G n S.N.s).mem.refB = S.N.s.mem.refB := by
  refine steps_mem (P := fun p : PMem K => p.refC = S.N.s.mem.refC ∧ p.refB = S.N.s.mem.refB) (all := S.N.all) ?_ n
    (refresh_qinv h.inv.q) ⟨rfl, rfl⟩
  intro c hc m hm
  rw [h.apply c hc]
  exact hm

theorem contract_le {ct : C → ICtc K} {U : Nat → Prop} {S : VarNet C K} (h : Ready ct U S)
    (hct : ∀ c ∈ S.N.all, (ct c).Contracts) (n : Nat) : (contract S.N.G n S.N.s).mem.heap ≤ S.N.s.mem.heap := by
  refine steps_mem (P := fun p : PMem K => p.heap ≤ S.N.s.mem.heap) (all := S.N.all) ?_ n (refresh_qinv h.inv.q) le_rfl
  intro c hc m hm
  rw [h.apply c hc]
  exact le_trans (ICtc.apply_le' (ICtc.through_contracts (hct c hc) _) _) hm

theorem contract_keeps {ct : C → ICtc K} {U : Nat → Prop} {S : VarNet C K} (h : Ready ct U S) {ρ : Nat → Nat}
    (hρ : S.N.s.mem.refC = ρ) (hinj : ∀ c c', U c → U c' → ρ c = ρ c' → c = c') {v : Nat → K}
    (hsol : ∀ c ∈ S.N.all, (ct c).HasSol v) (hv : ∀ c, U c → v c ∈ S.N.s.mem.heap (ρ c)) (n : Nat) :
    ∀ c, U c → v c ∈ (contract S.N.G n S.N.s).mem.heap (ρ c) := by
  refine (steps_mem (P := fun p : PMem K => p.refC = ρ ∧ ∀ c, U c → v c ∈ p.heap (ρ c)) (all := S.N.all) ?_ n
    (refresh_qinv h.inv.q) ⟨hρ, hv⟩).2
  intro c hc m hm
  rw [h.apply c hc]
  exact ⟨hm.1, pApply_keeps hinj (hsol c hc) (h.cells c hc) hm.1 hm.2⟩

/-- a contractor of the queue has been called when the queue is empty -/
theorem steps_each {all : List C} {G : Graph Dm C (PMem K) (Vol K)}
    (hle : ∀ c ∈ all, ∀ p, (G.apply c p).heap ≤ p.heap ∧ (G.apply c p).refC = p.refC) {c : C} (n : Nat)
    {s : State Dm C (PMem K) (Vol K)} (hq : QInv all G s) (hc : c ∈ s.queue) (he : (steps G n s).queue = []) :
    ∃ p : PMem K, p.heap ≤ s.mem.heap ∧ p.refC = s.mem.refC ∧ (steps G n s).mem.heap ≤ (G.apply c p).heap := by
  induction n generalizing s with
  | zero => rw [show (steps G 0 s) = s from rfl] at he; rw [he] at hc; cases hc
  | succ n ih =>
    have hq' := step_qinv hq
    have hrest : ∀ s' : State Dm C (PMem K) (Vol K), QInv all G s' → ∀ p0 : PMem K, s'.mem.heap ≤ p0.heap →
        (steps G n s').mem.heap ≤ p0.heap := by
      intro s' hs' p0 hp0
      refine steps_mem (P := fun p : PMem K => p.heap ≤ p0.heap) (all := all) ?_ n hs' hp0
      intro c hc m hm
      exact le_trans (hle c hc m).1 hm
    have e : steps G (n + 1) s = steps G n (step G s) := rfl
    rw [e] at he ⊢
    cases hs : s.queue with
    | nil => rw [hs] at hc; cases hc
    | cons c0 q =>
      have hstep : (step G s).mem = G.apply c0 s.mem ∧ ∀ x ∈ q, x ∈ (step G s).queue := by
        unfold step
        rw [hs]
        dsimp only
        split_ifs
        · exact ⟨rfl, fun x hx => hx⟩
        · rw [foldl_trigger_eq]
          exact ⟨by rw [foldl_triggerOne_mem], fun x hx => foldl_triggerOne_queue G _ _ _ x hx⟩
      have hc0 : c0 ∈ all := hq.known c0 (by rw [hs]; simp)
      rw [hs] at hc
      rcases List.mem_cons.mp hc with rfl | hc
      · exact ⟨s.mem, le_rfl, rfl, hrest _ hq' _ (by rw [hstep.1])⟩
      · obtain ⟨p, h1, h2, h3⟩ := ih hq' (hstep.2 c hc) he
        rw [hstep.1] at h1 h2
        exact ⟨p, le_trans h1 (hle c0 hc0 _).1, h2.trans (hle c0 hc0 _).2, h3⟩

/-! ### `contract` with variables -/

/-- the places the domains refer to during `contract(var_dom)` -/
def placesOf (vs : List Assoc) : Nat → Nat := setRefs id (vs.flatMap Assoc.pairs)

theorem contractWith_parts {ct : C → ICtc K} {U : Nat → Prop} {S S' : VarNet C K} (h : Ready ct U S)
    (hC : S.N.s.mem.refC = id) (hB : S.N.s.mem.refB = id) {vs : List Assoc} {n : Nat}
    (e : S.contractWith vs n = some S') :
    Ready ct U S' ∧ Same ct S S' ∧ S'.N.s.mem.refC = id ∧ S'.N.s.mem.refB = id ∧
    ∃ S1, Ready ct U S1 ∧ Same ct S S1 ∧ S1.N.s.mem.heap = S.N.s.mem.heap ∧ S1.N.s.mem.refC = placesOf vs ∧
      (∀ c ∈ S.N.s.queue, c ∈ S1.N.s.queue) ∧ (contract S1.N.G n S1.N.s).queue = [] ∧
      S'.N.s.mem.heap = (contract S1.N.G n S1.N.s).mem.heap := by
  unfold VarNet.contractWith at e
  obtain ⟨S1, h1, e⟩ := Option.bind_eq_some_iff.mp e
  obtain ⟨S2, h2, e⟩ := Option.bind_eq_some_iff.mp e
  obtain ⟨a1, a2, a3, a4, a5, a6⟩ := replaceAll_spec vs h h1
  obtain ⟨b1, b2, b3⟩ := propagate_spec a1 h2
  obtain ⟨c1, c2, c3, c4, c5, c6⟩ := replaceAll_spec _ b3 e
  have hr := contract_refs a1 n
  have s12 : Same ct S1 S2 := by rw [b1]; exact ⟨rfl, rfl, rfl, rfl, fun _ h => h, fun _ h => Or.inl h⟩
  refine ⟨c1, (a2.trans s12).trans c2, ?_, ?_, S1, a1, a2, a3, ?_, a6, b2, ?_⟩
  · rw [c4]
    have : S2.N.s.mem.refC = setRefs id (vs.flatMap Assoc.pairs) := by
      rw [b1]; show (contract S1.N.G n S1.N.s).mem.refC = _
      rw [hr.1, a4, hC]
    rw [this]; exact refs_back vs
  · rw [c5]
    have : S2.N.s.mem.refB = vs.foldl Assoc.setB id := by
      rw [b1]; show (contract S1.N.G n S1.N.s).mem.refB = _
      rw [hr.2, a5, hB]
    rw [this]; exact boxes_back vs
  · rw [a4, hC]; rfl
  · rw [c3, b1]

theorem Same.contracts {ct : C → ICtc K} {S S' : VarNet C K} (h : Same ct S S') (hc : ∀ c ∈ S.N.all, (ct c).Contracts) :
    ∀ c ∈ S'.N.all, (ct c).Contracts := by
  intro c hc'
  rcases h.new c hc' with e | ⟨cs, e⟩
  · exact hc c e
  · rw [e]; trivial

theorem Same.sol {ct : C → ICtc K} {S S' : VarNet C K} (h : Same ct S S') {v : Nat → K}
    (hc : ∀ c ∈ S.N.all, (ct c).HasSol v) : ∀ c ∈ S'.N.all, (ct c).HasSol v := by
  intro c hc'
  rcases h.new c hc' with e | ⟨cs, e⟩
  · exact hc c e
  · rw [e]; trivial

theorem contractWith_le {ct : C → ICtc K} {U : Nat → Prop} {S S' : VarNet C K} (h : Ready ct U S)
    (hC : S.N.s.mem.refC = id) (hB : S.N.s.mem.refB = id) {vs : List Assoc} {n : Nat}
    (e : S.contractWith vs n = some S') (hct : ∀ c ∈ S.N.all, (ct c).Contracts) :
    S'.N.s.mem.heap ≤ S.N.s.mem.heap := by
  obtain ⟨-, -, -, -, S1, h1, h2, h3, -, -, -, h7⟩ := contractWith_parts h hC hB e
  rw [h7, ← h3]
  exact contract_le h1 (h2.contracts hct) n

theorem contractWith_keeps {ct : C → ICtc K} {U : Nat → Prop} {S S' : VarNet C K} (h : Ready ct U S)
    (hC : S.N.s.mem.refC = id) (hB : S.N.s.mem.refB = id) {vs : List Assoc} {n : Nat}
    (e : S.contractWith vs n = some S')
    (hinj : ∀ c c', U c → U c' → placesOf vs c = placesOf vs c' → c = c') {v : Nat → K}
    (hsol : ∀ c ∈ S.N.all, (ct c).HasSol v) (hv : ∀ c, U c → v c ∈ S.N.s.mem.heap (placesOf vs c)) :
    ∀ c, U c → v c ∈ S'.N.s.mem.heap (placesOf vs c) := by
  obtain ⟨-, -, -, -, S1, h1, h2, h3, h4, -, -, h7⟩ := contractWith_parts h hC hB e
  rw [h7]
  exact contract_keeps h1 h4 hinj (h2.sol hsol) (by rw [h3]; exact hv) n

/-! ### intermediate variables -/

/-- the intervals of the intermediate variables -/
def intermCells (ds : List Dm) : List Nat :=
  ds.flatMap fun d => match d with | .cell c => [c] | .box cs => cs

theorem writeCells_of_not_mem {ps : List (Nat × Itv K)} {m : Mem K} {c : Nat} (h : c ∉ ps.map Prod.fst) :
    writeCells ps m c = m c := by
  induction ps generalizing m with
  | nil => rfl
  | cons p ps ih =>
    rw [List.map_cons, List.mem_cons, not_or] at h
    show writeCells ps (Function.update m p.1 p.2) c = m c
    rw [ih h.2, Function.update_of_ne h.1]

theorem writeCells_mem {ps : List (Nat × Itv K)} {m : Mem K} {c : Nat} (h : c ∈ ps.map Prod.fst) :
    ∃ p ∈ ps, p.1 = c ∧ writeCells ps m c = p.2 := by
  induction ps generalizing m with
  | nil => cases h
  | cons p ps ih =>
    by_cases e : c ∈ ps.map Prod.fst
    · obtain ⟨q, h1, h2, h3⟩ := ih (m := Function.update m p.1 p.2) e
      exact ⟨q, List.mem_cons_of_mem _ h1, h2, h3⟩
    · rw [List.map_cons, List.mem_cons] at h
      rcases h with h | h
      · refine ⟨p, by simp, h.symm, ?_⟩
        show writeCells ps (Function.update m p.1 p.2) c = p.2
        rw [writeCells_of_not_mem e, h, Function.update_self]
      · exact absurd h e

/-- values written in distinct places -/
theorem writeCells_map {xs : List Nat} (hn : xs.Nodup) {X : List (Itv K)} (hX : X.length = xs.length) (m : Mem K) :
    xs.map (writeCells (xs.zip X) m) = X := by
  induction xs generalizing X m with
  | nil => simp at hX; simp [hX]
  | cons x xs ih =>
    cases X with
    | nil => simp at hX
    | cons Y X =>
      rw [List.nodup_cons] at hn
      simp only [List.length_cons, Nat.add_right_cancel_iff] at hX
      rw [List.map_cons]
      show writeCells (xs.zip X) (Function.update m x Y) x :: xs.map (writeCells (xs.zip X) (Function.update m x Y)) = _
      rw [ih hn.2 hX, writeCells_of_not_mem (by rw [List.map_fst_zip (by omega)]; exact hn.1), Function.update_self]

/-- one reset, the references being those of the domains themselves -/
theorem resetValue_spec (init : Nat → Itv K) (d : Dm) {p : PMem K} (hC : p.refC = id) (hB : p.refB = id) :
    (resetValue init d p).refC = id ∧ (resetValue init d p).refB = id ∧
      ∀ c, (resetValue init d p).heap c = if c ∈ intermCells [d] then init c else p.heap c := by
  cases d with
  | cell a =>
    refine ⟨hC, hB, fun c => ?_⟩
    simp only [resetValue, hC, id, intermCells, List.flatMap_cons, List.flatMap_nil, List.append_nil, List.mem_singleton]
    by_cases e : c = a
    · subst e; simp
    · simp [e]
  | box cs =>
    refine ⟨hC, hB, fun c => ?_⟩
    simp only [resetValue, hB, id, intermCells, List.flatMap_cons, List.flatMap_nil, List.append_nil]
    have hf : (cs.zip (cs.map init)).map Prod.fst = cs := List.map_fst_zip (by simp)
    by_cases e : c ∈ cs
    · rw [if_pos e]
      obtain ⟨q, h1, h2, h3⟩ := writeCells_mem (m := p.heap) (ps := cs.zip (cs.map init)) (c := c) (by rw [hf]; exact e)
      rw [h3]
      obtain ⟨i, hi⟩ := List.mem_iff_getElem?.mp h1
      rw [List.getElem?_zip_eq_some, List.getElem?_map] at hi
      have : some (init q.1) = some q.2 := by
        have := hi.2; rw [hi.1] at this; exact this
      rw [← h2]; exact (Option.some.inj this).symm
    · rw [if_neg e]
      exact writeCells_of_not_mem (by rw [hf]; exact e)

theorem resetInterm_spec {ct : C → ICtc K} {U : Nat → Prop} {S : VarNet C K} (h : Ready ct U S)
    (hC : S.N.s.mem.refC = id) (hB : S.N.s.mem.refB = id) :
    Ready ct U S.resetInterm ∧ Same ct S S.resetInterm ∧ S.resetInterm.N.s.mem.refC = id ∧
      S.resetInterm.N.s.mem.refB = id ∧
      (∀ c, S.resetInterm.N.s.mem.heap c = if c ∈ intermCells S.interm then S.init c else S.N.s.mem.heap c) ∧
      ∀ c ∈ S.N.all, (ct c).kind = .contracting → c ∈ S.resetInterm.N.s.queue := by
  have hr : Ready ct U S.resetInterm :=
    ⟨run_inv (some (-1) : Vol K) h.inv (Op.reset S.interm (resetValue S.init)), h.apply, h.kind, h.comp, h.cells⟩
  have hs : Same ct S S.resetInterm := ⟨rfl, rfl, rfl, rfl, fun _ h => h, fun _ h => Or.inl h⟩
  have key : ∀ (ds : List Dm) (s : State Dm C (PMem K) (Vol K)), s.mem.refC = id → s.mem.refB = id →
      let s' := ds.foldl (fun s d => trigger S.N.G none
        { s with mem := resetValue S.init d s.mem, saved := Function.update s.saved d (some (-1)) } d) s
      s'.mem.refC = id ∧ s'.mem.refB = id ∧
        ∀ c, s'.mem.heap c = if c ∈ intermCells ds then S.init c else s.mem.heap c := by
    intro ds
    induction ds with
    | nil => intro s h1 h2; exact ⟨h1, h2, fun c => by simp [intermCells]⟩
    | cons d ds ih =>
      intro s h1 h2
      obtain ⟨r1, r2, r3⟩ := resetValue_spec S.init d h1 h2
      set s1 : State Dm C (PMem K) (Vol K) := trigger S.N.G none
        { s with mem := resetValue S.init d s.mem, saved := Function.update s.saved d (some (-1)) } d with hs1
      have e1 : s1.mem = resetValue S.init d s.mem := by
        rw [hs1]; unfold trigger; rw [foldl_triggerOne_mem]
      obtain ⟨i1, i2, i3⟩ := ih s1 (by rw [e1]; exact r1) (by rw [e1]; exact r2)
      refine ⟨i1, i2, fun c => ?_⟩
      have := i3 c
      rw [List.foldl_cons]
      rw [← hs1, this, e1, r3 c]
      have hm : c ∈ intermCells (d :: ds) ↔ c ∈ intermCells [d] ∨ c ∈ intermCells ds := by
        simp only [intermCells, List.flatMap_cons, List.flatMap_nil, List.append_nil, List.mem_append]
      by_cases e2 : c ∈ intermCells ds
      · rw [if_pos e2, if_pos (hm.mpr (Or.inr e2))]
      · rw [if_neg e2]
        by_cases e3 : c ∈ intermCells [d]
        · rw [if_pos e3, if_pos (hm.mpr (Or.inl e3))]
        · rw [if_neg e3, if_neg (fun h => (hm.mp h).elim e3 e2)]
  obtain ⟨k1, k2, k3⟩ := key S.interm S.N.s hC hB
  refine ⟨hr, hs, k1, k2, k3, ?_⟩
  intro c hc hk
  show c ∈ (triggerAll S.N.G S.N.all _).queue
  unfold triggerAll
  show c ∈ List.foldl _ _ _
  rw [mem_foldl_addToQueue]
  refine Or.inl ?_
  rw [List.mem_filter, decide_eq_true_eq, h.kind c hc]
  exact ⟨hc, hk⟩

/-! ### `CtcCN` -/

theorem setRefs_zip {cs xs : List Nat} (hn : cs.Nodup) (hl : xs.length = cs.length) :
    cs.map (setRefs id (cs.zip xs)) = xs := by
  suffices ∀ ρ : Nat → Nat, cs.map (setRefs ρ (cs.zip xs)) = xs from this id
  induction cs generalizing xs with
  | nil => simp at hl; simp [hl]
  | cons c cs ih =>
    intro ρ
    cases xs with
    | nil => simp at hl
    | cons x xs =>
      rw [List.nodup_cons] at hn
      simp only [List.length_cons, Nat.add_right_cancel_iff] at hl
      rw [List.map_cons]
      show setRefs (Function.update ρ c x) (cs.zip xs) c :: cs.map (setRefs (Function.update ρ c x) (cs.zip xs)) = _
      rw [ih hn.2 hl, setRefs_of_not_mem (by rw [List.map_fst_zip (by omega)]; exact hn.1), Function.update_self]

theorem places_box (cs xs : List Nat) : placesOf [.box cs xs] = setRefs id (cs.zip xs) := by
  unfold placesOf; simp [Assoc.pairs]

theorem places_inj {U : Nat → Prop} {cs xs : List Nat} (hn : cs.Nodup) (hx : xs.Nodup) (hl : xs.length = cs.length)
    (hU : ∀ a ∈ xs, ¬ U a) : ∀ c c', U c → U c' → placesOf [.box cs xs] c = placesOf [.box cs xs] c' → c = c' := by
  rw [places_box]
  have hf : (cs.zip xs).map Prod.fst = cs := List.map_fst_zip (by omega)
  have hin : ∀ c ∈ cs, setRefs id (cs.zip xs) c ∈ xs := by
    intro c hc
    have : setRefs id (cs.zip xs) c ∈ cs.map (setRefs id (cs.zip xs)) := List.mem_map.mpr ⟨c, hc, rfl⟩
    rwa [setRefs_zip hn hl] at this
  have hout : ∀ c, c ∉ cs → setRefs id (cs.zip xs) c = c := fun c hc => setRefs_of_not_mem (by rw [hf]; exact hc)
  intro c c' h h' e
  by_cases a : c ∈ cs
  · by_cases b : c' ∈ cs
    · have hm : (cs.map (setRefs id (cs.zip xs))).Nodup := by rw [setRefs_zip hn hl]; exact hx
      exact List.inj_on_of_nodup_map hm a b e
    · rw [hout c' b] at e
      exact absurd h' (e ▸ hU _ (hin c a))
  · rw [hout c a] at e
    by_cases b : c' ∈ cs
    · exact absurd h (e ▸ hU _ (hin c' b))
    · rw [hout c' b] at e; exact e

/-- the parts of a call to `CtcCN::contract` -/
theorem ctcCN_parts {ct : C → ICtc K} {U : Nat → Prop} {S S' : VarNet C K} (h : Ready ct U S)
    (hC : S.N.s.mem.refC = id) (hB : S.N.s.mem.refB = id) {cs xs : List Nat} {X X' : List (Itv K)} {n : Nat}
    (e : S.ctcCN cs xs X n = some (S', X')) (hx : xs.Nodup) (hi : ∀ a ∈ xs, a ∉ intermCells S.interm) :
    xs.length = cs.length ∧ X.length = cs.length ∧ X' = xs.map S'.N.s.mem.heap ∧
    ∃ S0, Ready ct U S0 ∧ Same ct S S0 ∧ S0.N.s.mem.refC = id ∧ S0.N.s.mem.refB = id ∧
      S0.contractWith [.box cs xs] n = some S' ∧ xs.map S0.N.s.mem.heap = X ∧
      (∀ c ∈ intermCells S.interm, S0.N.s.mem.heap c = S.init c) ∧
      (∀ c, c ∉ intermCells S.interm → c ∉ xs → S0.N.s.mem.heap c = S.N.s.mem.heap c) ∧
      ∀ c ∈ S.N.all, (ct c).kind = .contracting → c ∈ S0.N.s.queue := by
  unfold VarNet.ctcCN at e
  split_ifs at e with hl
  obtain ⟨r, h1, h2⟩ := Option.map_eq_some_iff.mp e
  cases h2
  have hw : Ready ct U (S.write xs X) := ⟨⟨⟨h.inv.q.nodup, h.inv.q.known, h.inv.q.act, h.inv.q.que, h.inv.q.ctcs⟩, h.inv.all⟩,
    h.apply, h.kind, h.comp, h.cells⟩
  obtain ⟨r1, r2, r3, r4, r5, r6⟩ := resetInterm_spec hw hC hB
  have hf : (xs.zip X).map Prod.fst = xs := List.map_fst_zip (by omega)
  refine ⟨hl.1, hl.2, rfl, _, r1, ⟨r2.init, r2.interm, r2.vars, r2.comp, r2.old, r2.new⟩, r3, r4, h1, ?_, ?_, ?_, r6⟩
  · refine Eq.trans ?_ (writeCells_map hx (X := X) (by omega) S.N.s.mem.heap)
    apply List.map_congr_left
    intro a ha
    exact (r5 a).trans (if_neg (hi a ha))
  · intro c hc; rw [r5 c]; exact if_pos hc
  · intro c hc hc'
    exact ((r5 c).trans (if_neg hc)).trans (writeCells_of_not_mem (by rw [hf]; exact hc'))

theorem ctcCN_ready {ct : C → ICtc K} {U : Nat → Prop} {S S' : VarNet C K} (h : Ready ct U S)
    (hC : S.N.s.mem.refC = id) (hB : S.N.s.mem.refB = id) {cs xs : List Nat} {X X' : List (Itv K)} {n : Nat}
    (e : S.ctcCN cs xs X n = some (S', X')) :
    Ready ct U S' ∧ Same ct S S' ∧ S'.N.s.mem.refC = id ∧ S'.N.s.mem.refB = id := by
  unfold VarNet.ctcCN at e
  split_ifs at e with hl
  obtain ⟨r, h1, h2⟩ := Option.map_eq_some_iff.mp e
  cases h2
  have hw : Ready ct U (S.write xs X) := ⟨⟨⟨h.inv.q.nodup, h.inv.q.known, h.inv.q.act, h.inv.q.que, h.inv.q.ctcs⟩, h.inv.all⟩,
    h.apply, h.kind, h.comp, h.cells⟩
  obtain ⟨r1, r2, r3, r4, -, -⟩ := resetInterm_spec hw hC hB
  obtain ⟨c1, c2, c3, c4, -⟩ := contractWith_parts r1 r3 r4 h1
  exact ⟨c1, Same.trans ⟨r2.init, r2.interm, r2.vars, r2.comp, r2.old, r2.new⟩ c2, c3, c4⟩

theorem runCN_ready {ct : C → ICtc K} {U : Nat → Prop} {cs : List Nat} (l : List (List Nat × List (Itv K) × Nat))
    {S S' : VarNet C K} (h : Ready ct U S) (hC : S.N.s.mem.refC = id) (hB : S.N.s.mem.refB = id)
    (e : S.runCN cs l = some S') : Ready ct U S' ∧ Same ct S S' ∧ S'.N.s.mem.refC = id ∧ S'.N.s.mem.refB = id := by
  induction l generalizing S with
  | nil =>
    have e : some S = some S' := e
    cases e
    exact ⟨h, Same.refl ct _, hC, hB⟩
  | cons a l ih =>
    obtain ⟨xs, X, n⟩ := a
    have e : (S.ctcCN cs xs X n).bind (fun r => r.1.runCN cs l) = some S' := e
    obtain ⟨r, h1, h2⟩ := Option.bind_eq_some_iff.mp e
    obtain ⟨a1, a2, a3, a4⟩ := ctcCN_ready h hC hB (S' := r.1) (X' := r.2) h1
    obtain ⟨b1, b2, b3, b4⟩ := ih a1 a3 a4 h2
    exact ⟨b1, a2.trans b2, b3, b4⟩

end

end Codac.CN
