import Verif.CN.DomMem
import Verif.Props.Life

/-!
# C127: memory of the domains of a contractor network

What a user knows of a `Domain`: its type, the object it refers to and whether it was created as an intermediate variable.
-/

namespace Codac.Props

open Codac.DomMem

/-- what is known of the initial value of a domain: nothing (`Domain()`), there is none, or there is one (intermediate variable) -/
inductive InitState
  | unset
  | plain
  | interm
  deriving DecidableEq

/-- the domains constructed (`none` once destroyed), the number of values made by constructors, and the number of copies of initial values that nobody refers to any more -/
structure DomView where
  doms : List (Option (Ty × Val × InitState))
  vals : Nat
  lost : Nat

def DomView.get (v : DomView) (k : Nat) : Option (Ty × Val × InitState) := (v.doms[k]?).join

/-- the domain can be read (copied, destroyed): it is not the result of `Domain()` left as it is -/
def domReadable : Ty × Val × InitState → Prop
  | (ty, _, s) => ty = .slice ∨ s ≠ .unset

/-- the calls that make sense -/
def DomAllowed (v : DomView) : DOp → Prop
  | .fresh => True
  | .ref _ _ => True
  | .temp ty _ => ty ≠ .slice
  | .copy k => ∃ d, v.get k = some d ∧ domReadable d
  | .assign k l => ∃ d ad, v.get k = some d ∧ v.get l = some ad ∧ domReadable ad
  | .setRef k l => ∃ d ad, v.get k = some d ∧ v.get l = some ad ∧ domReadable ad ∧ d.1 = ad.1
  | .reset k => ∃ d, v.get k = some d ∧ d.1 ≠ .slice ∧ d.2.2 = .interm
  | .destroy k => ∃ d, v.get k = some d ∧ domReadable d

/-- the domain `d` receives the domain `ad`: same type, same values, and its own copy of the initial value (domains of slices have none: what was there is left) -/
def domReceive (d ad : Ty × Val × InitState) : Ty × Val × InitState := (ad.1, ad.2.1, if ad.1 = .slice then d.2.2 else ad.2.2)

/-- a copy of an initial value is lost when its domain receives another one -/
def domLost (d ad : Ty × Val × InitState) : Nat := if ad.1 ≠ .slice ∧ d.2.2 = .interm then 1 else 0

def domAfter (v : DomView) : DOp → DomView
  | .fresh => { v with doms := v.doms ++ [some (.interval, .wild, .unset)] }
  | .ref ty a => { v with doms := v.doms ++ [some (ty, .user a, .plain)] }
  | .temp ty b => { v with doms := v.doms ++ [some (ty, .own v.vals, if b then .interm else .plain)], vals := v.vals + 1 }
  | .copy k =>
    match v.get k with
    | some ad => { v with doms := v.doms ++ [some (domReceive (ad.1, ad.2.1, .plain) ad)] }
    | none => v
  | .assign k l =>
    match v.get k, v.get l with
    | some d, some ad => { v with doms := v.doms.set k (some (domReceive d ad)), lost := v.lost + domLost d ad }
    | _, _ => v
  | .setRef k l =>
    match v.get k, v.get l with
    | some d, some ad => { v with doms := v.doms.set k (some (domReceive d ad)), lost := v.lost + domLost d ad }
    | _, _ => v
  | .reset _ => v
  | .destroy k =>
    match v.get k with
    | some d => { v with doms := v.doms.set k none, lost := v.lost + if d.1 = .slice ∧ d.2.2 = .interm then 1 else 0 }
    | none => v

/-- every call of the history makes sense -/
def DomCareful (v : DomView) : List DOp → Prop
  | [] => True
  | o :: os => DomAllowed v o ∧ DomCareful (domAfter v o) os

def domStart : DomView := ⟨[], 0, 0⟩

/-- what the pointer says -/
def initOf : Ptr → InitState
  | .null => .plain
  | .obj _ => .interm
  | .junk => .unset

def domView (d : Dom) : Ty × Val × InitState := (d.ty, d.val, initOf d.init)

/-- the copies of initial values a domain refers to (one or none) -/
def domOwns : Option Dom → List Nat
  | some ⟨_, _, .obj n⟩ => [n]
  | _ => []

/-- the invariant: each copy of an initial value is owned by one domain, freed once, or lost -/
structure DomSane (m : DMem) (v : DomView) : Prop where
  same : m.doms.map (Option.map domView) = v.doms
  vals : m.nextV = v.vals
  owned : ∃ L : List Nat, L.length = v.lost ∧ (m.doms.flatMap domOwns ++ m.deadI ++ L).Perm (List.range m.nextI)

theorem DomSane.get {m : DMem} {v : DomView} (h : DomSane m v) (k : Nat) : v.get k = (m.get k).map domView := by
  unfold DomView.get DMem.get
  rw [← h.same, List.getElem?_map]
  cases e : m.doms[k]? with
  | none => rfl
  | some o => cases o <;> rfl

theorem count_set : ∀ (l : List (Option Dom)) (k : Nat) (o o' : Option Dom) (x : Nat), l[k]? = some o →
    ((l.set k o').flatMap domOwns).count x + (domOwns o).count x = (l.flatMap domOwns).count x + (domOwns o').count x
  | [], _, _, _, _, h => by simp at h
  | a :: l, 0, o, o', x, h => by
    simp only [List.getElem?_cons_zero, Option.some.injEq] at h
    subst h
    simp only [List.set_cons_zero, List.flatMap_cons, List.count_append]
    omega
  | a :: l, k + 1, o, o', x, h => by
    simp only [List.getElem?_cons_succ] at h
    have := count_set l k o o' x h
    simp only [List.set_cons_succ, List.flatMap_cons, List.count_append]
    omega

theorem get_index {m : DMem} {k : Nat} {d : Dom} (h : m.get k = some d) : m.doms[k]? = some (some d) := by
  unfold DMem.get at h
  cases e : m.doms[k]? with
  | none => rw [e] at h; simp at h
  | some o => rw [e] at h; simp at h; rw [h]

theorem owns_alive {m : DMem} {v : DomView} (h : DomSane m v) {k : Nat} {d : Dom} (hk : m.get k = some d) {n : Nat} (hn : d.init = .obj n) : n ∉ m.deadI ∧ n < m.nextI := by
  obtain ⟨L, _, hp⟩ := h.owned
  have hd := hp.nodup_iff.2 List.nodup_range
  have hmem : n ∈ m.doms.flatMap domOwns := by
    rw [List.mem_flatMap]
    refine ⟨some d, List.mem_of_getElem? (get_index hk), ?_⟩
    cases d; simp only at hn; subst hn; simp [domOwns]
  refine ⟨fun hd' => ?_, ?_⟩
  · rw [List.append_assoc, List.nodup_append] at hd
    exact hd.2.2 n hmem n (List.mem_append_left _ hd') rfl
  · have : n ∈ List.range m.nextI := hp.subset (List.mem_append_left _ (List.mem_append_left _ hmem))
    simpa using this

/-- a domain is put in the place `k`, after `refValues` -/
theorem refValues_ok {m : DMem} {v : DomView} (h : DomSane m v) {k l : Nat} {d ad : Dom} (hk : m.get k = some d) (hl : m.get l = some ad) (hr : domReadable (domView ad)) :
    ∃ p, m.refValues { d with ty := ad.ty } ad = some p ∧
      DomSane { p.2 with doms := p.2.doms.set k (some p.1) }
        { v with doms := v.doms.set k (some (domReceive (domView d) (domView ad))), lost := v.lost + domLost (domView d) (domView ad) } := by
  obtain ⟨L, hL, hp⟩ := h.owned
  have hc := fun (o' : Option Dom) x => count_set m.doms k (some d) o' x (get_index hk)
  obtain ⟨dt, dv, di⟩ := d
  obtain ⟨at', av, ai⟩ := ad
  unfold DMem.refValues
  by_cases hs : at' = .slice
  · subst hs
    refine ⟨_, by rw [if_pos rfl], ?_, h.vals, L, ?_, ?_⟩
    · simp only [List.map_set, h.same]; rfl
    · simp [hL, domLost, domView]
    · rw [List.perm_iff_count] at hp ⊢
      intro x
      have h1 := hp x
      have h2 := hc (some ⟨.slice, av, di⟩) x
      have h3 : domOwns (some ⟨.slice, av, di⟩) = domOwns (some ⟨dt, dv, di⟩) := by cases di <;> rfl
      rw [h3] at h2
      simp only [List.count_append] at h1 ⊢
      omega
  · simp only [if_neg hs]
    cases ai with
    | junk => simp [domReadable, domView, initOf, hs] at hr
    | null =>
      refine ⟨_, rfl, ?_, h.vals, ?_⟩
      · simp only [List.map_set, h.same]
        simp [domReceive, domView, hs, initOf]
      · cases di with
        | obj n =>
          refine ⟨n :: L, by simp [hL, domLost, domView, initOf, hs], ?_⟩
          rw [List.perm_iff_count] at hp ⊢
          intro x
          have h1 := hp x
          have h2 := hc (some ⟨at', av, .null⟩) x
          simp only [domOwns, List.count_append, List.count_cons, List.count_nil] at h1 h2 ⊢
          omega
        | null =>
          refine ⟨L, by simp [hL, domLost, domView, initOf], ?_⟩
          rw [List.perm_iff_count] at hp ⊢
          intro x
          have h1 := hp x
          have h2 := hc (some ⟨at', av, .null⟩) x
          simp only [domOwns, List.count_append, List.count_nil] at h1 h2 ⊢
          omega
        | junk =>
          refine ⟨L, by simp [hL, domLost, domView, initOf], ?_⟩
          rw [List.perm_iff_count] at hp ⊢
          intro x
          have h1 := hp x
          have h2 := hc (some ⟨at', av, .null⟩) x
          simp only [domOwns, List.count_append, List.count_nil] at h1 h2 ⊢
          omega
    | obj a =>
      have ha := (owns_alive h hl rfl).1
      refine ⟨(⟨at', av, .obj m.nextI⟩, { m with nextI := m.nextI + 1 }), by simp [ha], ?_, h.vals, ?_⟩
      · simp only [List.map_set, h.same]
        simp [domReceive, domView, hs, initOf]
      · cases di with
        | obj n =>
          refine ⟨n :: L, by simp [hL, domLost, domView, initOf, hs], ?_⟩
          rw [List.perm_iff_count] at hp ⊢
          intro x
          have h1 := hp x
          have h2 := hc (some ⟨at', av, .obj m.nextI⟩) x
          simp only [domOwns, List.count_append, List.count_cons, List.count_nil, List.range_succ] at h1 h2 ⊢
          omega
        | null =>
          refine ⟨L, by simp [hL, domLost, domView, initOf], ?_⟩
          rw [List.perm_iff_count] at hp ⊢
          intro x
          have h1 := hp x
          have h2 := hc (some ⟨at', av, .obj m.nextI⟩) x
          simp only [domOwns, List.count_append, List.count_cons, List.count_nil, List.range_succ] at h1 h2 ⊢
          omega
        | junk =>
          refine ⟨L, by simp [hL, domLost, domView, initOf], ?_⟩
          rw [List.perm_iff_count] at hp ⊢
          intro x
          have h1 := hp x
          have h2 := hc (some ⟨at', av, .obj m.nextI⟩) x
          simp only [domOwns, List.count_append, List.count_cons, List.count_nil, List.range_succ] at h1 h2 ⊢
          omega

theorem refValues_none {m : DMem} {d ad : Dom} (hr : ¬ domReadable (domView ad)) : m.refValues d ad = none := by
  obtain ⟨at', av, ai⟩ := ad
  unfold domReadable domView at hr
  push Not at hr
  unfold DMem.refValues
  rw [if_neg hr.1]
  cases ai <;> simp [initOf] at hr
  rfl

theorem dom_step {m : DMem} {v : DomView} (h : DomSane m v) (o : DOp) :
    (DomAllowed v o → ∃ m', m.step o = some m' ∧ DomSane m' (domAfter v o)) ∧ (¬ DomAllowed v o → m.step o = none) := by
  have happ : ∀ (d : Dom) (m1 : DMem), m1.doms = m.doms → (m.doms ++ [some d]).map (Option.map domView) = v.doms ++ [some (domView d)] := by
    intro d m1 _
    rw [List.map_append, h.same]; rfl
  cases o with
  | fresh =>
    refine ⟨fun _ => ⟨_, rfl, happ _ m rfl, h.vals, ?_⟩, fun hn => absurd trivial hn⟩
    obtain ⟨L, hL, hp⟩ := h.owned
    exact ⟨L, hL, by simpa [domOwns] using hp⟩
  | ref ty a =>
    refine ⟨fun _ => ⟨_, rfl, happ _ m rfl, h.vals, ?_⟩, fun hn => absurd trivial hn⟩
    obtain ⟨L, hL, hp⟩ := h.owned
    exact ⟨L, hL, by simpa [domOwns, blank] using hp⟩
  | temp ty b =>
    constructor
    · intro hty
      have hty' : ty ≠ .slice := hty
      obtain ⟨L, hL, hp⟩ := h.owned
      cases b with
      | true =>
        refine ⟨{ m with doms := m.doms ++ [some { blank ty with val := .own m.nextV, init := .obj m.nextI }], nextV := m.nextV + 1, nextI := m.nextI + 1 },
          by simp [DMem.step, hty'], ?_, by simp [domAfter, h.vals], L, hL, ?_⟩
        · have := happ { blank ty with val := .own m.nextV, init := .obj m.nextI } m rfl
          simp only [domAfter]
          rw [← h.vals]
          exact this
        · rw [List.perm_iff_count] at hp ⊢
          intro x
          have h1 := hp x
          simp only [blank, domOwns, List.flatMap_append, List.flatMap_cons, List.flatMap_nil, List.count_append, List.count_cons, List.count_nil, List.range_succ] at h1 ⊢
          omega
      | false =>
        refine ⟨{ m with doms := m.doms ++ [some { blank ty with val := .own m.nextV, init := .null }], nextV := m.nextV + 1 },
          by simp [DMem.step, hty'], ?_, by simp [domAfter, h.vals], L, hL, ?_⟩
        · have := happ { blank ty with val := .own m.nextV, init := .null } m rfl
          simp only [domAfter]
          rw [← h.vals]
          exact this
        · simpa [domOwns, blank] using hp
    · intro hn
      have hn : ty = .slice := by simpa [DomAllowed] using hn
      simp [DMem.step, hn]
  | copy k =>
    cases hk : m.get k with
    | none =>
      refine ⟨fun ⟨d, hd, _⟩ => ?_, fun _ => by simp [DMem.step, hk]⟩
      rw [h.get, hk] at hd; simp at hd
    | some ad =>
      have hv : v.get k = some (domView ad) := by rw [h.get, hk]; rfl
      constructor
      · rintro ⟨d, hd, hr⟩
        rw [hv] at hd; cases hd
        -- the copy is put in a new place, first filled with the result of the private constructor
        obtain ⟨L, hL, hp⟩ := h.owned
        obtain ⟨at', av, ai⟩ := ad
        simp only [DMem.step, hk, Option.bind_some, domAfter, hv]
        unfold DMem.refValues
        by_cases hs : at' = .slice
        · subst hs
          refine ⟨{ m with doms := m.doms ++ [some { blank .slice with val := av }] }, by simp, ?_, h.vals, L, hL, ?_⟩
          · simp only [List.map_append, h.same]; rfl
          · simpa [blank, domOwns] using hp
        · simp only [if_neg hs]
          cases ai with
          | junk => simp [domReadable, domView, initOf, hs] at hr
          | null =>
            refine ⟨_, rfl, ?_, h.vals, L, hL, ?_⟩
            · simp only [List.map_append, h.same]
              simp [domReceive, domView, hs, initOf, blank]
            · simpa [blank, domOwns] using hp
          | obj a =>
            have ha := (owns_alive h hk rfl).1
            refine ⟨{ m with doms := m.doms ++ [some ⟨at', av, .obj m.nextI⟩], nextI := m.nextI + 1 }, by simp [ha, blank], ?_, h.vals, L, hL, ?_⟩
            · simp only [List.map_append, h.same]
              simp [domReceive, domView, hs, initOf]
            · rw [List.perm_iff_count] at hp ⊢
              intro x
              have h1 := hp x
              simp only [domOwns, List.flatMap_append, List.flatMap_cons, List.flatMap_nil, List.count_append, List.count_cons, List.count_nil, List.range_succ] at h1 ⊢
              omega
      · intro hn
        have : ¬ domReadable (domView ad) := fun hr => hn ⟨_, hv, hr⟩
        simp [DMem.step, hk, refValues_none this]
  | assign k l =>
    cases hk : m.get k with
    | none =>
      refine ⟨fun ⟨d, ad, hd, _⟩ => ?_, fun _ => by simp [DMem.step, hk]⟩
      rw [h.get, hk] at hd; simp at hd
    | some d =>
      cases hl : m.get l with
      | none =>
        refine ⟨fun ⟨_, ad, _, hd, _⟩ => ?_, fun _ => by simp [DMem.step, hl]⟩
        rw [h.get, hl] at hd; simp at hd
      | some ad =>
        have hv : v.get k = some (domView d) := by rw [h.get, hk]; rfl
        have hv' : v.get l = some (domView ad) := by rw [h.get, hl]; rfl
        constructor
        · rintro ⟨d1, ad1, hd1, hd2, hr⟩
          rw [hv] at hd1; cases hd1
          rw [hv'] at hd2; cases hd2
          obtain ⟨p, hp, hp'⟩ := refValues_ok h hk hl hr
          refine ⟨{ p.2 with doms := p.2.doms.set k (some p.1) }, by simp only [DMem.step, hk, hl, Option.bind_some, hp, Option.map_some], ?_⟩
          simp only [domAfter, hv, hv']
          exact hp'
        · intro hn
          have : ¬ domReadable (domView ad) := fun hr => hn ⟨_, _, hv, hv', hr⟩
          simp [DMem.step, hk, hl, refValues_none this]
  | setRef k l =>
    cases hk : m.get k with
    | none =>
      refine ⟨fun ⟨d, ad, hd, _⟩ => ?_, fun _ => by simp [DMem.step, hk]⟩
      rw [h.get, hk] at hd; simp at hd
    | some d =>
      cases hl : m.get l with
      | none =>
        refine ⟨fun ⟨_, ad, _, hd, _⟩ => ?_, fun _ => by simp [DMem.step, hl]⟩
        rw [h.get, hl] at hd; simp at hd
      | some ad =>
        have hv : v.get k = some (domView d) := by rw [h.get, hk]; rfl
        have hv' : v.get l = some (domView ad) := by rw [h.get, hl]; rfl
        constructor
        · rintro ⟨d1, ad1, hd1, hd2, hr, ht⟩
          rw [hv] at hd1; cases hd1
          rw [hv'] at hd2; cases hd2
          have ht' : d.ty = ad.ty := ht
          obtain ⟨p, hp, hp'⟩ := refValues_ok h hk hl hr
          have e : ({ d with ty := ad.ty } : Dom) = d := by rw [← ht']
          rw [e] at hp
          refine ⟨_, by simp only [DMem.step, hk, hl, Option.bind_some]; rw [if_neg (by simp [ht']), hp, Option.map_some], ?_⟩
          simp only [domAfter, hv, hv']
          exact hp'
        · intro hn
          simp only [DMem.step, hk, hl, Option.bind_some]
          by_cases ht : d.ty = ad.ty
          · have : ¬ domReadable (domView ad) := fun hr => hn ⟨_, _, hv, hv', hr, ht⟩
            simp [ht, refValues_none this]
          · rw [if_pos ht]
  | reset k =>
    cases hk : m.get k with
    | none =>
      refine ⟨fun ⟨d, hd, _⟩ => ?_, fun _ => by simp [DMem.step, hk]⟩
      rw [h.get, hk] at hd; simp at hd
    | some d =>
      have hv : v.get k = some (domView d) := by rw [h.get, hk]; rfl
      constructor
      · rintro ⟨d1, hd1, h1, h2⟩
        rw [hv] at hd1; cases hd1
        obtain ⟨dt, dv, di⟩ := d
        have h1' : dt ≠ .slice := h1
        cases di with
        | junk => simp [domView, initOf] at h2
        | null => simp [domView, initOf] at h2
        | obj n =>
          have hn := (owns_alive h hk rfl).1
          exact ⟨m, by simp [DMem.step, hk, h1', hn], h⟩
      · intro hn
        obtain ⟨dt, dv, di⟩ := d
        simp only [DMem.step, hk, Option.bind_some]
        by_cases hs : dt = .slice
        · rw [if_pos hs]
        · rw [if_neg hs]
          cases di with
          | junk => rfl
          | null => rfl
          | obj n => exact absurd ⟨_, hv, hs, rfl⟩ hn
  | destroy k =>
    cases hk : m.get k with
    | none =>
      refine ⟨fun ⟨d, hd, _⟩ => ?_, fun _ => by simp [DMem.step, hk]⟩
      rw [h.get, hk] at hd; simp at hd
    | some d =>
      have hv : v.get k = some (domView d) := by rw [h.get, hk]; rfl
      obtain ⟨L, hL, hp⟩ := h.owned
      have hc := fun x => count_set m.doms k (some d) none x (get_index hk)
      obtain ⟨dt, dv, di⟩ := d
      constructor
      · rintro ⟨d1, hd1, hr⟩
        rw [hv] at hd1; cases hd1
        simp only [DMem.step, hk, Option.bind_some, domAfter, hv]
        by_cases hs : dt = .slice
        · refine ⟨{ m with doms := m.doms.set k none }, by simp [hs], by simp only [List.map_set, h.same]; rfl, h.vals, ?_⟩
          cases di with
          | obj n =>
            refine ⟨n :: L, by simp [hL, domView, initOf, hs], ?_⟩
            rw [List.perm_iff_count] at hp ⊢
            intro x
            have h1 := hp x
            have h2 := hc x
            simp only [domOwns, List.count_append, List.count_cons, List.count_nil] at h1 h2 ⊢
            omega
          | null =>
            refine ⟨L, by simp [hL, domView, initOf], ?_⟩
            rw [List.perm_iff_count] at hp ⊢
            intro x
            have h1 := hp x
            have h2 := hc x
            simp only [domOwns, List.count_append, List.count_nil] at h1 h2 ⊢
            omega
          | junk =>
            refine ⟨L, by simp [hL, domView, initOf], ?_⟩
            rw [List.perm_iff_count] at hp ⊢
            intro x
            have h1 := hp x
            have h2 := hc x
            simp only [domOwns, List.count_append, List.count_nil] at h1 h2 ⊢
            omega
        · simp only [if_neg hs]
          cases di with
          | junk => simp [domReadable, domView, initOf, hs] at hr
          | null =>
            refine ⟨_, rfl, by simp only [List.map_set, h.same]; rfl, h.vals, L, by simp [hL, domView, initOf], ?_⟩
            rw [List.perm_iff_count] at hp ⊢
            intro x
            have h1 := hp x
            have h2 := hc x
            simp only [domOwns, List.count_append, List.count_nil] at h1 h2 ⊢
            omega
          | obj n =>
            have hn := (owns_alive h hk rfl).1
            refine ⟨{ m with doms := m.doms.set k none, deadI := m.deadI ++ [n] }, by simp [hn], by simp only [List.map_set, h.same]; rfl, h.vals, L, by simp [hL, domView, hs], ?_⟩
            rw [List.perm_iff_count] at hp ⊢
            intro x
            have h1 := hp x
            have h2 := hc x
            simp only [domOwns, List.count_append, List.count_cons, List.count_nil] at h1 h2 ⊢
            omega
      · intro hn
        have hr : ¬ domReadable (domView ⟨dt, dv, di⟩) := fun hr => hn ⟨_, hv, hr⟩
        unfold domReadable domView at hr
        push Not at hr
        simp only [DMem.step, hk, Option.bind_some]
        rw [if_neg hr.1]
        cases di <;> simp [initOf] at hr
        rfl

theorem dom_run : ∀ (os : List DOp) {m : DMem} {v : DomView}, DomSane m v →
    (DomCareful v os → ∃ m', m.run os = some m' ∧ DomSane m' (os.foldl domAfter v)) ∧ (¬ DomCareful v os → m.run os = none)
  | [], m, v, h => ⟨fun _ => ⟨m, rfl, h⟩, fun hn => absurd trivial hn⟩
  | o :: os, m, v, h => by
    obtain ⟨h1, h2⟩ := dom_step h o
    by_cases ha : DomAllowed v o
    · obtain ⟨m1, g1, g2⟩ := h1 ha
      obtain ⟨k1, k2⟩ := dom_run os g2
      simp only [DMem.run, g1, Option.bind_some, List.foldl_cons]
      exact ⟨fun hc => k1 hc.2, fun hn => k2 fun hc => hn ⟨ha, hc⟩⟩
    · exact ⟨fun hc => absurd hc.1 ha, fun _ => by simp [DMem.run, h2 ha]⟩

theorem dom_start : DomSane DMem.start domStart := ⟨rfl, rfl, [], rfl, by simp [DMem.start]⟩

/-- number of domains that refer to a copy of an initial value -/
def intermNb (l : List (Option (Ty × Val × InitState))) : Nat := (l.filter fun o => match o with | some (_, _, .interm) => true | _ => false).length

theorem owns_length : ∀ l : List (Option Dom), (l.flatMap domOwns).length = intermNb (l.map (Option.map domView))
  | [] => rfl
  | o :: l => by
    have ih := owns_length l
    unfold intermNb at ih ⊢
    rw [List.flatMap_cons, List.length_append, ih, List.map_cons, List.filter_cons]
    rcases o with _ | ⟨t, w, i⟩
    · simp [domOwns]
    · cases i <;> simp [domOwns, domView, initOf]
      omega

theorem owned_unique {m : DMem} {v : DomView} (h : DomSane m v) {i j : Nat} {d d' : Dom} (hi : m.get i = some d) (hj : m.get j = some d') {n : Nat} (hd : d.init = .obj n) (hd' : d'.init = .obj n) :
    i = j := by
  obtain ⟨L, _, hp⟩ := h.owned
  have hnd := hp.nodup_iff.2 List.nodup_range
  rw [List.append_assoc, List.nodup_append] at hnd
  have hi := get_index hi
  have hj := get_index hj
  have key : ∀ (l : List (Option Dom)) (i j : Nat), (l.flatMap domOwns).Nodup → l[i]? = some (some d) → l[j]? = some (some d') → i = j := by
    intro l
    induction l with
    | nil => intro i j _ h; simp at h
    | cons o l ih =>
      intro i j hn hi hj
      rw [List.flatMap_cons, List.nodup_append] at hn
      have e1 : n ∈ domOwns (some d) := by cases d; simp only at hd; subst hd; simp [domOwns]
      have e2 : n ∈ domOwns (some d') := by cases d'; simp only at hd'; subst hd'; simp [domOwns]
      cases i with
      | zero =>
        simp only [List.getElem?_cons_zero, Option.some.injEq] at hi
        cases j with
        | zero => rfl
        | succ j =>
          simp only [List.getElem?_cons_succ] at hj
          exact absurd rfl (hn.2.2 n (by rw [hi]; exact e1) n (List.mem_flatMap.2 ⟨_, List.mem_of_getElem? hj, e2⟩))
      | succ i =>
        simp only [List.getElem?_cons_succ] at hi
        cases j with
        | zero =>
          simp only [List.getElem?_cons_zero, Option.some.injEq] at hj
          exact absurd rfl (hn.2.2 n (by rw [hj]; exact e2) n (List.mem_flatMap.2 ⟨_, List.mem_of_getElem? hi, e1⟩))
        | succ j =>
          simp only [List.getElem?_cons_succ] at hj
          rw [ih i j hn.2.1 hi hj]
  exact key m.doms i j hnd.1 hi hj

/-- Any history of constructions, copies, assignments, resets and destructions of domains. It is free of wild pointers, uses of freed memory and double `delete` exactly when each call makes sense: no
domain made by `Domain()` is copied or destroyed before having received another one, `reset_value()` is called on intermediate variables only. Then each domain has the type, refers to the
values and is intermediate as documented; two domains never share the copy of an initial value, which is alive as long as its domain is; and the copies allocated are those freed, those
of the existing domains and the lost ones.  -/
theorem C127_domains (os : List DOp) :
    ((∃ m, DMem.start.run os = some m) ↔ DomCareful domStart os) ∧
    ∀ m, DMem.start.run os = some m →
      (∀ k, (m.get k).map domView = (os.foldl domAfter domStart).get k) ∧
      (∀ i j d d' n, m.get i = some d → m.get j = some d' → d.init = .obj n → n ∉ m.deadI ∧ (d'.init = .obj n → i = j)) ∧
      m.deadI.Nodup ∧ m.nextV = (os.foldl domAfter domStart).vals ∧
      m.nextI = m.deadI.length + intermNb (os.foldl domAfter domStart).doms + (os.foldl domAfter domStart).lost := by
  obtain ⟨h1, h2⟩ := dom_run os dom_start
  refine ⟨⟨fun ⟨m, hm⟩ => ?_, fun hc => (h1 hc).imp fun _ h => h.1⟩, fun m hm => ?_⟩
  · by_contra hn
    rw [h2 hn] at hm; simp at hm
  · have hc : DomCareful domStart os := by
      by_contra hn
      rw [h2 hn] at hm; simp at hm
    obtain ⟨m', g1, g2⟩ := h1 hc
    rw [hm] at g1; cases g1
    refine ⟨fun k => (g2.get k).symm, fun i j d d' n hi hj hd => ⟨(owns_alive g2 hi hd).1, fun hd' => owned_unique g2 hi hj hd hd'⟩, ?_, g2.vals, ?_⟩
    · obtain ⟨L, _, hp⟩ := g2.owned
      have hnd := hp.nodup_iff.2 List.nodup_range
      rw [List.append_assoc, List.nodup_append] at hnd
      exact (List.nodup_append.1 hnd.2.1).1
    · obtain ⟨L, hL, hp⟩ := g2.owned
      have := hp.length_eq
      rw [List.length_append, List.length_append, List.length_range, owns_length, g2.same, hL] at this
      omega

/-- as in `ContractorNetwork::add` (codac_ContractorNetwork.cpp:359-363): `vector<Domain>(n)` filled with the domains of slices, then copied in the network and destroyed; with an intermediate variable copied and reset -/
example : DomCareful domStart [.fresh, .ref .slice 4, .assign 0 1, .destroy 1, .copy 0, .destroy 0, .temp .interval true, .copy 3, .destroy 3, .reset 4, .setRef 4 4] := by
  simp [DomCareful, DomAllowed, domAfter, domStart, DomView.get, domReadable, domReceive]

/-- A domain made by `Domain()` and destroyed: `delete` of a pointer that was never set. -/
theorem C127_default_fails (os : List DOp) (m : DMem) (hm : DMem.start.run os = some m) : DMem.start.run (os ++ [.fresh, .destroy m.doms.length]) = none := by
  have key : ∀ (os : List DOp) (m0 : DMem) (l : List DOp), m0.run (os ++ l) = (m0.run os).bind fun m => m.run l := by
    intro os
    induction os with
    | nil => intro m0 l; rfl
    | cons o os ih =>
      intro m0 l
      simp only [List.cons_append, DMem.run]
      cases m0.step o with
      | none => rfl
      | some m1 => simp [ih]
  rw [key, hm]
  simp [DMem.run, DMem.step, DMem.get]

/-- An intermediate variable that receives another domain: its copy of the initial value is never freed, even if all the domains are destroyed. -/
theorem C127_leak_fails : (DMem.start.run [.temp .interval true, .temp .interval false, .assign 0 1, .destroy 0, .destroy 1]).map
    (fun m => (m.nextI, m.deadI)) = some (1, []) := by decide

/-! ## The network and the slices of a tube -/

/-- the calls that keep all the slices of the tube -/
def NetKeeps : Life.Op → Prop
  | .tree => True
  | .poly => True
  | .off => True
  | .sample _ => True
  | .set _ => True
  | .shift => True
  | .merge _ => False
  | .truncate _ _ => False
  | .assign _ => False
  | .selfAssign => False

/-- the calls proved safe: those that keep the slices, and no reset of an intermediate tube -/
def NetAllowed (interm : Bool) (v : Nat × Life.Mode) : NOp → Prop
  | .user o => NetKeeps o ∧ LifeAllowed v o
  | .reset => interm = false
  | .again => True
  | .addCtc => True
  | .trigger => True
  | .contract => True

def netAfter (v : Nat × Life.Mode) : NOp → Nat × Life.Mode
  | .user o => lifeAfter v o
  | _ => v

def NetCareful (interm : Bool) : Nat × Life.Mode → List NOp → Prop
  | _, [] => True
  | v, o :: os => NetAllowed interm v o ∧ NetCareful interm (netAfter v o) os

theorem relink_ids (g : Nat) (l : List Life.Sl) : (Life.relink g l).map Life.Sl.id = l.map Life.Sl.id := by cases l <;> rfl

theorem split_ids {m m' : Life.Mem} {i : Nat} (h : m.split i = some m') :
    (∀ s ∈ m.chain.map Life.Sl.id, s ∈ m'.chain.map Life.Sl.id) ∧ m.nextS ∈ m'.chain.map Life.Sl.id := by
  unfold Life.Mem.split at h
  cases hd : m.chain.drop i with
  | nil => rw [hd] at h; simp at h
  | cons s l =>
    rw [hd] at h
    simp only [Option.map_eq_some_iff] at h
    obtain ⟨m1, _, rfl⟩ := h
    have hch : m.chain = m.chain.take i ++ s :: l := by rw [← hd, List.take_append_drop]
    constructor
    · intro x hx
      rw [hch] at hx
      simp only [List.map_append, List.map_cons, relink_ids, List.mem_append, List.mem_cons] at hx ⊢
      tauto
    · simp

theorem keeps_ids {m m' : Life.Mem} (h : Life.Sane m) (hs : Life.Synced m) {o : Life.Op} (hk : NetKeeps o) (he : m.step o = some m') :
    ∀ s ∈ m.chain.map Life.Sl.id, s ∈ m'.chain.map Life.Sl.id := by
  obtain ⟨m1, h1, _, _, _, h5, _⟩ := Life.delTree_ok h hs
  obtain ⟨m2, g1, _, _, _, g5, _⟩ := Life.reset_ok h hs
  cases o with
  | tree =>
    simp only [Life.Mem.step, Life.Mem.mkTree, h1, Option.map_some, Option.some.injEq] at he
    subst he
    simp [h5]
  | poly =>
    simp only [Life.Mem.step, Option.some.injEq] at he
    subst he
    unfold Life.Mem.mkPoly Life.Mem.delPoly
    split_ifs <;> simp
  | off =>
    simp only [Life.Mem.step, g1, Option.some.injEq] at he
    subst he
    simp [g5]
  | sample i =>
    simp only [Life.Mem.step, h1, Option.bind_some] at he
    have e : m1.delPoly.chain = m.chain := by rw [← h5]; unfold Life.Mem.delPoly; split_ifs <;> rfl
    rw [← e]
    exact (split_ids he).1
  | set i =>
    simp only [Life.Mem.step, Life.Mem.notify] at he
    split at he
    · simp at he
    · split_ifs at he
      cases he
      exact fun _ hx => hx
  | shift =>
    simp only [Life.Mem.step, g1, Option.some.injEq] at he
    subst he
    simp [g5]
  | merge i => exact hk.elim
  | truncate a b => exact hk.elim
  | assign k => exact hk.elim
  | selfAssign => exact hk.elim

/-- the state of a network: the domains refer to slices of the tube -/
structure NetSane (N : TNet) (v : Nat × Life.Mode) : Prop where
  sane : Life.Sane N.tube
  synced : Life.Synced N.tube
  view : (N.tube.chain.length, N.tube.mode) = v
  ne : N.doms ≠ []
  sub : ∀ s ∈ N.doms, s ∈ N.tube.chain.map Life.Sl.id

theorem chain_alive {m : Life.Mem} (h : Life.Sane m) {s : Nat} (hs : s ∈ m.chain.map Life.Sl.id) : s ∉ m.deadS :=
  fun hd => (List.nodup_append.1 h.nodupS).2.2 _ hs _ hd rfl

theorem net_step {N : TNet} {v : Nat × Life.Mode} (h : NetSane N v) {o : NOp} (ha : NetAllowed N.init.isSome v o) :
    ∃ N', N.step o = some N' ∧ NetSane N' (netAfter v o) ∧ N'.init = N.init := by
  cases o with
  | user o =>
    obtain ⟨hk, hl⟩ := ha
    rw [← h.view] at hl
    obtain ⟨m', h1, h2, h3, h4⟩ := life_step h.sane h.synced hl
    refine ⟨{ N with tube := m' }, by simp [TNet.step, h1], ⟨h2, h3, ?_, h.ne, ?_⟩, rfl⟩
    · show (m'.chain.length, m'.mode) = lifeAfter v o
      rw [h4, h.view]
    · exact fun s hs => keeps_ids h.sane h.synced hk h1 s (h.sub s hs)
  | again => exact ⟨N, rfl, h, rfl⟩
  | addCtc =>
    refine ⟨_, rfl, ⟨h.sane, h.synced, h.view, ?_, ?_⟩, rfl⟩
    · simp [h.ne]
    · intro s hs
      simp only [List.mem_append] at hs
      rcases hs with hs | hs
      · exact h.sub s hs
      · exact hs
  | trigger => exact ⟨_, rfl, ⟨h.sane, h.synced, h.view, h.ne, h.sub⟩, rfl⟩
  | reset =>
    have ha : N.init.isSome = false := ha
    have e : N.init = none := by simpa using ha
    refine ⟨{ N with queued := true }, by simp [TNet.step, e], ⟨h.sane, h.synced, h.view, h.ne, h.sub⟩, rfl⟩
  | contract =>
    refine ⟨{ N with queued := false }, ?_, ⟨h.sane, h.synced, h.view, h.ne, h.sub⟩, rfl⟩
    simp only [TNet.step]
    rw [if_neg]
    simp only [Bool.and_eq_true, List.any_eq_true, decide_eq_true_eq, not_and, not_exists]
    exact fun _ s hs => chain_alive h.sane (h.sub s hs)

theorem net_run : ∀ (os : List NOp) {N : TNet} {v : Nat × Life.Mode}, NetSane N v → NetCareful N.init.isSome v os →
    ∃ N', N.run os = some N' ∧ NetSane N' (os.foldl netAfter v) ∧ N'.init = N.init
  | [], N, _, h, _ => ⟨N, rfl, h, rfl⟩
  | o :: os, N, v, h, hc => by
    obtain ⟨N1, h1, h2, h3⟩ := net_step h hc.1
    obtain ⟨N2, g1, g2, g3⟩ := net_run os h2 (by rw [h3]; exact hc.2)
    exact ⟨N2, by rw [TNet.run, h1, Option.bind_some, g1], g2, g3.trans h3⟩

theorem net_add {m : Life.Mem} (h : Life.Sane m) (hs : Life.Synced m) (interm : Bool) : NetSane (addTube m interm) (m.chain.length, m.mode) :=
  ⟨h, hs, rfl, by simp [addTube, hs.ne], fun _ hx => hx⟩

theorem net_append (os l : List NOp) (N : TNet) : N.run (os ++ l) = (N.run os).bind fun N => N.run l := by
  induction os generalizing N with
  | nil => rfl
  | cons o os ih =>
    simp only [List.cons_append, TNet.run]
    cases N.step o with
    | none => rfl
    | some m1 => simp [ih]

/-- A tube built with `n + 1` slices, any careful history on it (C126), then a network with a contractor added on it slice by slice, then any history of calls that keep the slices of the tube (samplings
included), of additions of contractors, of triggers, resets (if the tube is not an intermediate variable) and contractions: no freed slice is ever read, and the slices of the network are alive.
Missing for the full claim: the calls that remove slices, and the resets of an intermediate tube, see below. -/
theorem C127_network_partial (n : Nat) (os : List Life.Op) (hc : LifeCareful (n + 1, .none) os) (interm : Bool) (ops : List NOp)
    (hn : NetCareful interm (os.foldl lifeAfter (n + 1, .none)) ops) :
    ∃ m0 m N, Life.Mem.build n = some m0 ∧ m0.run os = some m ∧ (addTube m interm).run ops = some N ∧
      (∀ s ∈ N.doms, s ∉ N.tube.deadS) ∧ (∀ s ∈ m.chain, s.id ∉ N.tube.deadS) ∧
      (N.tube.chain.length, N.tube.mode) = ops.foldl netAfter (os.foldl lifeAfter (n + 1, .none)) := by
  obtain ⟨m0, h1, h2, h3, h4⟩ := life_build n
  obtain ⟨m, g1, g2, g3, g4⟩ := life_run os h2 h3 (by rw [h4]; exact hc)
  rw [h4] at g4
  have hi : (addTube m interm).init.isSome = interm := by cases interm <;> rfl
  obtain ⟨N, k1, k2, _⟩ := net_run ops (net_add g2 g3 interm) (by rw [hi, g4]; exact hn)
  refine ⟨m0, m, N, h1, g1, k1, fun s hs => chain_alive k2.sane (k2.sub s hs), ?_, by rw [k2.view, g4]⟩
  have hsub : ∀ (ops : List NOp) (N N' : TNet), N.run ops = some N' → ∀ s ∈ N.doms, s ∈ N'.doms := by
    intro ops
    induction ops with
    | nil => intro N N' h s hs; cases h; exact hs
    | cons o ops ih =>
      intro N N' h s hs
      rw [TNet.run, Option.bind_eq_some_iff] at h
      obtain ⟨N1, e1, e2⟩ := h
      refine ih N1 N' e2 s ?_
      cases o with
      | user o =>
        simp only [TNet.step, Option.map_eq_some_iff] at e1
        obtain ⟨_, _, rfl⟩ := e1
        exact hs
      | again => cases e1; exact hs
      | addCtc => cases e1; exact List.mem_append_left _ hs
      | trigger => cases e1; exact hs
      | reset =>
        simp only [TNet.step] at e1
        split at e1
        · cases e1; exact hs
        · simp only [Option.map_eq_some_iff] at e1
          obtain ⟨_, _, rfl⟩ := e1
          exact hs
      | contract =>
        simp only [TNet.step] at e1
        split_ifs at e1
        cases e1; exact hs
  intro s hs
  exact chain_alive k2.sane (k2.sub s.id (hsub ops _ _ k1 s.id (List.mem_map_of_mem hs)))

/-- a network used again and again while its tube is sampled, with a tree -/
example : NetCareful false (3, .none) [.contract, .user .tree, .contract, .user (.set 1), .trigger, .contract, .user (.sample 1), .again, .addCtc, .contract, .reset, .contract] := by
  simp [NetCareful, NetAllowed, NetKeeps, netAfter, LifeAllowed, lifeAfter]

theorem grow_dead : ∀ (n : Nat) {m m' : Life.Mem}, m.grow n = some m' → m'.deadS = m.deadS
  | 0, m, m', h => by cases h; rfl
  | n + 1, m, m', h => by
    unfold Life.Mem.grow at h
    cases hl : m.chain.getLast? with
    | none =>
      rw [hl] at h
      exact (grow_dead n h).trans rfl
    | some p =>
      rw [hl] at h
      simp only [Option.bind_eq_some_iff] at h
      obtain ⟨m2, e1, e2⟩ := h
      rw [grow_dead n e2]
      unfold Life.Mem.freeG at e1
      split_ifs at e1
      cases e1; rfl

theorem delTree_dead {m m' : Life.Mem} (h : m.delTree = some m') : m'.deadS = m.deadS := by
  unfold Life.Mem.delTree at h
  split_ifs at h
  · cases ht : m.tree with
    | none => simp [ht] at h
    | some ls =>
      simp only [ht] at h
      split_ifs at h
      cases h; rfl
  · cases h; rfl

theorem delPoly_dead (m : Life.Mem) : m.delPoly.deadS = m.deadS := by unfold Life.Mem.delPoly; split_ifs <;> rfl

theorem assign_dead {m m' : Life.Mem} (h : Life.Sane m) {k : Nat} (he : m.step (.assign k) = some m') : ∀ s ∈ m.chain.map Life.Sl.id, s ∈ m'.deadS := by
  simp only [Life.Mem.step, Life.delAll_ok m.chain m h.linked h.nodupS h.nodupG, Option.bind_some, Option.bind_eq_some_iff] at he
  obtain ⟨m1, e1, e2⟩ := he
  intro s hs
  rw [grow_dead _ e2]
  show s ∈ m1.delPoly.deadS
  rw [delPoly_dead, delTree_dead e1]
  exact List.mem_append_right _ hs

theorem contract_dead {N : TNet} (hq : N.queued = true) {s : Nat} (hs : s ∈ N.doms) (hd : s ∈ N.tube.deadS) : N.step .contract = none := by
  simp only [TNet.step, hq, Bool.true_and]
  rw [if_pos]
  simp only [List.any_eq_true, decide_eq_true_eq]
  exact ⟨s, hs, hd⟩

/-- Whatever the history (of the calls proved safe above): if the tube is an intermediate variable of the network, `reset_interm_vars()` then `contract()` reads a freed slice. -/
theorem C127_reset_fails {m : Life.Mem} (h : Life.Sane m) (hs : Life.Synced m) (ops : List NOp) (hc : NetCareful true (m.chain.length, m.mode) ops) :
    (addTube m true).run (ops ++ [.reset, .contract]) = none := by
  obtain ⟨N, k1, k2, k3⟩ := net_run ops (net_add h hs true) hc
  rw [net_append, k1, Option.bind_some]
  have hi : N.init = some (m.chain.length - 1) := k3
  simp only [TNet.run]
  cases e : N.tube.step (.assign (m.chain.length - 1)) with
  | none => simp [TNet.step, hi, e]
  | some m' =>
    obtain ⟨s, l, hd⟩ := List.exists_cons_of_ne_nil k2.ne
    have hsd : s ∈ N.doms := by rw [hd]; simp
    have e1 : N.step .reset = some { N with tube := m', queued := true } := by simp [TNet.step, hi, e]
    rw [e1, Option.bind_some, contract_dead (N := { N with tube := m', queued := true }) rfl hsd (assign_dead k2.sane e s (k2.sub s hsd))]
    rfl

/-- The same when the user assigns another tube, removes slices with `truncate_tdomain` or merges two slices, then contracts. -/
theorem C127_change_fails {m : Life.Mem} (h : Life.Sane m) (hs : Life.Synced m) (interm : Bool) :
    (∀ k, (addTube m interm).run [.user (.assign k), .contract] = none) ∧
    (∀ a b, 0 < a + b → (addTube m interm).run [.user (.truncate a b), .contract] = none) ∧
    (∀ i, (addTube m interm).run [.user (.merge i), .contract] = none) := by
  have key : ∀ o, (∀ m', m.step o = some m' → ∃ s ∈ m.chain.map Life.Sl.id, s ∈ m'.deadS) → (addTube m interm).run [.user o, .contract] = none := by
    intro o ho
    simp only [TNet.run]
    cases e : m.step o with
    | none => simp [TNet.step, addTube, e]
    | some m' =>
      obtain ⟨s, h1, h2⟩ := ho m' e
      have e1 : (addTube m interm).step (.user o) = some { addTube m interm with tube := m' } := by simp [TNet.step, addTube, e]
      rw [e1, Option.bind_some, contract_dead (s := s) rfl h1 h2]
      rfl
  obtain ⟨s0, l0, hch⟩ := List.exists_cons_of_ne_nil hs.ne
  refine ⟨fun k => key _ fun m' e => ?_, fun a b h0 => key _ fun m' e => ?_, fun i => key _ fun m' e => ?_⟩
  · exact ⟨s0.id, by rw [hch]; simp, assign_dead h e s0.id (by rw [hch]; simp)⟩
  · by_cases hm : m.mode = .tree
    · rw [C126_truncate_fails h hs hm h0] at e; simp at e
    · simp only [Life.Mem.step] at e
      split_ifs at e with hab
      obtain ⟨m2, g1, _, _, _, g5⟩ := Life.truncate_sane h hab
      rw [Option.bind_eq_some_iff] at g1
      obtain ⟨m1, q1, q2⟩ := g1
      rw [q1, Option.bind_some, q2, Option.bind_some, Option.map_eq_some_iff] at e
      obtain ⟨m3, q3, rfl⟩ := e
      rw [delPoly_dead, delTree_dead q3]
      show ∃ s ∈ m.chain.map Life.Sl.id, s ∈ m2.deadS
      rw [g5]
      rcases Nat.eq_zero_or_pos a with rfl | hpos
      · refine ⟨(m.chain[m.chain.length - 1]'(by omega)).id, List.mem_map_of_mem (List.getElem_mem _), ?_⟩
        refine List.mem_append_right _ (List.mem_map_of_mem (List.mem_reverse.2 ?_))
        rw [List.mem_iff_getElem]
        refine ⟨b - 1, by rw [List.length_drop]; omega, ?_⟩
        rw [List.getElem_drop]
        congr 1
        omega
      · refine ⟨(m.chain[0]'(by omega)).id, List.mem_map_of_mem (List.getElem_mem _), ?_⟩
        refine List.mem_append_left _ (List.mem_append_right _ (List.mem_map_of_mem ?_))
        rw [List.mem_iff_getElem]
        exact ⟨0, by rw [List.length_take]; omega, by rw [List.getElem_take]⟩
  · by_cases hi : i + 1 < m.chain.length
    · obtain ⟨m1, g1, _, _, _, s2, q1, q2⟩ := Life.mergeAt_ok h hi (Life.notify_ok hs (by omega))
      have e' : m.mergeAt i = some m' := e
      rw [g1] at e'; cases e'
      exact ⟨s2.id, List.mem_map_of_mem (List.mem_of_getElem? q1), by rw [q2]; simp⟩
    · have : m.mergeAt i = none := by
        unfold Life.Mem.mergeAt
        have hl : (m.chain.drop i).length ≤ 1 := by rw [List.length_drop]; omega
        match hd : m.chain.drop i, hl with
        | [], _ => rfl
        | [_], _ => rfl
        | _ :: _ :: _, hl => simp at hl
      have e' : m.mergeAt i = some m' := e
      rw [this] at e'; simp at e'

/-- After a sampling of the tube, the new slice is unknown to the network: adding the `CtcDeriv` again, triggering all the contractors and contracting do not change that. -/
theorem C127_sampling_fails {m : Life.Mem} (h : Life.Sane m) (hs : Life.Synced m) (interm : Bool) {i : Nat} (hi : i < m.chain.length) :
    ∃ N, (addTube m interm).run [.user (.sample i), .again, .trigger, .contract] = some N ∧ N.queued = false ∧ ∃ s ∈ N.tube.chain, s.id ∉ N.doms := by
  have hq : (addTube m interm).init.isSome = interm := by cases interm <;> rfl
  obtain ⟨N, k1, k2, _⟩ := net_run [.user (.sample i), .again, .trigger, .contract] (net_add h hs interm)
    (by rw [hq]; simp [NetCareful, NetAllowed, NetKeeps, LifeAllowed, hi])
  refine ⟨N, k1, ?_⟩
  simp only [TNet.run, TNet.step, Option.bind_eq_some_iff, Option.map_eq_some_iff] at k1
  obtain ⟨N1, ⟨m', e1, rfl⟩, N2, e2, N3, e3, N4, e4, e5⟩ := k1
  cases e2; cases e3
  split_ifs at e4
  cases e4; cases e5
  refine ⟨rfl, ?_⟩
  obtain ⟨m1, h1, h2, _, _, h5, _, _, h8, _⟩ := Life.delTree_ok h hs
  have e1' : (m1.delPoly).split i = some m' := by
    have : m.step (.sample i) = some m' := e1
    simpa only [Life.Mem.step, h1, Option.bind_some] using this
  have hnew := (split_ids e1').2
  rw [List.mem_map] at hnew
  obtain ⟨s, hs1, hs2⟩ := hnew
  refine ⟨s, hs1, ?_⟩
  show s.id ∉ m.chain.map Life.Sl.id
  rw [hs2]
  have : m1.delPoly.nextS = m.nextS := by rw [← h8]; unfold Life.Mem.delPoly; split_ifs <;> rfl
  rw [this]
  intro hx
  have := h.slices.subset (List.mem_append_left _ hx)
  simp at this

/-- Another contractor added on the tube slice by slice sees all its slices, new ones included. -/
theorem C127_add_sees_all (N : TNet) : ∃ N', N.step .addCtc = some N' ∧ ∀ s ∈ N'.tube.chain, s.id ∈ N'.doms :=
  ⟨_, rfl, fun _ hs => List.mem_append_right _ (List.mem_map_of_mem hs)⟩

/-- the states of these theorems are reached: a tube of two slices, sampled -/
example : ∃ m0 m, Life.Mem.build 1 = some m0 ∧ m0.run [.sample 0] = some m ∧ Life.Sane m ∧ Life.Synced m ∧ m.chain.length = 3 := by
  obtain ⟨m0, h1, h2, h3, h4⟩ := life_build 1
  obtain ⟨m, g1, g2, g3, g4⟩ := life_run [.sample 0] h2 h3 (by rw [h4]; simp [LifeCareful, LifeAllowed])
  rw [h4] at g4
  simp only [List.foldl_cons, List.foldl_nil, lifeAfter, Prod.mk.injEq] at g4
  exact ⟨m0, m, h1, g1, g2, g3, g4.1⟩

example : ((Life.Mem.build 1).bind fun m => (addTube m true).run [.contract, .reset, .contract]) = none ∧
    ((Life.Mem.build 1).bind fun m => (addTube m false).run [.contract, .reset, .contract]).isSome = true := by decide

end Codac.Props
