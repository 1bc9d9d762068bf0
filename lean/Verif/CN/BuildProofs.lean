import Verif.CN.Build
import Mathlib.Order.Basic
import Mathlib.Order.Defs.LinearOrder
import Mathlib.Data.Nat.Basic

/-!
# Contractor network: the graph built by a sequence of calls
-/

namespace Codac.Built

/-! ### the order on the keys -/

theorem hLess_irrefl : ∀ h : List Nat, hLess h h = false
  | [] => rfl
  | x :: xs => by simp [hLess, hLess_irrefl xs]

theorem hLess_trans : ∀ {a b c : List Nat}, hLess a b = true → hLess b c = true → hLess a c = true
  | x :: xs, y :: ys, z :: zs, h1, h2 => by
    simp only [hLess] at h1 h2 ⊢
    by_cases e1 : x = y
    · rw [if_pos e1] at h1
      by_cases e2 : y = z
      · rw [if_pos e2] at h2
        rw [if_pos (e1.trans e2)]
        exact hLess_trans h1 h2
      · rw [if_neg e2] at h2
        rw [if_neg (e1 ▸ e2), e1]
        exact h2
    · rw [if_neg e1] at h1
      by_cases e2 : y = z
      · rw [if_neg (e2 ▸ e1), ← e2]
        exact h1
      · rw [if_neg e2] at h2
        have h3 : x < z := lt_trans (of_decide_eq_true h1) (of_decide_eq_true h2)
        rw [if_neg (ne_of_lt h3)]
        exact decide_eq_true h3
  | [], _, _, h1, _ => by simp [hLess] at h1
  | _ :: _, [], _, h1, _ => by simp [hLess] at h1
  | _ :: _, _ :: _, [], _, h2 => by simp [hLess] at h2

theorem same_iff : ∀ {h h' : List Nat}, same h h' = true ↔ h <+: h' ∨ h' <+: h
  | [], h' => by simp [same, hLess]
  | x :: xs, [] => by simp [same, hLess]
  | x :: xs, y :: ys => by
    by_cases e : x = y
    · subst e
      have ih := same_iff (h := xs) (h' := ys)
      simp only [same, hLess, if_pos, List.cons_prefix_cons, true_and] at ih ⊢
      exact ih
    · have e' : ¬ y = x := fun h => e h.symm
      simp only [same, hLess, List.cons_prefix_cons, e, e', false_and, or_self, iff_false]
      intro h
      simp at h
      omega

/-- keys whose last element is not in the other one -/
theorem same_iff_eq {ds ds' : List Nat} {c c' : Nat} (h : c ∉ ds') (h' : c' ∉ ds) :
    same (ds ++ [c]) (ds' ++ [c']) = true ↔ ds ++ [c] = ds' ++ [c'] := by
  rw [same_iff]
  constructor
  · have key : ∀ {ds ds' : List Nat} {c c' : Nat}, c ∉ ds' → ds ++ [c] <+: ds' ++ [c'] → ds ++ [c] = ds' ++ [c'] := by
      intro ds ds' c c' hc hp
      rw [List.prefix_concat_iff] at hp
      rcases hp with hp | hp
      · exact hp
      · exact absurd (hp.subset (by simp)) hc
    rintro (hp | hp)
    · exact key h hp
    · exact (key h' hp).symm
  · intro e
    exact Or.inl (e ▸ List.prefix_rfl)

/-! ### objects in memory -/

/-- the parts of a domain that are domains themselves -/
def Ref.parts : Ref → List Ref
  | .interval _ _ => []
  | .slice _ => []
  | .vec _ cs => cs.map fun c => .interval c.1 c.2
  | .tube _ ss => ss.map .slice
  | .tubeVec _ ts => ts.map fun t => .tube t.1 t.2

/-- the objects of a program: the domains, the static contractors, the dynamic contractors -/
structure Layout where
  ref : Ref → Prop
  stat : Nat → Prop
  dyn : Nat → Prop

/-- distinct objects are at distinct addresses, the parts of a domain are domains, a tube has a slice, a tube vector a
component, and the addresses 0 to 4
are not used -/
structure Layout.Ok (L : Layout) : Prop where
  full : ∀ a, ¬ L.ref (.tube a [])
  vfull : ∀ a, ¬ L.ref (.tubeVec a [])
  inj : ∀ r r', L.ref r → L.ref r' → r.addr = r'.addr → r = r'
  sub : ∀ r, L.ref r → ∀ p ∈ r.parts, L.ref p
  dom : ∀ r, L.ref r → 4 < r.addr ∧ ¬ L.stat r.addr ∧ ¬ L.dyn r.addr
  obj : ∀ n, L.stat n ∨ L.dyn n → 4 < n
  sd : ∀ n, L.stat n → ¬ L.dyn n

/-- the same constraint: the same object, or the same class for `CtcEval` and `CtcDeriv` -/
def SameCons : Kd → Kd → Prop
  | .eval _, .eval _ => True
  | .deriv _, .deriv _ => True
  | k, k' => k = k'

theorem SameCons.refl (k : Kd) : SameCons k k := by
  cases k <;> simp [SameCons]

theorem SameCons.trans {a b c : Kd} (h : SameCons a b) (h' : SameCons b c) : SameCons a c := by
  cases a <;> cases b <;> simp [SameCons] at h <;> cases c <;> simp [SameCons] at h' ⊢ <;> simp_all

/-- the constraint refers to an object of the program -/
def Kd.In (L : Layout) : Kd → Prop
  | .ibex o => L.stat o
  | .dyn o => L.dyn o
  | _ => True

theorem sameCons_of_code {L : Layout} (hL : L.Ok) {k k' : Kd} (h : k.In L) (h' : k'.In L) (e : k.code = k'.code) : SameCons k k' := by
  cases k <;> cases k' <;> simp only [Kd.code, Kd.In, SameCons] at * <;>
    first
    | trivial
    | omega
    | (have := hL.obj _ (Or.inl h); omega)
    | (have := hL.obj _ (Or.inr h); omega)
    | (have := hL.obj _ (Or.inl h'); omega)
    | (have := hL.obj _ (Or.inr h'); omega)
    | (subst e; exact absurd h' (hL.sd _ h))
    | (subst e; exact absurd h (hL.sd _ h'))
    | (subst e; rfl)

/-- a contractor whose domains and constraint are in the program -/
structure Ct.In (L : Layout) (c : Ct) : Prop where
  doms : ∀ d ∈ c.doms, ∃ r, L.ref r ∧ r.addr = d
  kind : c.kind.In L

theorem code_not_dom {L : Layout} (hL : L.Ok) {k : Kd} (hk : k.In L) {r : Ref} (hr : L.ref r) : r.addr ≠ k.code := by
  have h := hL.dom r hr
  cases k <;> simp only [Kd.code, Kd.In] at * <;>
    first
    | omega
    | (intro e; rw [e] at h; exact h.2.1 hk)
    | (intro e; rw [e] at h; exact h.2.2 hk)

theorem same_hash {L : Layout} (hL : L.Ok) {c c' : Ct} (h : c.In L) (h' : c'.In L) :
    same c.hash c'.hash = true ↔ c.doms = c'.doms ∧ SameCons c.kind c'.kind := by
  unfold Ct.hash
  rw [same_iff_eq]
  · constructor
    · intro e
      obtain ⟨e1, e2⟩ := List.append_inj' e rfl
      exact ⟨e1, sameCons_of_code hL h.kind h'.kind (by simpa using e2)⟩
    · rintro ⟨e1, e2⟩
      rw [e1]
      have : c.kind.code = c'.kind.code := by
        generalize c.kind = k at *
        generalize c'.kind = k' at *
        cases k <;> cases k' <;> simp [SameCons, Kd.code] at e2 ⊢ <;> exact e2
      rw [this]
  · intro hm
    obtain ⟨r, hr, e⟩ := h'.doms _ hm
    exact code_not_dom hL h.kind hr e
  · intro hm
    obtain ⟨r, hr, e⟩ := h.doms _ hm
    exact code_not_dom hL h'.kind hr e

/-! ### the graph -/

/-- what a network satisfies between two updates -/
structure Inv (L : Layout) (N : Net) : Prop where
  refs : ∀ r ∈ N.doms, L.ref r
  nodup : (N.doms.map Ref.addr).Nodup
  cin : ∀ c ∈ N.ctcs, c.In L
  known : ∀ c ∈ N.ctcs, ∀ d ∈ c.doms, ∃ r ∈ N.doms, r.addr = d
  reg : ∀ c ∈ N.ctcs, ∀ d ∈ c.doms, c ∈ N.links d
  lnk : ∀ d, ∀ c ∈ N.links d, c ∈ N.ctcs ∧ d ∈ c.doms
  uniq : N.ctcs.Pairwise fun c c' => same c.hash c'.hash = false
  que : N.queue.Perm N.ctcs

/-- nothing is removed -/
structure Le (N N' : Net) : Prop where
  doms : N.doms ⊆ N'.doms
  ctcs : N.ctcs ⊆ N'.ctcs
  pairs : N.pairs = N'.pairs

theorem Le.refl (N : Net) : Le N N := ⟨List.Subset.refl _, List.Subset.refl _, rfl⟩

theorem Le.trans {a b c : Net} (h : Le a b) (h' : Le b c) : Le a c :=
  ⟨fun _ hx => h'.doms (h.doms hx), fun _ hx => h'.ctcs (h.ctcs hx), h.pairs.trans h'.pairs⟩

theorem has_iff {N : Net} {a : Nat} : N.has a = true ↔ ∃ r ∈ N.doms, r.addr = a := by
  simp [Net.has]

theorem has_mono {N N' : Net} (h : Le N N') {a : Nat} (ha : N.has a = true) : N'.has a = true := by
  rw [has_iff] at *
  obtain ⟨r, hr, e⟩ := ha
  exact ⟨r, h.doms hr, e⟩

theorem push_inv {L : Layout} {N : Net} (h : Inv L N) {r : Ref} (hr : L.ref r) (hn : N.has r.addr = false) : Inv L (N.push r) where
  refs := by
    intro r' hr'
    simp only [Net.push, List.mem_append, List.mem_singleton] at hr'
    rcases hr' with hr' | rfl
    · exact h.refs _ hr'
    · exact hr
  nodup := by
    simp only [Net.push, List.map_append, List.map_cons, List.map_nil]
    rw [List.nodup_append]
    refine ⟨h.nodup, by simp, ?_⟩
    intro a ha b hb e
    simp only [List.mem_singleton] at hb
    obtain ⟨r', hr', e'⟩ := List.mem_map.1 ha
    have : N.has r.addr = true := has_iff.2 ⟨r', hr', by rw [e', e, hb]⟩
    rw [hn] at this
    exact absurd this (by simp)
  cin := h.cin
  known := by
    intro c hc d hd
    obtain ⟨r', hr', e⟩ := h.known c hc d hd
    exact ⟨r', List.mem_append_left _ hr', e⟩
  reg := h.reg
  lnk := h.lnk
  uniq := h.uniq
  que := h.que

theorem push_le (N : Net) (r : Ref) : Le N (N.push r) := ⟨fun _ h => List.mem_append_left _ h, List.Subset.refl _, rfl⟩

theorem push_has (N : Net) (r : Ref) : (N.push r).has r.addr = true := has_iff.2 ⟨r, by simp [Net.push], rfl⟩

theorem enqueue_perm (c : Ct) (q : List Ct) : (enqueue c q).Perm (c :: q) := by
  unfold enqueue
  split_ifs
  · exact List.perm_append_singleton c q
  · exact List.Perm.refl _

/-- adding a contractor whose domains are registered -/
theorem linkNew_spec {L : Layout} (hL : L.Ok) {N : Net} (h : Inv L N) {k : Kd} (hk : k.In L) {ds ls : List Nat}
    (hd : ∀ d ∈ ds, N.has d = true) (hl : ∀ d, d ∈ ls ↔ d ∈ ds) :
    Inv L (N.linkNew k ds ls) ∧ Le N (N.linkNew k ds ls) ∧ (N.linkNew k ds ls).doms = N.doms ∧
      (∃ c ∈ (N.linkNew k ds ls).ctcs, c.doms = ds ∧ SameCons c.kind k) ∧
      (∀ c ∈ (N.linkNew k ds ls).ctcs, c ∈ N.ctcs ∨ c = ⟨k, ds⟩) := by
  have hin : Ct.In L ⟨k, ds⟩ := by
    refine ⟨?_, hk⟩
    intro d hdd
    obtain ⟨r, hr, e⟩ := has_iff.1 (hd d hdd)
    exact ⟨r, h.refs r hr, e⟩
  unfold Net.linkNew Net.addCtc
  cases hf : N.ctcs.find? (fun c' => same c'.hash (Ct.mk k ds).hash) with
  | some c' =>
    have hm : c' ∈ N.ctcs := List.mem_of_find?_eq_some hf
    have hs : same c'.hash (Ct.mk k ds).hash = true := by simpa using List.find?_some hf
    obtain ⟨e1, e2⟩ := (same_hash hL (h.cin c' hm) hin).1 hs
    dsimp only
    refine ⟨?_, ⟨List.Subset.refl _, List.Subset.refl _, rfl⟩, rfl, ⟨c', hm, e1, e2⟩, fun c hc => Or.inl hc⟩
    exact
      { refs := h.refs
        nodup := h.nodup
        cin := h.cin
        known := h.known
        reg := fun c hc d hdd => List.mem_append_left _ (h.reg c hc d hdd)
        lnk := by
          intro d c hc
          simp only [Net.link, List.mem_append, List.mem_replicate] at hc
          rcases hc with hc | ⟨hc, rfl⟩
          · exact h.lnk d c hc
          · refine ⟨hm, ?_⟩
            rw [e1]
            exact (hl d).1 (List.count_pos_iff.1 (Nat.pos_of_ne_zero hc))
        uniq := h.uniq
        que := h.que }
  | none =>
    dsimp only
    have hno : ∀ c' ∈ N.ctcs, same c'.hash (Ct.mk k ds).hash = false := by
      intro c' hc'
      have := List.find?_eq_none.1 hf c' hc'
      simpa using this
    refine ⟨?_, ⟨List.Subset.refl _, fun _ hx => List.mem_append_left _ hx, rfl⟩, rfl,
      ⟨⟨k, ds⟩, by simp [Net.link], rfl, SameCons.refl k⟩, ?_⟩
    · exact
        { refs := h.refs
          nodup := h.nodup
          cin := by
            intro c hc
            simp only [Net.link, List.mem_append, List.mem_singleton] at hc
            rcases hc with hc | rfl
            · exact h.cin c hc
            · exact hin
          known := by
            intro c hc d hdd
            simp only [Net.link, List.mem_append, List.mem_singleton] at hc
            rcases hc with hc | rfl
            · exact h.known c hc d hdd
            · exact has_iff.1 (hd d hdd)
          reg := by
            intro c hc d hdd
            simp only [Net.link, List.mem_append, List.mem_singleton, List.mem_replicate] at hc ⊢
            rcases hc with hc | rfl
            · exact Or.inl (h.reg c hc d hdd)
            · exact Or.inr ⟨Nat.ne_of_gt (List.count_pos_iff.2 ((hl d).2 hdd)), rfl⟩
          lnk := by
            intro d c hc
            simp only [Net.link, List.mem_append, List.mem_singleton, List.mem_replicate] at hc ⊢
            rcases hc with hc | ⟨hc, rfl⟩
            · exact ⟨Or.inl (h.lnk d c hc).1, (h.lnk d c hc).2⟩
            · exact ⟨Or.inr rfl, (hl d).1 (List.count_pos_iff.1 (Nat.pos_of_ne_zero hc))⟩
          uniq := by
            simp only [Net.link]
            rw [List.pairwise_append]
            refine ⟨h.uniq, by simp, ?_⟩
            intro c hc c' hc'
            simp only [List.mem_singleton] at hc'
            subst hc'
            exact hno c hc
          que := by
            simp only [Net.link]
            exact (enqueue_perm _ _).trans ((List.Perm.cons _ h.que).trans (List.perm_append_singleton _ _).symm) }
    · intro c hc
      simpa [Net.link] using hc

/-! ### registering domains -/

/-- the links between a domain and its parts -/
inductive Part : Ref → Ct → Prop
  | vec (a cs) : Part (.vec a cs) ⟨.component, a :: cs.map Prod.fst⟩
  | tube (a ss) : Part (.tube a ss) ⟨.component, a :: ss⟩
  | tubeVec (a ts) : Part (.tubeVec a ts) ⟨.component, a :: ts.map Prod.fst⟩
  | next (a ss) (i s s' : Nat) : ss[i]? = some s → ss[i + 1]? = some s' → Part (.tube a ss) ⟨.component, [s, s']⟩

/-- the domains in `X` are being registered, the links of the other ones are there -/
structure Closed (X : List Ref) (N : Net) : Prop where
  parts : ∀ r ∈ N.doms, r ∉ X → ∀ p ∈ r.parts, p ∈ N.doms
  cts : ∀ r ∈ N.doms, r ∉ X → ∀ c, Part r c → ∃ c' ∈ N.ctcs, c'.doms = c.doms ∧ SameCons c'.kind c.kind

/-- result of a registration: `S` are the contractors that may be new -/
structure Step (L : Layout) (X : List Ref) (N N' : Net) : Prop where
  inv : Inv L N'
  le : Le N N'
  closed : Closed X N'
  org : ∀ c ∈ N'.ctcs, c ∈ N.ctcs ∨ ∃ r ∈ N'.doms, Part r c

theorem Step.refl {L : Layout} {X : List Ref} {N : Net} (h : Inv L N) (hc : Closed X N) : Step L X N N :=
  ⟨h, Le.refl N, hc, fun _ h => Or.inl h⟩

theorem Step.trans {L : Layout} {X Y : List Ref} {a b c : Net} (h : Step L X a b) (h' : Step L Y b c) : Step L Y a c :=
  ⟨h'.inv, h.le.trans h'.le, h'.closed, by
    intro k hk
    rcases h'.org k hk with hk | hk
    · rcases h.org k hk with hk | ⟨r, hr, hp⟩
      · exact Or.inl hk
      · exact Or.inr ⟨r, h'.le.doms hr, hp⟩
    · exact Or.inr hk⟩

theorem mem_of_has {L : Layout} (hL : L.Ok) {N : Net} (h : Inv L N) {r : Ref} (hr : L.ref r) (ha : N.has r.addr = true) : r ∈ N.doms := by
  obtain ⟨r', hr', e⟩ := has_iff.1 ha
  rw [← hL.inj r' r (h.refs r' hr') hr e]
  exact hr'

theorem closed_mono {X : List Ref} {N N' : Net} (h : Closed X N) (hd : N'.doms = N.doms) (hc : N.ctcs ⊆ N'.ctcs) : Closed X N' :=
  ⟨fun r hr hx p hp => hd ▸ h.parts r (hd ▸ hr) hx p hp, fun r hr hx c hp => by
    obtain ⟨c', h1, h2⟩ := h.cts r (hd ▸ hr) hx c hp
    exact ⟨c', hc h1, h2⟩⟩

theorem addLeaf_spec {L : Layout} (hL : L.Ok) {X : List Ref} {N : Net} (h : Inv L N) (hc : Closed X N) {r : Ref} (hr : L.ref r)
    (hp : r.parts = []) (hq : ∀ c, ¬ Part r c) : Step L X N (N.addLeaf r) ∧ r ∈ (N.addLeaf r).doms := by
  unfold Net.addLeaf
  by_cases hn : N.has r.addr = true
  · rw [if_pos hn]
    exact ⟨Step.refl h hc, mem_of_has hL h hr hn⟩
  · rw [if_neg hn]
    have hn' : N.has r.addr = false := by simpa using hn
    refine ⟨⟨push_inv h hr hn', push_le N r, ⟨?_, ?_⟩, fun c hc => Or.inl hc⟩, by simp [Net.push]⟩
    · intro r' hr' hx p hpp
      simp only [Net.push, List.mem_append, List.mem_singleton] at hr' ⊢
      rcases hr' with hr' | rfl
      · exact Or.inl (hc.parts r' hr' hx p hpp)
      · rw [hp] at hpp
        simp at hpp
    · intro r' hr' hx c hpp
      simp only [Net.push, List.mem_append, List.mem_singleton] at hr'
      rcases hr' with hr' | rfl
      · exact hc.cts r' hr' hx c hpp
      · exact absurd hpp (hq c)

theorem not_part_slice {s : Nat} (c : Ct) : ¬ Part (.slice s) c := by
  rintro ⟨⟩

theorem not_part_interval {a v : Nat} (c : Ct) : ¬ Part (.interval a v) c := by
  rintro ⟨⟩

theorem addLeaves_spec {L : Layout} (hL : L.Ok) {X : List Ref} : ∀ (rs : List Ref) {N : Net}, Inv L N → Closed X N →
    (∀ r ∈ rs, L.ref r ∧ r.parts = [] ∧ ∀ c, ¬ Part r c) →
    Step L X N (rs.foldl Net.addLeaf N) ∧ ∀ r ∈ rs, r ∈ (rs.foldl Net.addLeaf N).doms
  | [], N, h, hc, _ => ⟨Step.refl h hc, by simp⟩
  | r :: rs, N, h, hc, hrs => by
    obtain ⟨h1, h2, h3⟩ := hrs r (by simp)
    obtain ⟨s1, m1⟩ := addLeaf_spec hL h hc h1 h2 h3
    obtain ⟨s2, m2⟩ := addLeaves_spec hL rs s1.inv s1.closed (fun r' hr' => hrs r' (List.mem_cons_of_mem _ hr'))
    refine ⟨s1.trans s2, ?_⟩
    intro r' hr'
    rcases List.mem_cons.1 hr' with rfl | hr'
    · exact s2.le.doms m1
    · exact m2 r' hr'

/-- a link between a domain and its parts -/
theorem linkPart_spec {L : Layout} (hL : L.Ok) {X : List Ref} {N : Net} (h : Inv L N) (hc : Closed X N) {r : Ref} (hr : r ∈ N.doms) {ds ls : List Nat}
    (hd : ∀ d ∈ ds, N.has d = true) (hl : ∀ d, d ∈ ls ↔ d ∈ ds) (hp : Part r ⟨.component, ds⟩) :
    Step L X N (N.linkNew .component ds ls) ∧
      ∃ c ∈ (N.linkNew .component ds ls).ctcs, c.doms = ds ∧ SameCons c.kind .component := by
  obtain ⟨i1, l1, d1, e1, o1⟩ := linkNew_spec hL h (k := .component) (by trivial) hd hl
  refine ⟨⟨i1, l1, closed_mono hc d1 l1.ctcs, ?_⟩, e1⟩
  intro c hcc
  rcases o1 c hcc with hcc | rfl
  · exact Or.inl hcc
  · exact Or.inr ⟨r, by rw [d1]; exact hr, hp⟩

theorem addPairs_spec {L : Layout} (hL : L.Ok) {X : List Ref} {r : Ref} : ∀ (ss : List Nat) {N : Net}, Inv L N → Closed X N → r ∈ N.doms →
    (∀ s ∈ ss, L.ref (.slice s)) →
    (∀ (i s s' : Nat), ss[i]? = some s → ss[i + 1]? = some s' → Part r ⟨.component, [s, s']⟩) →
    Step L X N (N.addPairs ss) ∧
      ∀ (i s s' : Nat), ss[i]? = some s → ss[i + 1]? = some s' → ∃ c ∈ (N.addPairs ss).ctcs, c.doms = [s, s'] ∧ SameCons c.kind .component
  | [], N, h, hc, _, _, _ => ⟨Step.refl h hc, by simp⟩
  | [s], N, h, hc, _, _, _ => ⟨Step.refl h hc, by intro i s s' _ h2; simp at h2⟩
  | s :: s' :: ss, N, h, hc, hr, href, hp => by
    obtain ⟨st1, m1⟩ := addLeaf_spec hL h hc (r := .slice s) (href s (by simp)) rfl not_part_slice
    obtain ⟨st2, m2⟩ := addLeaf_spec hL st1.inv st1.closed (r := .slice s') (href s' (by simp)) rfl not_part_slice
    have hd : ∀ d ∈ [s, s'], ((N.addLeaf (.slice s)).addLeaf (.slice s')).has d = true := by
      intro d hd
      simp only [List.mem_cons, List.not_mem_nil, or_false] at hd
      rcases hd with rfl | rfl
      · exact has_iff.2 ⟨_, st2.le.doms m1, rfl⟩
      · exact has_iff.2 ⟨_, m2, rfl⟩
    obtain ⟨st3, e3⟩ := linkPart_spec hL st2.inv st2.closed (st2.le.doms (st1.le.doms hr)) hd (fun _ => Iff.rfl)
      (hp 0 s s' (by simp) (by simp))
    obtain ⟨st4, e4⟩ := addPairs_spec hL (s' :: ss) st3.inv st3.closed (st3.le.doms (st2.le.doms (st1.le.doms hr)))
      (fun x hx => href x (List.mem_cons_of_mem _ hx)) (fun i a b h1 h2 => hp (i + 1) a b (by simpa using h1) (by simpa using h2))
    refine ⟨((st1.trans st2).trans st3).trans st4, ?_⟩
    intro i a b h1 h2
    cases i with
    | zero =>
      simp only [List.getElem?_cons_zero, Option.some.injEq, Nat.zero_add, List.getElem?_cons_succ] at h1 h2
      subst h1 h2
      obtain ⟨c, hcm, hce⟩ := e3
      exact ⟨c, st4.le.ctcs hcm, hce⟩
    | succ i => exact e4 i a b (by simpa using h1) (by simpa using h2)

theorem closed_cons {X : List Ref} {N : Net} {r : Ref} (h : Closed (r :: X) N) (h1 : ∀ p ∈ r.parts, p ∈ N.doms)
    (h2 : ∀ c, Part r c → ∃ c' ∈ N.ctcs, c'.doms = c.doms ∧ SameCons c'.kind c.kind) : Closed X N where
  parts := by
    intro r' hr' hx p hp
    by_cases e : r' = r
    · subst e
      exact h1 p hp
    · exact h.parts r' hr' (by simp [e, hx]) p hp
  cts := by
    intro r' hr' hx c hp
    by_cases e : r' = r
    · subst e
      exact h2 c hp
    · exact h.cts r' hr' (by simp [e, hx]) c hp

theorem push_closed {X : List Ref} {N : Net} (h : Closed X N) (r : Ref) : Closed (r :: X) (N.push r) where
  parts := by
    intro r' hr' hx p hp
    simp only [List.mem_cons, not_or] at hx
    simp only [Net.push, List.mem_append, List.mem_singleton] at hr' ⊢
    rcases hr' with hr' | e
    · exact Or.inl (h.parts r' hr' hx.2 p hp)
    · exact absurd e hx.1
  cts := by
    intro r' hr' hx c hp
    simp only [List.mem_cons, not_or] at hx
    simp only [Net.push, List.mem_append, List.mem_singleton] at hr'
    rcases hr' with hr' | e
    · exact h.cts r' hr' hx.2 c hp
    · exact absurd e hx.1

theorem push_step {L : Layout} {X : List Ref} {N : Net} (h : Inv L N) (hc : Closed X N) {r : Ref} (hr : L.ref r)
    (hn : N.has r.addr = false) : Step L (r :: X) N (N.push r) :=
  ⟨push_inv h hr hn, push_le N r, push_closed hc r, fun _ h => Or.inl h⟩

theorem addTube_spec {L : Layout} (hL : L.Ok) {X : List Ref} {N : Net} (h : Inv L N) (hc : Closed X N) {a : Nat} {ss : List Nat}
    (hr : L.ref (.tube a ss)) : Step L X N (N.addTube a ss) ∧ Ref.tube a ss ∈ (N.addTube a ss).doms := by
  unfold Net.addTube
  by_cases hn : N.has a = true
  · rw [if_pos hn]
    exact ⟨Step.refl h hc, mem_of_has hL h hr hn⟩
  · rw [if_neg hn]
    dsimp only
    have hsl : ∀ s ∈ ss, L.ref (.slice s) := fun s hs => hL.sub _ hr _ (List.mem_map.2 ⟨s, hs, rfl⟩)
    have st0 := push_step h hc (r := .tube a ss) hr (by simpa [Ref.addr] using hn)
    obtain ⟨st1, m1⟩ := addLeaves_spec hL (ss.map Ref.slice) st0.inv st0.closed (by
      intro r hr'
      obtain ⟨s, hs, rfl⟩ := List.mem_map.1 hr'
      exact ⟨hsl s hs, rfl, not_part_slice⟩)
    generalize (ss.map Ref.slice).foldl Net.addLeaf (N.push (.tube a ss)) = N1 at *
    have m0 : Ref.tube a ss ∈ N1.doms := st1.le.doms (by simp [Net.push])
    have hd : ∀ d ∈ a :: ss, N1.has d = true := by
      intro d hd
      rcases List.mem_cons.1 hd with rfl | hd
      · exact has_iff.2 ⟨_, m0, rfl⟩
      · exact has_iff.2 ⟨_, m1 _ (List.mem_map.2 ⟨d, hd, rfl⟩), rfl⟩
    obtain ⟨st2, e2⟩ := linkPart_spec hL st1.inv st1.closed m0 hd (ls := a :: a :: ss) (by intro d; simp) (Part.tube a ss)
    obtain ⟨st3, e3⟩ := addPairs_spec hL ss st2.inv st2.closed (st2.le.doms m0) hsl (fun i s s' h1 h2 => Part.next a ss i s s' h1 h2)
    have m3 := st3.le.doms (st2.le.doms m0)
    have st := ((st0.trans st1).trans st2).trans st3
    refine ⟨⟨st.inv, st.le, ?_, st.org⟩, m3⟩
    refine closed_cons st.closed ?_ ?_
    · intro p hp
      exact st3.le.doms (st2.le.doms (m1 p hp))
    · intro c hp
      cases hp with
      | tube =>
        obtain ⟨c', h1, h2⟩ := e2
        exact ⟨c', st3.le.ctcs h1, h2⟩
      | next _ _ i s s' h1 h2 => exact e3 i s s' h1 h2

theorem addTubes_spec {L : Layout} (hL : L.Ok) {X : List Ref} : ∀ (ts : List (Nat × List Nat)) {N : Net}, Inv L N → Closed X N →
    (∀ t ∈ ts, L.ref (.tube t.1 t.2)) →
    Step L X N (ts.foldl (fun N t => N.addTube t.1 t.2) N) ∧ ∀ t ∈ ts, Ref.tube t.1 t.2 ∈ (ts.foldl (fun N t => N.addTube t.1 t.2) N).doms
  | [], N, h, hc, _ => ⟨Step.refl h hc, by simp⟩
  | t :: ts, N, h, hc, hts => by
    obtain ⟨s1, m1⟩ := addTube_spec hL h hc (hts t (by simp))
    obtain ⟨s2, m2⟩ := addTubes_spec hL ts s1.inv s1.closed (fun t' ht' => hts t' (List.mem_cons_of_mem _ ht'))
    refine ⟨s1.trans s2, ?_⟩
    intro t' ht'
    rcases List.mem_cons.1 ht' with rfl | ht'
    · exact s2.le.doms m1
    · exact m2 t' ht'

/-- registration of a domain -/
theorem addDom_spec {L : Layout} (hL : L.Ok) {N : Net} (h : Inv L N) (hc : Closed [] N) {r : Ref} (hr : L.ref r) :
    Step L [] N (N.addDom r) ∧ r ∈ (N.addDom r).doms := by
  cases r with
  | interval a v => exact addLeaf_spec hL h hc hr rfl not_part_interval
  | slice a => exact addLeaf_spec hL h hc hr rfl not_part_slice
  | tube a ss => exact addTube_spec hL h hc hr
  | vec a cs =>
    simp only [Net.addDom]
    by_cases hn : N.has a = true
    · rw [if_pos hn]
      exact ⟨Step.refl h hc, mem_of_has hL h hr hn⟩
    · rw [if_neg hn]
      have st0 := push_step h hc (r := .vec a cs) hr (by simpa [Ref.addr] using hn)
      obtain ⟨st1, m1⟩ := addLeaves_spec hL (cs.map fun c => Ref.interval c.1 c.2) st0.inv st0.closed (by
        intro r hr'
        have := hL.sub _ hr r hr'
        obtain ⟨s, hs, rfl⟩ := List.mem_map.1 hr'
        exact ⟨this, rfl, not_part_interval⟩)
      generalize (cs.map fun c => Ref.interval c.1 c.2).foldl Net.addLeaf (N.push (.vec a cs)) = N1 at *
      have m0 : Ref.vec a cs ∈ N1.doms := st1.le.doms (by simp [Net.push])
      have hd : ∀ d ∈ a :: cs.map Prod.fst, N1.has d = true := by
        intro d hd
        rcases List.mem_cons.1 hd with rfl | hd
        · exact has_iff.2 ⟨_, m0, rfl⟩
        · obtain ⟨c, hcc, rfl⟩ := List.mem_map.1 hd
          exact has_iff.2 ⟨_, m1 _ (List.mem_map.2 ⟨c, hcc, rfl⟩), rfl⟩
      obtain ⟨st2, e2⟩ := linkPart_spec hL st1.inv st1.closed m0 hd (fun _ => Iff.rfl) (Part.vec a cs)
      have st := (st0.trans st1).trans st2
      refine ⟨⟨st.inv, st.le, closed_cons st.closed ?_ ?_, st.org⟩, st2.le.doms m0⟩
      · intro p hp
        exact st2.le.doms (m1 p hp)
      · intro c hp
        cases hp
        exact e2
  | tubeVec a ts =>
    simp only [Net.addDom]
    by_cases hn : N.has a = true
    · rw [if_pos hn]
      exact ⟨Step.refl h hc, mem_of_has hL h hr hn⟩
    · rw [if_neg hn]
      have st0 := push_step h hc (r := .tubeVec a ts) hr (by simpa [Ref.addr] using hn)
      obtain ⟨st1, m1⟩ := addTubes_spec hL ts st0.inv st0.closed
        (fun t ht => hL.sub _ hr _ (List.mem_map.2 ⟨t, ht, rfl⟩))
      generalize ts.foldl (fun N t => N.addTube t.1 t.2) (N.push (.tubeVec a ts)) = N1 at *
      have m0 : Ref.tubeVec a ts ∈ N1.doms := st1.le.doms (by simp [Net.push])
      have hd : ∀ d ∈ a :: ts.map Prod.fst, N1.has d = true := by
        intro d hd
        rcases List.mem_cons.1 hd with rfl | hd
        · exact has_iff.2 ⟨_, m0, rfl⟩
        · obtain ⟨c, hcc, rfl⟩ := List.mem_map.1 hd
          exact has_iff.2 ⟨_, m1 c hcc, rfl⟩
      obtain ⟨st2, e2⟩ := linkPart_spec hL st1.inv st1.closed m0 hd (ls := a :: a :: ts.map Prod.fst) (by intro d; simp) (Part.tubeVec a ts)
      have st := (st0.trans st1).trans st2
      refine ⟨⟨st.inv, st.le, closed_cons st.closed ?_ ?_, st.org⟩, st2.le.doms m0⟩
      · intro p hp
        obtain ⟨t, ht, rfl⟩ := List.mem_map.1 hp
        exact st2.le.doms (m1 t ht)
      · intro c hp
        cases hp
        exact e2

theorem addDoms_spec {L : Layout} (hL : L.Ok) : ∀ (rs : List Ref) {N : Net}, Inv L N → Closed [] N → (∀ r ∈ rs, L.ref r) →
    Step L [] N (rs.foldl Net.addDom N) ∧ ∀ r ∈ rs, r ∈ (rs.foldl Net.addDom N).doms
  | [], N, h, hc, _ => ⟨Step.refl h hc, by simp⟩
  | r :: rs, N, h, hc, hrs => by
    obtain ⟨s1, m1⟩ := addDom_spec hL h hc (hrs r (by simp))
    obtain ⟨s2, m2⟩ := addDoms_spec hL rs s1.inv s1.closed (fun r' hr' => hrs r' (List.mem_cons_of_mem _ hr'))
    refine ⟨s1.trans s2, ?_⟩
    intro r' hr'
    rcases List.mem_cons.1 hr' with rfl | hr'
    · exact s2.le.doms m1
    · exact m2 r' hr'

end Codac.Built
