import Verif.CN.BuildProofs

/-!
# Contractor network: which contractors the calls create
-/

namespace Codac.Built

/-! ### what a call asks for -/

/-- the scalar domains of a domain at the `k`-th slice -/
def scalarsAt (k : Nat) : Ref → List Nat
  | .interval a _ => [a]
  | .slice a => [a]
  | .vec _ cs => cs.map Prod.fst
  | .tube _ ss => ss[k]?.toList
  | .tubeVec _ ts => ts.flatMap fun t => t.2[k]?.toList

/-- the `i`-th component of a domain at the `k`-th slice -/
def componentAt (i k : Nat) : Ref → List Nat
  | .interval a _ => [a]
  | .slice a => [a]
  | .vec _ cs => (cs[i]?.map Prod.fst).toList
  | .tube _ ss => ss[k]?.toList
  | .tubeVec _ ts => (ts[i]?.bind fun t => t.2[k]?).toList

/-- the tubes have a `k`-th slice; without tube there is one instance only -/
def ValidSlice (ds : List Ref) (k : Nat) : Prop :=
  (∀ r ∈ ds, ∀ n, r.slices? = some n → k < n) ∧ ((∀ r ∈ ds, r.slices? = none) → k = 0)

/-- an instance of a static constraint of dimension `nv`: its scalar domains at some slice, or (arrays) the `i`-th components of the domains
at some slice -/
def Instance (nv : Nat) (ds : List Ref) (doms : List Nat) : Prop :=
  ∃ k, ValidSlice ds k ∧
    ((totalSize ds = nv ∧ doms = ds.flatMap (scalarsAt k)) ∨
      (totalSize ds ≠ nv ∧ ∃ i, i < totalSize ds / nv ∧ doms = ds.flatMap (componentAt i k)))

/-- an instance of a dynamic constraint: the domains themselves, or their slices at some rank for a constraint that is not inter-temporal -/
def DynInstance (inter : Bool) (ds : List Ref) (doms : List Nat) : Prop :=
  ((inter = true ∨ ∀ r ∈ ds, isSlice r = true) ∧ doms = ds.map Ref.addr) ∨
    (inter = false ∧ (∃ r ∈ ds, isSlice r = false) ∧
      ∃ k, (∀ r ∈ ds, ∀ n, r.slices? = some n → k < n) ∧ doms = ds.flatMap (scalarsAt k))

/-- the constraints a call asks for; `own` is the `CtcDeriv` object of the network -/
def Op.Wants (own : Nat) : Op → Kd → List Nat → Prop
  | .stat obj nv ds, k, doms => k = .ibex obj ∧ Instance nv ds doms
  | .dyn (.eval o) _ ds, k, doms =>
    (k = .eval o ∧ doms = ds.map Ref.addr) ∨
      ∃ t z x v, ds = [t, z, x, v] ∧ k = .deriv own ∧ DynInstance false [x, v] doms
  | .dyn (.deriv o) _ ds, k, doms => k = .deriv o ∧ DynInstance false ds doms
  | .dyn (.dyn o) inter ds, k, doms => k = .dyn o ∧ DynInstance inter ds doms
  | .dyn _ _ _, _, _ => False
  | .var _, _, _ => False
  | .sub _ cs _ ds start, k, doms =>
    k = .equality ∧ ∃ (i : Nat) (s v : Nat × Nat), ds[i]? = some s ∧ cs[i + start]? = some v ∧ doms = [s.1, v.1]

/-- the objects of a call are in the program -/
def Op.In (L : Layout) : Op → Prop
  | .stat obj _ ds => L.stat obj ∧ ∀ r ∈ ds, L.ref r
  | .dyn k _ ds => k.In L ∧ ∀ r ∈ ds, L.ref r
  | .var r => L.ref r
  | .sub a cs b ds _ => L.ref (.vec a cs) ∧ L.ref (.vec b ds)

/-- the constraint `k` on the domains `doms` is in the network -/
def Net.Has (N : Net) (k : Kd) (doms : List Nat) : Prop := ∃ c ∈ N.ctcs, c.doms = doms ∧ SameCons c.kind k

theorem Net.Has.mono {N N' : Net} (h : N.ctcs ⊆ N'.ctcs) {k : Kd} {doms : List Nat} (hh : N.Has k doms) : N'.Has k doms := by
  obtain ⟨c, hc, e⟩ := hh
  exact ⟨c, h hc, e⟩

/-! ### rows -/

/-- progress of a call; `W` are the constraints it may create -/
structure Prog (L : Layout) (W : Kd → List Nat → Prop) (N N' : Net) : Prop where
  inv : Inv L N'
  closed : Closed [] N'
  le : Le N N'
  org : ∀ c ∈ N'.ctcs, c ∈ N.ctcs ∨ (∃ r ∈ N'.doms, Part r c) ∨ W c.kind c.doms

theorem Prog.trans {L : Layout} {W : Kd → List Nat → Prop} {a b c : Net} (h : Prog L W a b) (h' : Prog L W b c) : Prog L W a c :=
  ⟨h'.inv, h'.closed, h.le.trans h'.le, by
    intro k hk
    rcases h'.org k hk with hk | hk
    · rcases h.org k hk with hk | ⟨r, hr, hp⟩ | hk
      · exact Or.inl hk
      · exact Or.inr (Or.inl ⟨r, h'.le.doms hr, hp⟩)
      · exact Or.inr (Or.inr hk)
    · exact Or.inr hk⟩

theorem Prog.of_step {L : Layout} {W : Kd → List Nat → Prop} {a b : Net} (h : Step L [] a b) : Prog L W a b :=
  ⟨h.inv, h.closed, h.le, fun c hc => (h.org c hc).imp id Or.inl⟩

theorem Prog.weaken {L : Layout} {W W' : Kd → List Nat → Prop} {a b : Net} (h : Prog L W a b) (hw : ∀ k d, W k d → W' k d) : Prog L W' a b :=
  ⟨h.inv, h.closed, h.le, fun c hc => (h.org c hc).imp id (Or.imp id (hw _ _))⟩

theorem Prog.refl {L : Layout} {W : Kd → List Nat → Prop} {N : Net} (h : Inv L N) (hc : Closed [] N) : Prog L W N N :=
  ⟨h, hc, Le.refl N, fun _ h => Or.inl h⟩

theorem linkNew_prog {L : Layout} (hL : L.Ok) {W : Kd → List Nat → Prop} {N : Net} (h : Inv L N) (hc : Closed [] N) {k : Kd} (hk : k.In L) {ds : List Nat}
    (hd : ∀ d ∈ ds, N.has d = true) (hw : W k ds) : Prog L W N (N.linkNew k ds ds) ∧ (N.linkNew k ds ds).Has k ds := by
  obtain ⟨i1, l1, d1, e1, o1⟩ := linkNew_spec hL h hk hd (fun _ => Iff.rfl)
  refine ⟨⟨i1, closed_mono hc d1 l1.ctcs, l1, ?_⟩, e1⟩
  intro c hcc
  rcases o1 c hcc with hcc | rfl
  · exact Or.inl hcc
  · exact Or.inr (Or.inr hw)

theorem addRow_spec {L : Layout} (hL : L.Ok) {W : Kd → List Nat → Prop} {N : Net} (h : Inv L N) (hc : Closed [] N) {k : Kd} (hk : k.In L) {row : List Ref}
    (hr : ∀ r ∈ row, L.ref r) (hw : W k (row.map Ref.addr)) :
    Prog L W N (N.addRow k row) ∧ (N.addRow k row).Has k (row.map Ref.addr) := by
  obtain ⟨s1, m1⟩ := addDoms_spec hL row h hc hr
  unfold Net.addRow
  obtain ⟨p, e⟩ := linkNew_prog hL s1.inv s1.closed hk (ds := row.map Ref.addr) (by
    intro d hd
    obtain ⟨r, hr', rfl⟩ := List.mem_map.1 hd
    exact has_iff.2 ⟨r, m1 r hr', rfl⟩) hw
  exact ⟨(Prog.of_step s1).trans p, e⟩

theorem addRows_spec {L : Layout} (hL : L.Ok) {W : Kd → List Nat → Prop} {k : Kd} (hk : k.In L) : ∀ (rows : List (List Ref)) {N : Net},
    Inv L N → Closed [] N → (∀ row ∈ rows, (∀ r ∈ row, L.ref r) ∧ W k (row.map Ref.addr)) →
    Prog L W N (rows.foldl (fun N row => N.addRow k row) N) ∧
      ∀ row ∈ rows, (rows.foldl (fun N row => N.addRow k row) N).Has k (row.map Ref.addr)
  | [], N, h, hc, _ => ⟨Prog.refl h hc, by simp⟩
  | row :: rows, N, h, hc, hr => by
    obtain ⟨p1, e1⟩ := addRow_spec hL h hc hk (hr row (by simp)).1 (hr row (by simp)).2
    obtain ⟨p2, e2⟩ := addRows_spec hL hk rows p1.inv p1.closed (fun r hr' => hr r (List.mem_cons_of_mem _ hr'))
    refine ⟨p1.trans p2, ?_⟩
    intro r hr'
    rcases List.mem_cons.1 hr' with rfl | hr'
    · exact e1.mono p2.le.ctcs
    · exact e2 r hr'

/-! ### the rows of a call -/

theorem mapM_forall₂ {α β : Type*} {f : α → Option β} : ∀ {l : List α} {r : List β}, l.mapM f = some r →
    List.Forall₂ (fun a b => f a = some b) l r
  | [], r, h => by
    simp at h
    subst h
    exact List.Forall₂.nil
  | a :: l, r, h => by
    simp only [List.mapM_cons, Option.bind_eq_bind, Option.pure_def, Option.bind_eq_some_iff] at h
    obtain ⟨b, hb, bs, hbs, e⟩ := h
    obtain rfl := Option.some.inj e
    exact List.Forall₂.cons hb (mapM_forall₂ hbs)

theorem forall₂_flat {f : Ref → Option (List Ref)} {g : Ref → List Nat} (hfg : ∀ r rs, f r = some rs → rs.map Ref.addr = g r) :
    ∀ {ds : List Ref} {rs : List (List Ref)}, List.Forall₂ (fun a b => f a = some b) ds rs → rs.flatten.map Ref.addr = ds.flatMap g
  | _, _, .nil => rfl
  | _, _, .cons h hs => by
    simp only [List.flatten_cons, List.map_append, List.flatMap_cons, hfg _ _ h, forall₂_flat hfg hs]

theorem forall₂_mem {α β : Type*} {R : α → β → Prop} : ∀ {l : List α} {r : List β}, List.Forall₂ R l r → ∀ b ∈ r, ∃ a ∈ l, R a b
  | _, _, .nil, b, hb => by simp at hb
  | _, _, .cons h hs, b, hb => by
    rcases List.mem_cons.1 hb with rfl | hb
    · exact ⟨_, by simp, h⟩
    · obtain ⟨a, ha, hr⟩ := forall₂_mem hs b hb
      exact ⟨a, List.mem_cons_of_mem _ ha, hr⟩

theorem forall₂_mem_left {α β : Type*} {R : α → β → Prop} : ∀ {l : List α} {r : List β}, List.Forall₂ R l r → ∀ a ∈ l, ∃ b ∈ r, R a b
  | _, _, .nil, a, ha => by simp at ha
  | _, _, .cons h hs, a, ha => by
    rcases List.mem_cons.1 ha with rfl | ha
    · exact ⟨_, by simp, h⟩
    · obtain ⟨b, hb, hr⟩ := forall₂_mem_left hs a ha
      exact ⟨b, List.mem_cons_of_mem _ hb, hr⟩

theorem mapM_slices {k : Nat} : ∀ {ts : List (Nat × List Nat)} {rs : List Ref}, (ts.mapM fun t => t.2[k]?.map Ref.slice) = some rs →
    rs.map Ref.addr = ts.flatMap fun t => t.2[k]?.toList
  | ts, rs, h => by
    have hf := mapM_forall₂ h
    clear h
    induction hf with
    | nil => rfl
    | cons h1 _ ih =>
      obtain ⟨s, hs, rfl⟩ := Option.map_eq_some_iff.1 h1
      simp only [List.map_cons, List.flatMap_cons, ih, hs, Option.toList_some, Ref.addr, List.singleton_append]

theorem statPick_one {i k : Nat} {r : Ref} {rs : List Ref} (h : statPick 1 i k r = some rs) : rs.map Ref.addr = scalarsAt k r := by
  cases r with
  | interval a v =>
    simp [statPick] at h
    subst h
    rfl
  | slice a =>
    simp [statPick] at h
    subst h
    rfl
  | vec a cs =>
    simp [statPick] at h
    subst h
    simp [scalarsAt, Ref.addr, Function.comp_def]
  | tube a ss =>
    simp only [statPick, if_true] at h
    obtain ⟨s, hs, rfl⟩ := Option.map_eq_some_iff.1 h
    simp [scalarsAt, hs, Ref.addr]
  | tubeVec a ts =>
    simp only [statPick, if_true] at h
    exact mapM_slices h

theorem statPick_many {m i k : Nat} (hm : m ≠ 1) {r : Ref} {rs : List Ref} (h : statPick m i k r = some rs) :
    rs.map Ref.addr = componentAt i k r := by
  cases r with
  | interval a v => simp [statPick, hm] at h
  | slice a =>
    simp [statPick] at h
    subst h
    rfl
  | vec a cs =>
    simp only [statPick, if_neg hm] at h
    by_cases hl : cs.length ≠ m
    · simp [hl] at h
    · rw [if_neg hl] at h
      obtain ⟨s, hs, rfl⟩ := Option.map_eq_some_iff.1 h
      simp [componentAt, hs, Ref.addr]
  | tube a ss => simp [statPick, hm] at h
  | tubeVec a ts =>
    simp only [statPick, if_neg hm] at h
    by_cases hl : ts.length ≠ m
    · simp [hl] at h
    · rw [if_neg hl] at h
      obtain ⟨s, hs, rfl⟩ := Option.map_eq_some_iff.1 h
      simp [componentAt, hs, Ref.addr]

/-- a slice of a tube of the program is in the program -/
theorem ref_slice {L : Layout} (hL : L.Ok) {a : Nat} {ss : List Nat} (h : L.ref (.tube a ss)) {k s : Nat} (hs : ss[k]? = some s) : L.ref (.slice s) :=
  hL.sub _ h _ (List.mem_map.2 ⟨s, List.mem_of_getElem? hs, rfl⟩)

theorem mapM_slices_ref {L : Layout} (hL : L.Ok) {a : Nat} {ts : List (Nat × List Nat)} (h : L.ref (.tubeVec a ts)) {k : Nat} {rs : List Ref}
    (hm : (ts.mapM fun t => t.2[k]?.map Ref.slice) = some rs) : ∀ r ∈ rs, L.ref r := by
  intro r hr
  obtain ⟨t, ht, e⟩ := forall₂_mem (mapM_forall₂ hm) r hr
  obtain ⟨s, hs, rfl⟩ := Option.map_eq_some_iff.1 e
  exact ref_slice hL (hL.sub _ h _ (List.mem_map.2 ⟨t, ht, rfl⟩)) hs

theorem statPick_ref {L : Layout} (hL : L.Ok) {m i k : Nat} {r : Ref} (h : L.ref r) {rs : List Ref} (hp : statPick m i k r = some rs) : ∀ x ∈ rs, L.ref x := by
  cases r with
  | interval a v =>
    simp only [statPick] at hp
    split_ifs at hp
    obtain rfl := Option.some.inj hp
    simpa using h
  | slice a =>
    obtain rfl := Option.some.inj hp
    simpa using h
  | vec a cs =>
    have hsub := hL.sub _ h
    simp only [statPick] at hp
    split_ifs at hp
    · obtain rfl := Option.some.inj hp
      exact hsub
    · obtain ⟨s, hs, rfl⟩ := Option.map_eq_some_iff.1 hp
      intro x hx
      rw [List.mem_singleton.1 hx]
      exact hsub _ (List.mem_map.2 ⟨s, List.mem_of_getElem? hs, rfl⟩)
  | tube a ss =>
    simp only [statPick] at hp
    split_ifs at hp
    obtain ⟨s, hs, rfl⟩ := Option.map_eq_some_iff.1 hp
    intro x hx
    rw [List.mem_singleton.1 hx]
    exact ref_slice hL h hs
  | tubeVec a ts =>
    simp only [statPick] at hp
    split_ifs at hp
    · exact mapM_slices_ref hL h hp
    · obtain ⟨s, hs, rfl⟩ := Option.map_eq_some_iff.1 hp
      obtain ⟨t, ht, hs⟩ := Option.bind_eq_some_iff.1 hs
      intro x hx
      rw [List.mem_singleton.1 hx]
      exact ref_slice hL (hL.sub _ h _ (List.mem_map.2 ⟨t, List.mem_of_getElem? ht, rfl⟩)) hs

theorem sameSlicing_some : ∀ {n : Nat} {ds : List Ref}, sameSlicing (some n) ds = true → ∀ r ∈ ds, ∀ m, r.slices? = some m → m = n
  | n, [], _, r, hr => by simp at hr
  | n, d :: ds, h, r, hr => by
    intro m hm
    cases d with
    | tube a ss =>
      simp only [sameSlicing, Bool.and_eq_true, beq_iff_eq] at h
      rcases List.mem_cons.1 hr with rfl | hr
      · rw [← h.1]
        exact (Option.some.inj hm).symm
      · exact sameSlicing_some h.2 r hr m hm
    | tubeVec a ts =>
      simp only [sameSlicing, Bool.and_eq_true, List.all_eq_true, beq_iff_eq] at h
      rcases List.mem_cons.1 hr with rfl | hr
      · obtain ⟨t, ht, e⟩ := Option.map_eq_some_iff.1 hm
        rw [← e]
        exact h.1 t (List.mem_of_mem_head? ht)
      · exact sameSlicing_some h.2 r hr m hm
    | interval a v =>
      rcases List.mem_cons.1 hr with rfl | hr
      · simp [Ref.slices?] at hm
      · exact sameSlicing_some (by simpa [sameSlicing] using h) r hr m hm
    | vec a cs =>
      rcases List.mem_cons.1 hr with rfl | hr
      · simp [Ref.slices?] at hm
      · exact sameSlicing_some (by simpa [sameSlicing] using h) r hr m hm
    | slice a =>
      rcases List.mem_cons.1 hr with rfl | hr
      · simp [Ref.slices?] at hm
      · exact sameSlicing_some (by simpa [sameSlicing] using h) r hr m hm

theorem sameSlicing_none : ∀ {ds : List Ref}, sameSlicing none ds = true → ∀ r ∈ ds, ∀ r' ∈ ds, ∀ m m', r.slices? = some m →
    r'.slices? = some m' → m = m'
  | [], _, r, hr => by simp at hr
  | d :: ds, h, r, hr => by
    intro r' hr' m m' hm hm'
    have key : ∀ n, d.slices? = some n → sameSlicing (some n) ds = true := by
      intro n hn
      cases d with
      | tube a ss =>
        simp only [sameSlicing] at h
        obtain rfl := Option.some.inj hn
        exact h
      | tubeVec a ts =>
        simp only [sameSlicing] at h
        rw [hn] at h
        exact h
      | interval a v => simp [Ref.slices?] at hn
      | vec a cs => simp [Ref.slices?] at hn
      | slice a => simp [Ref.slices?] at hn
    have key2 : d.slices? = none → sameSlicing none ds = true := by
      intro hn
      cases d with
      | tube a ss => simp [Ref.slices?] at hn
      | tubeVec a ts =>
        simp only [sameSlicing] at h
        rw [hn] at h
        exact h
      | interval a v => simpa [sameSlicing] using h
      | vec a cs => simpa [sameSlicing] using h
      | slice a => simpa [sameSlicing] using h
    cases hd : d.slices? with
    | some n =>
      have hs := sameSlicing_some (key n hd)
      have e1 : m = n := by
        rcases List.mem_cons.1 hr with rfl | hr
        · rw [hd] at hm
          exact (Option.some.inj hm).symm
        · exact hs r hr m hm
      have e2 : m' = n := by
        rcases List.mem_cons.1 hr' with rfl | hr'
        · rw [hd] at hm'
          exact (Option.some.inj hm').symm
        · exact hs r' hr' m' hm'
      rw [e1, e2]
    | none =>
      have h1 : r ∈ ds := by
        rcases List.mem_cons.1 hr with rfl | hr
        · rw [hd] at hm
          simp at hm
        · exact hr
      have h2 : r' ∈ ds := by
        rcases List.mem_cons.1 hr' with rfl | hr'
        · rw [hd] at hm'
          simp at hm'
        · exact hr'
      exact sameSlicing_none (key2 hd) r h1 r' h2 m m' hm hm'

theorem slices_pos {L : Layout} (hL : L.Ok) {r : Ref} (h : L.ref r) {n : Nat} (hn : r.slices? = some n) : 0 < n := by
  cases r with
  | tube a ss =>
    obtain rfl := Option.some.inj hn
    refine List.length_pos_of_ne_nil ?_
    rintro rfl
    exact hL.full a h
  | tubeVec a ts =>
    obtain ⟨t, ht, rfl⟩ := Option.map_eq_some_iff.1 hn
    refine List.length_pos_of_ne_nil ?_
    intro e
    have := hL.sub _ h _ (List.mem_map.2 ⟨t, List.mem_of_mem_head? ht, rfl⟩)
    simp only [e] at this
    exact hL.full _ this
  | interval a v => simp [Ref.slices?] at hn
  | vec a cs => simp [Ref.slices?] at hn
  | slice a => simp [Ref.slices?] at hn

theorem validSlice_iff {L : Layout} (hL : L.Ok) {ds : List Ref} (hr : ∀ r ∈ ds, L.ref r) (hs : sameSlicing none ds = true) (k : Nat) :
    ValidSlice ds k ↔ k < statLoops ds := by
  unfold statLoops
  rcases List.eq_nil_or_concat' (ds.filterMap Ref.slices?) with e | ⟨l, n, e⟩
  · have hall : ∀ r ∈ ds, r.slices? = none := by
      intro r hr'
      cases hn : r.slices? with
      | none => rfl
      | some n =>
        have : n ∈ ds.filterMap Ref.slices? := List.mem_filterMap.2 ⟨r, hr', hn⟩
        rw [e] at this
        simp at this
    rw [e]
    simp only [List.getLast?_nil, Option.getD_none, max_self]
    constructor
    · intro h
      have := h.2 hall
      omega
    · intro h
      refine ⟨?_, fun _ => by omega⟩
      intro r hr' n hn
      rw [hall r hr'] at hn
      simp at hn
  · have hn : n ∈ ds.filterMap Ref.slices? := by rw [e]; simp
    obtain ⟨r0, hr0, hn0⟩ := List.mem_filterMap.1 hn
    have hpos := slices_pos hL (hr r0 hr0) hn0
    rw [e]
    simp only [List.getLast?_append, List.getLast?_singleton, Option.some_or, Option.getD_some]
    have hmax : max 1 n = n := max_eq_right hpos
    rw [hmax]
    constructor
    · intro h
      exact h.1 r0 hr0 n hn0
    · intro h
      refine ⟨?_, ?_⟩
      · intro r hr' m hm
        rw [sameSlicing_none hs r hr' r0 hr0 m n hm hn0]
        exact h
      · intro hall
        rw [hall r0 hr0] at hn0
        simp at hn0

theorem statRow_spec {L : Layout} (hL : L.Ok) {nv m i k : Nat} {ds row : List Ref} (hr : ∀ r ∈ ds, L.ref r) (h : statRow nv m i k ds = some row) :
    (∀ r ∈ row, L.ref r) ∧ (m = 1 → row.map Ref.addr = ds.flatMap (scalarsAt k)) ∧
      (m ≠ 1 → row.map Ref.addr = ds.flatMap (componentAt i k)) := by
  unfold statRow at h
  obtain ⟨rs, h1, h2⟩ := Option.bind_eq_some_iff.1 h
  split_ifs at h2
  obtain rfl := Option.some.inj h2
  have hf := mapM_forall₂ h1
  refine ⟨?_, ?_, ?_⟩
  · intro r hr'
    obtain ⟨l, hl, hrl⟩ := List.mem_flatten.1 hr'
    obtain ⟨d, hd, e⟩ := forall₂_mem hf l hl
    exact statPick_ref hL (hr d hd) e r hrl
  · rintro rfl
    exact forall₂_flat (fun r rs h => statPick_one h) hf
  · intro hm
    exact forall₂_flat (fun r rs h => statPick_many hm h) hf

theorem div_eq_one {a b : Nat} (hb : b ≠ 0) (hm : a % b = 0) : a / b = 1 ↔ a = b := by
  constructor
  · intro h
    have := Nat.div_add_mod a b
    rw [h, hm] at this
    omega
  · rintro rfl
    exact Nat.div_self (by omega)

theorem addStatic_spec {L : Layout} (hL : L.Ok) {N N' : Net} (h : Inv L N) (hc : Closed [] N) {obj nv : Nat} {ds : List Ref} (ho : L.stat obj)
    (hr : ∀ r ∈ ds, L.ref r) (hN : N.addStatic obj nv ds = some N') :
    Prog L (fun k doms => k = .ibex obj ∧ Instance nv ds doms) N N' ∧ (∀ doms, Instance nv ds doms → N'.Has (.ibex obj) doms) ∧
      (∀ r ∈ ds, r ∈ N'.doms) := by
  unfold Net.addStatic at hN
  split_ifs at hN with hcond
  simp only [not_or, Bool.not_eq_false, not_not] at hcond
  obtain ⟨hne, hs, hnv, hmod⟩ := hcond
  obtain ⟨rows, hrows, rfl⟩ := Option.map_eq_some_iff.1 hN
  obtain ⟨s1, m1⟩ := addDoms_spec hL ds h hc hr
  have hf := mapM_forall₂ hrows
  have hone := div_eq_one hnv hmod
  have hrow : ∀ row ∈ rows, (∀ r ∈ row, L.ref r) ∧ Instance nv ds (row.map Ref.addr) := by
    intro row hrow
    obtain ⟨p, hp, e⟩ := forall₂_mem hf row hrow
    simp only [List.mem_flatMap, List.mem_range, List.mem_map] at hp
    obtain ⟨i, hi, k, hk, rfl⟩ := hp
    obtain ⟨h1, h2, h3⟩ := statRow_spec hL hr e
    refine ⟨h1, k, (validSlice_iff hL hr hs k).2 hk, ?_⟩
    by_cases he : totalSize ds = nv
    · exact Or.inl ⟨he, h2 (hone.2 he)⟩
    · exact Or.inr ⟨he, i, hi, h3 (fun h => he (hone.1 h))⟩
  obtain ⟨p2, e2⟩ := addRows_spec hL (W := fun k doms => k = .ibex obj ∧ Instance nv ds doms) (k := .ibex obj) ho rows s1.inv s1.closed
    (fun row hr' => ⟨(hrow row hr').1, rfl, (hrow row hr').2⟩)
  refine ⟨(Prog.of_step s1).trans p2, ?_, fun r hr' => p2.le.doms (m1 r hr')⟩
  rintro doms ⟨k, hk, hcase⟩
  have hk' := (validSlice_iff hL hr hs k).1 hk
  have hget : ∀ i, i < totalSize ds / nv → ∃ row ∈ rows, statRow nv (totalSize ds / nv) i k ds = some row := by
    intro i hi
    obtain ⟨row, h1, h2⟩ := forall₂_mem_left hf (i, k) (by
      simp only [List.mem_flatMap, List.mem_range, List.mem_map]
      exact ⟨i, hi, k, hk', rfl⟩)
    exact ⟨row, h1, h2⟩
  rcases hcase with ⟨he, rfl⟩ | ⟨he, i, hi, rfl⟩
  · have hm := hone.2 he
    obtain ⟨row, h1, h2⟩ := hget 0 (by omega)
    have := (statRow_spec hL hr h2).2.1 hm
    rw [← this]
    exact e2 row h1
  · obtain ⟨row, h1, h2⟩ := hget i hi
    have := (statRow_spec hL hr h2).2.2 (fun h => he (hone.1 h))
    rw [← this]
    exact e2 row h1

/-! ### dynamic constraints -/

theorem dynPick_addr {k : Nat} {r : Ref} {rs : List Ref} (h : dynPick k r = some rs) : rs.map Ref.addr = scalarsAt k r := by
  cases r with
  | tube a ss =>
    obtain ⟨s, hs, rfl⟩ := Option.map_eq_some_iff.1 h
    simp [scalarsAt, hs, Ref.addr]
  | tubeVec a ts => exact mapM_slices h
  | interval a v => simp [dynPick] at h
  | vec a cs => simp [dynPick] at h
  | slice a => simp [dynPick] at h

theorem dynPick_ref {L : Layout} (hL : L.Ok) {k : Nat} {r : Ref} (hr : L.ref r) {rs : List Ref} (h : dynPick k r = some rs) : ∀ x ∈ rs, L.ref x := by
  cases r with
  | tube a ss =>
    obtain ⟨s, hs, rfl⟩ := Option.map_eq_some_iff.1 h
    intro x hx
    rw [List.mem_singleton.1 hx]
    exact ref_slice hL hr hs
  | tubeVec a ts => exact mapM_slices_ref hL hr h
  | interval a v => simp [dynPick] at h
  | vec a cs => simp [dynPick] at h
  | slice a => simp [dynPick] at h

theorem all_false {α : Type*} {p : α → Bool} {l : List α} : l.all p = false ↔ ∃ a ∈ l, p a = false := by
  rw [← Bool.not_eq_true, List.all_eq_true]
  push Not
  simp

theorem addDynRows_spec {L : Layout} (hL : L.Ok) {N N' : Net} (h : Inv L N) (hc : Closed [] N) {k : Kd} (hk : k.In L) {inter : Bool} {ds : List Ref}
    (hr : ∀ r ∈ ds, L.ref r) (hN : N.addDynRows k inter ds = some N') :
    Prog L (fun k' doms => k' = k ∧ DynInstance inter ds doms) N N' ∧ ∀ doms, DynInstance inter ds doms → N'.Has k doms := by
  unfold Net.addDynRows at hN
  by_cases hcase : inter = false ∧ ds.all isSlice = false
  · rw [if_pos hcase] at hN
    split_ifs at hN with hcond
    simp only [not_or, Bool.not_eq_false] at hcond
    obtain ⟨hall, hs⟩ := hcond
    obtain ⟨hi, hsl⟩ := hcase
    obtain ⟨x, hx, hxs⟩ := all_false.1 hsl
    obtain ⟨rows, hrows, rfl⟩ := Option.map_eq_some_iff.1 hN
    obtain ⟨s1, m1⟩ := addDoms_spec hL ds h hc hr
    have hf := mapM_forall₂ hrows
    -- the number of rows is the number of slices
    have hcount : ∀ j, j < (ds.filterMap Ref.slices?).head?.getD 0 ↔ ∀ r ∈ ds, ∀ n, r.slices? = some n → j < n := by
      intro j
      cases e : ds.filterMap Ref.slices? with
      | nil =>
        have hxn : x.slices? = none := by
          cases hn : x.slices? with
          | none => rfl
          | some n =>
            have : n ∈ ds.filterMap Ref.slices? := List.mem_filterMap.2 ⟨x, hx, hn⟩
            rw [e] at this
            simp at this
        have hxt := List.all_eq_true.1 hall x hx
        cases x with
        | tube a ss => simp [Ref.slices?] at hxn
        | tubeVec a ts =>
          cases ts with
          | nil => exact absurd (hr _ hx) (hL.vfull a)
          | cons t ts => simp [Ref.slices?] at hxn
        | interval a v => simp [isTube] at hxt
        | vec a cs => simp [isTube] at hxt
        | slice a => simp [isTube] at hxt
      | cons n l =>
        have hn : n ∈ ds.filterMap Ref.slices? := by rw [e]; simp
        obtain ⟨r0, hr0, hn0⟩ := List.mem_filterMap.1 hn
        simp only [List.head?_cons, Option.getD_some]
        constructor
        · intro hj r hr' m hm
          rw [sameSlicing_none hs r hr' r0 hr0 m n hm hn0]
          exact hj
        · intro hj
          exact hj r0 hr0 n hn0
    have hrow : ∀ row ∈ rows, ∃ j, (∀ r ∈ ds, ∀ n, r.slices? = some n → j < n) ∧ (∀ r ∈ row, L.ref r) ∧
        row.map Ref.addr = ds.flatMap (scalarsAt j) := by
      intro row hrow
      obtain ⟨j, hj, e⟩ := forall₂_mem hf row hrow
      obtain ⟨rs, h1, rfl⟩ := Option.map_eq_some_iff.1 e
      have hf' := mapM_forall₂ h1
      refine ⟨j, (hcount j).1 (List.mem_range.1 hj), ?_, forall₂_flat (fun r rs h => dynPick_addr h) hf'⟩
      intro r hr'
      obtain ⟨l, hl, hrl⟩ := List.mem_flatten.1 hr'
      obtain ⟨d, hd, e⟩ := forall₂_mem hf' l hl
      exact dynPick_ref hL (hr d hd) e r hrl
    obtain ⟨p2, e2⟩ := addRows_spec hL (W := fun k' doms => k' = k ∧ DynInstance inter ds doms) hk rows s1.inv s1.closed (by
      intro row hr'
      obtain ⟨j, h1, h2, h3⟩ := hrow row hr'
      exact ⟨h2, rfl, Or.inr ⟨hi, ⟨x, hx, hxs⟩, j, h1, h3⟩⟩)
    refine ⟨(Prog.of_step s1).trans p2, ?_⟩
    rintro doms (⟨h1 | h1, _⟩ | ⟨_, _, j, hj, rfl⟩)
    · rw [hi] at h1
      simp at h1
    · rw [h1 x hx] at hxs
      simp at hxs
    · obtain ⟨row, h1, h2⟩ := forall₂_mem_left hf j (List.mem_range.2 ((hcount j).2 hj))
      obtain ⟨rs, h3, rfl⟩ := Option.map_eq_some_iff.1 h2
      rw [← forall₂_flat (fun r rs h => dynPick_addr h) (mapM_forall₂ h3)]
      exact e2 _ h1
  · rw [if_neg hcase] at hN
    obtain rfl := Option.some.inj hN
    have hcase' : inter = true ∨ ∀ r ∈ ds, isSlice r = true := by
      by_cases hi : inter = true
      · exact Or.inl hi
      · right
        by_contra hcon
        push Not at hcon
        obtain ⟨r, hr', e⟩ := hcon
        exact hcase ⟨by simpa using hi, all_false.2 ⟨r, hr', by simpa using e⟩⟩
    obtain ⟨p, e⟩ := addRow_spec hL (W := fun k' doms => k' = k ∧ DynInstance inter ds doms) h hc hk hr ⟨rfl, Or.inl ⟨hcase', rfl⟩⟩
    refine ⟨p, ?_⟩
    rintro doms (⟨_, rfl⟩ | ⟨h1, ⟨x, hx, hxs⟩, _⟩)
    · exact e
    · rcases hcase' with h2 | h2
      · rw [h1] at h2
        simp at h2
      · rw [h2 x hx] at hxs
        simp at hxs

/-- the pairs of domains recorded by the network have their `CtcDeriv` contractors -/
def PairsOk (L : Layout) (own : Nat) (N : Net) : Prop :=
  ∀ x v, L.ref x → L.ref v → (x.addr, v.addr) ∈ N.pairs → ∀ doms, DynInstance false [x, v] doms → N.Has (.deriv own) doms

/-- the network between two calls -/
structure NetOk (L : Layout) (own : Nat) (N : Net) : Prop where
  inv : Inv L N
  closed : Closed [] N
  pairs : PairsOk L own N

/-- the effect of a call; `W` are the constraints it asks for -/
structure Done (L : Layout) (own : Nat) (W : Kd → List Nat → Prop) (N N' : Net) : Prop where
  ok : NetOk L own N'
  doms : N.doms ⊆ N'.doms
  ctcs : N.ctcs ⊆ N'.ctcs
  org : ∀ c ∈ N'.ctcs, c ∈ N.ctcs ∨ (∃ r ∈ N'.doms, Part r c) ∨ W c.kind c.doms
  all : ∀ k doms, W k doms → N'.Has k doms

theorem done_of_prog {L : Layout} {own : Nat} {W : Kd → List Nat → Prop} {N N' : Net} (h : NetOk L own N) (p : Prog L W N N')
    (hall : ∀ k doms, W k doms → N'.Has k doms) : Done L own W N N' where
  ok := ⟨p.inv, p.closed, fun x v hx hv hm doms hd => (h.pairs x v hx hv (by rw [p.le.pairs]; exact hm) doms hd).mono p.le.ctcs⟩
  doms := p.le.doms
  ctcs := p.le.ctcs
  org := p.org
  all := hall

theorem addDynRows_done {L : Layout} (hL : L.Ok) {own : Nat} {N N' : Net} (h : NetOk L own N) {k : Kd} (hk : k.In L) {inter : Bool} {ds : List Ref}
    (hr : ∀ r ∈ ds, L.ref r) (hN : N.addDynRows k inter ds = some N') :
    Done L own (fun k' doms => k' = k ∧ DynInstance inter ds doms) N N' := by
  obtain ⟨p, e⟩ := addDynRows_spec hL h.inv h.closed hk hr hN
  exact done_of_prog h p (by rintro k' doms ⟨rfl, hd⟩; exact e doms hd)

theorem addDeriv_done {L : Layout} (hL : L.Ok) {own obj : Nat} {N N' : Net} (h : NetOk L own N) {ds : List Ref} (hr : ∀ r ∈ ds, L.ref r)
    (hN : N.addDeriv own obj ds = some N') : Done L own (fun k' doms => k' = .deriv obj ∧ DynInstance false ds doms) N N' := by
  unfold Net.addDeriv at hN
  by_cases h1 : ds.all isSlice = false ∧ ds.length ≠ 2
  · rw [if_pos h1] at hN
    simp at hN
  rw [if_neg h1] at hN
  by_cases h2 : obj = own ∧ ds.all isSlice = false
  · rw [if_pos h2] at hN
    obtain ⟨rfl, _⟩ := h2
    match ds, hr, hN with
    | [x, v], hr, hN =>
      dsimp only at hN
      have hx := hr x (by simp)
      have hv := hr v (by simp)
      obtain ⟨s1, _⟩ := addDom_spec hL h.inv h.closed hx
      obtain ⟨s2, _⟩ := addDom_spec hL s1.inv s1.closed hv
      have s := s1.trans s2
      have ok1 : NetOk L obj ((N.addDom x).addDom v) :=
        (done_of_prog (W := fun _ _ => False) h (Prog.of_step s) (fun _ _ h => h.elim)).ok
      generalize (N.addDom x).addDom v = N1 at *
      by_cases hm : (x.addr, v.addr) ∈ N1.pairs
      · rw [if_pos hm] at hN
        obtain rfl := Option.some.inj hN
        refine done_of_prog h (Prog.of_step s) ?_
        rintro k' doms ⟨rfl, hd⟩
        exact ok1.pairs x v hx hv hm doms hd
      · rw [if_neg hm] at hN
        have inv2 : Inv L { N1 with pairs := N1.pairs ++ [(x.addr, v.addr)] } :=
          ⟨ok1.inv.refs, ok1.inv.nodup, ok1.inv.cin, ok1.inv.known, ok1.inv.reg, ok1.inv.lnk, ok1.inv.uniq, ok1.inv.que⟩
        have cl2 : Closed [] { N1 with pairs := N1.pairs ++ [(x.addr, v.addr)] } := ⟨ok1.closed.parts, ok1.closed.cts⟩
        obtain ⟨p, e⟩ := addDynRows_spec hL inv2 cl2 (k := .deriv obj) (by trivial) hr hN
        refine
          { ok := ⟨p.inv, p.closed, ?_⟩
            doms := fun r hr => p.le.doms (s.le.doms hr)
            ctcs := fun c hc => p.le.ctcs (s.le.ctcs hc)
            org := ?_
            all := ?_ }
        · intro x' v' hx' hv' hm' doms hd
          rw [← p.le.pairs] at hm'
          simp only [List.mem_append, List.mem_singleton, Prod.mk.injEq] at hm'
          rcases hm' with hm' | ⟨e1, e2⟩
          · exact (ok1.pairs x' v' hx' hv' hm' doms hd).mono p.le.ctcs
          · obtain rfl := hL.inj x' x hx' hx e1
            obtain rfl := hL.inj v' v hv' hv e2
            exact e doms hd
        · intro c hc
          rcases p.org c hc with hc | hc
          · rcases s.org c hc with hc | ⟨r, hr', hp⟩
            · exact Or.inl hc
            · exact Or.inr (Or.inl ⟨r, p.le.doms hr', hp⟩)
          · exact Or.inr hc
        · rintro k' doms ⟨rfl, hd⟩
          exact e doms hd
    | [], _, hN => simp at hN
    | [_], _, hN => simp at hN
    | _ :: _ :: _ :: _, _, hN => simp at hN
  · rw [if_neg h2] at hN
    exact addDynRows_done hL h (by trivial) hr hN

theorem addDyn_done {L : Layout} (hL : L.Ok) {own : Nat} {N N' : Net} (h : NetOk L own N) {k : Kd} (hk : k.In L) {inter : Bool} {ds : List Ref}
    (hr : ∀ r ∈ ds, L.ref r) (hN : N.addDyn own k inter ds = some N') : Done L own (Op.Wants own (.dyn k inter ds)) N N' := by
  unfold Net.addDyn at hN
  by_cases h0 : ds = []
  · rw [if_pos h0] at hN
    simp at hN
  rw [if_neg h0] at hN
  have hinter : ∀ (ds' : List Ref) (doms : List Nat), DynInstance true ds' doms ↔ doms = ds'.map Ref.addr := by
    intro ds' doms
    simp [DynInstance]
  have conv : ∀ {W W' : Kd → List Nat → Prop} {A B : Net}, (∀ k d, W k d ↔ W' k d) → Done L own W A B → Done L own W' A B := by
    intro W W' A B hw hd
    exact ⟨hd.ok, hd.doms, hd.ctcs, fun c hc => (hd.org c hc).imp id (Or.imp id (hw _ _).1), fun k d h => hd.all k d ((hw k d).2 h)⟩
  cases k with
  | equality => simp at hN
  | component => simp at hN
  | ibex o => simp at hN
  | deriv o => exact addDeriv_done hL h hr hN
  | dyn o => exact addDynRows_done hL h hk hr hN
  | eval o =>
    match ds, hr, hN with
    | [t, z, x], hr, hN =>
      refine conv ?_ (addDynRows_done hL h (k := .eval o) (by trivial) hr hN)
      intro k d
      rw [hinter]
      simp [Op.Wants]
    | [t, z, x, v], hr, hN =>
      obtain ⟨N1, h1, h2⟩ := Option.bind_eq_some_iff.1 hN
      have d1 := addDeriv_done hL h (fun r hr' => hr r (by
        simp only [List.mem_cons, List.not_mem_nil, or_false] at hr' ⊢
        tauto)) h1
      have d2 := addDynRows_done hL d1.ok (k := .eval o) (by trivial) hr h2
      refine ⟨d2.ok, fun r hr => d2.doms (d1.doms hr), fun c hc => d2.ctcs (d1.ctcs hc), ?_, ?_⟩
      · intro c hc
        rcases d2.org c hc with hc | hc | ⟨hk1, hd1⟩
        · rcases d1.org c hc with hc | ⟨r, hr', hp⟩ | ⟨hk1, hd1⟩
          · exact Or.inl hc
          · exact Or.inr (Or.inl ⟨r, d2.doms hr', hp⟩)
          · exact Or.inr (Or.inr (Or.inr ⟨t, z, x, v, rfl, hk1, hd1⟩))
        · exact Or.inr (Or.inl hc)
        · exact Or.inr (Or.inr (Or.inl ⟨hk1, (hinter _ _).1 hd1⟩))
      · rintro k' doms (⟨rfl, hd⟩ | ⟨t', z', x', v', e, rfl, hd⟩)
        · exact d2.all _ _ ⟨rfl, (hinter _ _).2 hd⟩
        · simp only [List.cons.injEq, and_true] at e
          obtain ⟨rfl, rfl, rfl, rfl⟩ := e
          exact (d1.all _ _ ⟨rfl, hd⟩).mono d2.ctcs
    | [], _, hN => simp at hN
    | [_], _, hN => simp at hN
    | [_, _], _, hN => simp at hN
    | _ :: _ :: _ :: _ :: _ :: _, _, hN => simp at hN

/-! ### `subvector` -/

theorem addSub_fold {L : Layout} (hL : L.Ok) {cs ds : List (Nat × Nat)} {start : Nat} (h1 : ∀ c ∈ cs, L.ref (.interval c.1 c.2))
    (h2 : ∀ c ∈ ds, L.ref (.interval c.1 c.2)) {W : Kd → List Nat → Prop}
    (hW : ∀ (i : Nat) (s v : Nat × Nat), ds[i]? = some s → cs[i + start]? = some v → W .equality [s.1, v.1]) (f : Net → Nat → Net)
    (hf : ∀ N i, f N i = match ds[i]?, cs[i + start]? with
      | some s, some v => ((N.addLeaf (.interval s.1 s.2)).addLeaf (.interval v.1 v.2)).linkNew .equality [s.1, v.1] [s.1, v.1]
      | _, _ => N) :
    ∀ (l : List Nat) {N : Net}, Inv L N → Closed [] N →
      Prog L W N (l.foldl f N) ∧
      ∀ i ∈ l, ∀ s v, ds[i]? = some s → cs[i + start]? = some v → (l.foldl f N).Has .equality [s.1, v.1]
  | [], N, h, hc => ⟨Prog.refl h hc, by simp⟩
  | i :: l, N, h, hc => by
    have step : Prog L W N (f N i) ∧ ∀ s v, ds[i]? = some s → cs[i + start]? = some v → (f N i).Has .equality [s.1, v.1] := by
      rw [hf]
      cases hs : ds[i]? with
      | none => exact ⟨Prog.refl h hc, by simp⟩
      | some s =>
        cases hv : cs[i + start]? with
        | none => exact ⟨Prog.refl h hc, by simp⟩
        | some v =>
          dsimp only
          obtain ⟨s1, m1⟩ := addLeaf_spec hL h hc (r := .interval s.1 s.2) (h2 s (List.mem_of_getElem? hs)) rfl not_part_interval
          obtain ⟨s2, m2⟩ := addLeaf_spec hL s1.inv s1.closed (r := .interval v.1 v.2) (h1 v (List.mem_of_getElem? hv)) rfl not_part_interval
          obtain ⟨p, e⟩ := linkNew_prog hL s2.inv s2.closed (k := .equality) (by trivial) (ds := [s.1, v.1]) (by
            intro d hd
            simp only [List.mem_cons, List.not_mem_nil, or_false] at hd
            rcases hd with rfl | rfl
            · exact has_iff.2 ⟨_, s2.le.doms m1, rfl⟩
            · exact has_iff.2 ⟨_, m2, rfl⟩) (hW i s v hs hv)
          refine ⟨(Prog.of_step (s1.trans s2)).trans p, ?_⟩
          intro s' v' e1 e2
          obtain rfl := Option.some.inj e1
          obtain rfl := Option.some.inj e2
          exact e
    obtain ⟨p1, e1⟩ := step
    obtain ⟨p2, e2⟩ := addSub_fold hL h1 h2 hW f hf l p1.inv p1.closed
    refine ⟨p1.trans p2, ?_⟩
    intro j hj s v hs hv
    rcases List.mem_cons.1 hj with rfl | hj
    · exact (e1 s v hs hv).mono p2.le.ctcs
    · exact e2 j hj s v hs hv

theorem addSub_done {L : Layout} (hL : L.Ok) {own : Nat} {N : Net} (h : NetOk L own N) {a b start : Nat} {cs ds : List (Nat × Nat)}
    (h1 : L.ref (.vec a cs)) (h2 : L.ref (.vec b ds)) :
    Done L own (Op.Wants own (.sub a cs b ds start)) N (N.addSub a cs b ds start) := by
  unfold Net.addSub
  obtain ⟨s1, _⟩ := addDom_spec hL h.inv h.closed h1
  obtain ⟨s2, _⟩ := addDom_spec hL s1.inv s1.closed h2
  obtain ⟨p, e⟩ := addSub_fold hL (cs := cs) (ds := ds) (start := start) (W := Op.Wants own (.sub a cs b ds start))
    (fun c hc => hL.sub _ h1 _ (List.mem_map.2 ⟨c, hc, rfl⟩)) (fun c hc => hL.sub _ h2 _ (List.mem_map.2 ⟨c, hc, rfl⟩))
    (fun i s v hs hv => ⟨rfl, i, s, v, hs, hv, rfl⟩) _ (fun _ _ => rfl) (List.range ds.length) s2.inv s2.closed
  refine done_of_prog h ((Prog.of_step (s1.trans s2)).trans p) ?_
  rintro k doms ⟨rfl, i, s, v, hs, hv, rfl⟩
  refine e i ?_ s v hs hv
  rw [List.mem_range]
  exact (List.getElem?_eq_some_iff.1 hs).1

/-! ### calls -/

theorem run_done {L : Layout} (hL : L.Ok) {own : Nat} {N N' : Net} (h : NetOk L own N) {o : Op} (ho : o.In L) (hN : N.run own o = some N') :
    Done L own (o.Wants own) N N' := by
  cases o with
  | stat obj nv ds =>
    obtain ⟨p, e, _⟩ := addStatic_spec hL h.inv h.closed ho.1 ho.2 hN
    exact done_of_prog h p (by rintro k doms ⟨rfl, hd⟩; exact e doms hd)
  | dyn k inter ds => exact addDyn_done hL h ho.1 ho.2 hN
  | var r =>
    obtain rfl := Option.some.inj hN
    obtain ⟨s, _⟩ := addDom_spec hL h.inv h.closed ho
    exact done_of_prog h (Prog.of_step s) (fun _ _ h => h.elim)
  | sub a cs b ds start =>
    obtain rfl := Option.some.inj hN
    exact addSub_done hL h ho.1 ho.2

theorem runAll_done {L : Layout} (hL : L.Ok) {own : Nat} : ∀ (os : List Op) {N N' : Net}, NetOk L own N → (∀ o ∈ os, o.In L) →
    N.runAll own os = some N' → Done L own (fun k doms => ∃ o ∈ os, o.Wants own k doms) N N'
  | [], N, N', h, _, hN => by
    obtain rfl := Option.some.inj hN
    exact ⟨h, List.Subset.refl _, List.Subset.refl _, fun _ h => Or.inl h, by simp⟩
  | o :: os, N, N', h, ho, hN => by
    obtain ⟨N1, h1, h2⟩ := Option.bind_eq_some_iff.1 hN
    have d1 := run_done hL h (ho o (by simp)) h1
    have d2 := runAll_done hL os d1.ok (fun o' ho' => ho o' (List.mem_cons_of_mem _ ho')) h2
    refine ⟨d2.ok, fun r hr => d2.doms (d1.doms hr), fun c hc => d2.ctcs (d1.ctcs hc), ?_, ?_⟩
    · intro c hc
      rcases d2.org c hc with hc | hc | ⟨o', ho', hw⟩
      · rcases d1.org c hc with hc | ⟨r, hr', hp⟩ | hw
        · exact Or.inl hc
        · exact Or.inr (Or.inl ⟨r, d2.doms hr', hp⟩)
        · exact Or.inr (Or.inr ⟨o, by simp, hw⟩)
      · exact Or.inr (Or.inl hc)
      · exact Or.inr (Or.inr ⟨o', List.mem_cons_of_mem _ ho', hw⟩)
    · rintro k doms ⟨o', ho', hw⟩
      rcases List.mem_cons.1 ho' with rfl | ho'
      · exact (d1.all k doms hw).mono d2.ctcs
      · exact d2.all k doms ⟨o', ho', hw⟩

theorem empty_ok (L : Layout) (own : Nat) : NetOk L own Net.empty :=
  ⟨⟨by simp [Net.empty], by simp [Net.empty], by simp [Net.empty], by simp [Net.empty], by simp [Net.empty], by simp [Net.empty],
    by simp [Net.empty], by simp [Net.empty]⟩, ⟨by simp [Net.empty], by simp [Net.empty]⟩, by simp [PairsOk, Net.empty]⟩

end Codac.Built
