import Verif.Tube.Life

/-! # Lemmas on the memory of a tube -/

namespace Codac.Life

/-- the gates of a chain, in order -/
def gates : List Sl → List Nat
  | [] => []
  | s :: l => s.gin :: (s :: l).map Sl.gout

/-- neighbours share their gate -/
def Linked : List Sl → Prop
  | s :: s' :: l => s.gout = s'.gin ∧ Linked (s' :: l)
  | _ => True

/-- each object allocated is either used, once, or freed, once -/
structure Sane (m : Mem) : Prop where
  linked : Linked m.chain
  slices : (m.chain.map Sl.id ++ m.deadS).Perm (List.range m.nextS)
  gts : (gates m.chain ++ m.deadG).Perm (List.range m.nextG)

/-- the tree, if any, is the one of the slices of the tube -/
structure Synced (m : Mem) : Prop where
  ne : m.chain ≠ []
  on : m.mode = .tree → m.tree = some (m.chain.map Sl.id) ∧ m.refs = m.chain.map Sl.id
  off : m.mode ≠ .tree → m.tree = none ∧ m.refs = []
  synth : m.synth = if m.mode = .none then 0 else 1

theorem Sane.nodupS {m : Mem} (h : Sane m) : (m.chain.map Sl.id ++ m.deadS).Nodup := h.slices.nodup_iff.2 List.nodup_range
theorem Sane.nodupG {m : Mem} (h : Sane m) : (gates m.chain ++ m.deadG).Nodup := h.gts.nodup_iff.2 List.nodup_range

theorem gates_link {s s' : Sl} {l : List Sl} (h : s.gout = s'.gin) : gates (s :: s' :: l) = s.gin :: gates (s' :: l) := by
  simp [gates, h]

theorem Linked.tail {s : Sl} {l : List Sl} (h : Linked (s :: l)) : Linked l := by
  cases l with
  | nil => trivial
  | cons s' l => exact h.2

theorem Linked.right : ∀ {f r : List Sl}, Linked (f ++ r) → Linked r
  | [], _, h => h
  | _ :: f, _, h => Linked.right (f := f) h.tail

theorem Linked.left : ∀ {f r : List Sl}, Linked (f ++ r) → Linked f
  | [], _, _ => trivial
  | [_], _, _ => trivial
  | _ :: s' :: f, r, h => ⟨h.1, Linked.left (f := s' :: f) (r := r) h.2⟩

theorem gates_front : ∀ {f r : List Sl}, r ≠ [] → Linked (f ++ r) → gates (f ++ r) = f.map Sl.gin ++ gates r
  | [], _, _, _ => rfl
  | [s], r, hr, h => by
    obtain ⟨s', l, rfl⟩ := List.exists_cons_of_ne_nil hr
    exact gates_link h.1
  | s :: s' :: f, r, hr, h => by
    have := gates_front (f := s' :: f) hr h.tail
    show gates (s :: s' :: (f ++ r)) = _
    rw [gates_link h.1]
    show s.gin :: gates (s' :: f ++ r) = _
    rw [this]; rfl

theorem gates_back {r b : List Sl} (hr : r ≠ []) : gates (r ++ b) = gates r ++ b.map Sl.gout := by
  obtain ⟨s, l, rfl⟩ := List.exists_cons_of_ne_nil hr
  simp [gates]

theorem linked_snoc : ∀ {l : List Sl} {p s : Sl}, Linked (l ++ [p]) → p.gout = s.gin → Linked (l ++ [p] ++ [s])
  | [], _, _, _, h => ⟨h, trivial⟩
  | [_], _, _, h, h' => ⟨h.1, h', trivial⟩
  | _ :: s' :: l, _, _, h, h' => ⟨h.1, linked_snoc (l := s' :: l) h.2 h'⟩

/-- replacing the end of a chain by another one with the same first input gate -/
theorem linked_swap : ∀ {f : List Sl} {s s' : Sl} {l l' : List Sl}, s.gin = s'.gin → Linked (f ++ s :: l) → Linked (s' :: l') → Linked (f ++ s' :: l')
  | [], _, _, _, _, _, _, h => h
  | [_], _, _, _, _, e, h, h' => ⟨h.1.trans e, h'⟩
  | _ :: t :: f, s, s', l, _, e, h, h' => ⟨h.1, linked_swap (f := t :: f) (s := s) (s' := s') (l := l) e h.2 h'⟩

theorem relink_linked {l : List Sl} (g : Nat) (h : Linked l) : Linked (relink g l) := by
  match l, h with
  | [], _ => trivial
  | [_], _ => trivial
  | _ :: _ :: _, h => exact ⟨h.1, h.2⟩

theorem linked_relink {s : Sl} {l : List Sl} (h : Linked l) : Linked (s :: relink s.gout l) := by
  cases l with
  | nil => trivial
  | cons t l => exact ⟨rfl, relink_linked _ h⟩

@[simp] theorem relink_id (g : Nat) (l : List Sl) : (relink g l).map Sl.id = l.map Sl.id := by cases l <;> rfl
@[simp] theorem relink_gout (g : Nat) (l : List Sl) : (relink g l).map Sl.gout = l.map Sl.gout := by cases l <;> rfl

theorem freeG_ok {m : Mem} {g : Nat} (h : g ∉ m.deadG) : m.freeG g = some { m with deadG := m.deadG ++ [g] } := by
  unfold Mem.freeG; rw [if_neg h]

theorem freeS_ok {m : Mem} {g : Nat} (h : g ∉ m.deadS) : m.freeS g = some { m with deadS := m.deadS ++ [g] } := by
  unfold Mem.freeS; rw [if_neg h]

theorem delSlice_mid {m : Mem} {s : Sl} (h : s.gin ∉ m.deadG) (hs : s.id ∉ m.deadS) :
    m.delSlice false true s = some { m with deadG := m.deadG ++ [s.gin], deadS := m.deadS ++ [s.id] } := by
  unfold Mem.delSlice
  simp only [Bool.false_eq_true, if_false, if_true, freeG_ok h, Option.bind_some]
  rw [freeS_ok (by exact hs)]

theorem delSlice_back {m : Mem} {s : Sl} (h : s.gout ∉ m.deadG) (hs : s.id ∉ m.deadS) :
    m.delSlice true false s = some { m with deadG := m.deadG ++ [s.gout], deadS := m.deadS ++ [s.id] } := by
  unfold Mem.delSlice
  simp only [Bool.false_eq_true, if_false, if_true, freeG_ok h, Option.bind_some]
  rw [freeS_ok (by exact hs)]

theorem delSlice_both {m : Mem} {s : Sl} (h : s.gin ∉ m.deadG) (h' : s.gout ∉ m.deadG) (hg : s.gout ≠ s.gin) (hs : s.id ∉ m.deadS) :
    m.delSlice false false s = some { m with deadG := m.deadG ++ [s.gin, s.gout], deadS := m.deadS ++ [s.id] } := by
  unfold Mem.delSlice
  simp only [Bool.false_eq_true, if_false, freeG_ok h, Option.bind_some]
  rw [freeG_ok (by simp [h', hg])]
  simp only [Option.bind_some]
  rw [freeS_ok (by exact hs)]
  simp

theorem delAll_ok : ∀ (l : List Sl) (m : Mem), Linked l → (l.map Sl.id ++ m.deadS).Nodup → (gates l ++ m.deadG).Nodup →
    m.delAll l = some { m with deadS := m.deadS ++ l.map Sl.id, deadG := m.deadG ++ gates l }
  | [], m, _, _, _ => by simp [Mem.delAll, gates]
  | [s], m, _, h1, h2 => by
    simp only [gates, List.map_cons, List.map_nil, List.cons_append, List.nil_append, List.nodup_cons, List.mem_cons] at h1 h2
    push Not at h2
    rw [Mem.delAll]
    simp only [List.isEmpty_nil, Bool.not_true]
    rw [delSlice_both h2.1.2 h2.2.1 (Ne.symm h2.1.1) h1.1]
    simp [Mem.delAll, gates]
  | s :: s' :: l, m, hl, h1, h2 => by
    rw [gates_link hl.1] at h2 ⊢
    have h1' := h1
    have h2' := h2
    rw [List.map_cons, List.cons_append, List.nodup_cons] at h1'
    rw [List.cons_append, List.nodup_cons] at h2'
    have a1 : s.id ∉ m.deadS := fun h => h1'.1 (List.mem_append_right _ h)
    have a2 : s.gin ∉ m.deadG := fun h => h2'.1 (List.mem_append_right _ h)
    rw [Mem.delAll]
    simp only [List.isEmpty_cons, Bool.not_false]
    rw [delSlice_mid a2 a1, Option.bind_some, delAll_ok (s' :: l) _ hl.2]
    · simp
    · refine (List.Perm.nodup_iff ?_).1 h1
      simp only [List.perm_iff_count, List.count_append, List.map_cons, List.count_cons, List.count_nil]
      intro; omega
    · refine (List.Perm.nodup_iff ?_).1 h2
      simp only [List.perm_iff_count, List.count_append, List.count_cons, List.count_nil]
      intro; omega

theorem delFront_ok : ∀ (l : List Sl) (m : Mem), (l.map Sl.id ++ m.deadS).Nodup → (l.map Sl.gin ++ m.deadG).Nodup →
    m.delFront l = some { m with deadS := m.deadS ++ l.map Sl.id, deadG := m.deadG ++ l.map Sl.gin }
  | [], m, _, _ => by simp [Mem.delFront]
  | s :: l, m, h1, h2 => by
    have h1' := h1
    have h2' := h2
    rw [List.map_cons, List.cons_append, List.nodup_cons] at h1' h2'
    have a1 : s.id ∉ m.deadS := fun h => h1'.1 (List.mem_append_right _ h)
    have a2 : s.gin ∉ m.deadG := fun h => h2'.1 (List.mem_append_right _ h)
    rw [Mem.delFront, delSlice_mid a2 a1, Option.bind_some, delFront_ok l]
    · simp
    · refine (List.Perm.nodup_iff ?_).1 h1
      simp only [List.perm_iff_count, List.count_append, List.map_cons, List.count_cons, List.count_nil]
      intro; omega
    · refine (List.Perm.nodup_iff ?_).1 h2
      simp only [List.perm_iff_count, List.count_append, List.map_cons, List.count_cons, List.count_nil]
      intro; omega

theorem delBack_ok : ∀ (l : List Sl) (m : Mem), (l.map Sl.id ++ m.deadS).Nodup → (l.map Sl.gout ++ m.deadG).Nodup →
    m.delBack l = some { m with deadS := m.deadS ++ l.map Sl.id, deadG := m.deadG ++ l.map Sl.gout }
  | [], m, _, _ => by simp [Mem.delBack]
  | s :: l, m, h1, h2 => by
    have h1' := h1
    have h2' := h2
    rw [List.map_cons, List.cons_append, List.nodup_cons] at h1' h2'
    have a1 : s.id ∉ m.deadS := fun h => h1'.1 (List.mem_append_right _ h)
    have a2 : s.gout ∉ m.deadG := fun h => h2'.1 (List.mem_append_right _ h)
    rw [Mem.delBack, delSlice_back a2 a1, Option.bind_some, delBack_ok l]
    · simp
    · refine (List.Perm.nodup_iff ?_).1 h1
      simp only [List.perm_iff_count, List.count_append, List.map_cons, List.count_cons, List.count_nil]
      intro; omega
    · refine (List.Perm.nodup_iff ?_).1 h2
      simp only [List.perm_iff_count, List.count_append, List.map_cons, List.count_cons, List.count_nil]
      intro; omega

/-- all but the chain and the memory is unchanged -/
def Same (m m' : Mem) : Prop := m'.mode = m.mode ∧ m'.tree = m.tree ∧ m'.refs = m.refs ∧ m'.synth = m.synth

theorem grow_ok : ∀ (n : Nat) (m : Mem), Sane m →
    ∃ m', m.grow n = some m' ∧ Sane m' ∧ Same m m' ∧ m'.chain.length = m.chain.length + n
  | 0, m, h => ⟨m, rfl, h, ⟨rfl, rfl, rfl, rfl⟩, rfl⟩
  | n + 1, m, h => by
    rw [Mem.grow]
    cases hc : m.chain.getLast? with
    | none =>
      rw [List.getLast?_eq_none_iff] at hc
      obtain ⟨m', h1, h2, h3, h4⟩ := grow_ok n { m with nextS := m.nextS + 1, nextG := m.nextG + 2, chain := [⟨m.nextS, m.nextG, m.nextG + 1⟩] } (by
        have a := h.slices
        have b := h.gts
        rw [hc] at a b
        refine ⟨trivial, ?_, ?_⟩
        · simp only [List.perm_iff_count, List.range_succ, List.count_append, List.count_cons, List.count_nil, List.map_cons, List.map_nil] at a ⊢
          intro x; have := a x; omega
        · simp only [gates, List.perm_iff_count, List.range_succ, List.count_append, List.count_cons, List.count_nil, List.map_cons, List.map_nil] at b ⊢
          intro x; have := b x; omega)
      refine ⟨m', h1, h2, h3, ?_⟩
      rw [h4, hc]; simp; omega
    | some p =>
      simp only
      obtain ⟨l, hl⟩ : ∃ l, m.chain = l ++ [p] := by
        obtain ⟨l, hl⟩ := List.getLast?_eq_some_iff.1 hc
        exact ⟨l, hl⟩
      have hd : m.nextG ∉ m.deadG := by
        intro hm
        have := (h.gts.mem_iff (a := m.nextG)).1 (List.mem_append_right _ hm)
        simp at this
      rw [freeG_ok (by exact hd), Option.bind_some]
      obtain ⟨m', h1, h2, h3, h4⟩ := grow_ok n { m with nextS := m.nextS + 1, nextG := m.nextG + 2, deadG := m.deadG ++ [m.nextG], chain := m.chain ++ [⟨m.nextS, p.gout, m.nextG + 1⟩] } (by
        have a := h.slices
        have b := h.gts
        refine ⟨?_, ?_, ?_⟩
        · show Linked (m.chain ++ _)
          have := h.linked
          rw [hl] at this ⊢
          exact linked_snoc this rfl
        · simp only [List.perm_iff_count, List.range_succ, List.count_append, List.count_cons, List.count_nil, List.map_append, List.map_cons, List.map_nil] at a ⊢
          intro x; have := a x; omega
        · show (gates (m.chain ++ _) ++ _).Perm _
          rw [gates_back (by rw [hl]; simp)]
          simp only [List.perm_iff_count, List.range_succ, List.count_append, List.count_cons, List.count_nil, List.map_cons, List.map_nil] at b ⊢
          intro x; have := b x; omega)
      refine ⟨m', h1, h2, h3, ?_⟩
      rw [h4]; simp; omega

theorem split_ok {m : Mem} (h : Sane m) {i : Nat} (hi : i < m.chain.length) :
    ∃ m', m.split i = some m' ∧ Sane m' ∧ Same m m' ∧ m'.chain.length = m.chain.length + 1 := by
  unfold Mem.split
  cases hd : m.chain.drop i with
  | nil => rw [List.drop_eq_nil_iff] at hd; omega
  | cons s l =>
    simp only
    have hch : m.chain = m.chain.take i ++ s :: l := by rw [← hd, List.take_append_drop]
    have hdg : m.nextG ∉ m.deadG := by
      intro hm
      have := (h.gts.mem_iff (a := m.nextG)).1 (List.mem_append_right _ hm)
      simp at this
    rw [freeG_ok (by exact hdg), Option.map_some]
    generalize m.chain.take i = f at hch
    refine ⟨_, rfl, ⟨?_, ?_, ?_⟩, ⟨rfl, rfl, rfl, rfl⟩, ?_⟩
    · have hk := h.linked
      rw [hch] at hk
      exact linked_swap rfl hk ⟨rfl, linked_relink (s := ⟨m.nextS, s.gout, m.nextG + 1⟩) hk.right.tail⟩
    · have a := h.slices
      rw [hch] at a
      simp only [List.perm_iff_count, List.range_succ, List.count_append, List.count_cons, List.count_nil, List.map_append, List.map_cons, relink_id] at a ⊢
      intro x; have := a x; omega
    · have b := h.gts
      rw [hch] at b
      show (gates (f ++ _) ++ _).Perm _
      cases f with
      | nil =>
        simp only [List.nil_append, gates, List.perm_iff_count, List.range_succ, List.count_append, List.count_cons, List.count_nil, List.map_cons, relink_gout] at b ⊢
        intro x; have := b x; omega
      | cons t f =>
        simp only [List.cons_append, gates, List.perm_iff_count, List.range_succ, List.count_append, List.count_cons, List.count_nil, List.map_append, List.map_cons, relink_gout] at b ⊢
        intro x; have := b x; omega
    · have e : (relink (m.nextG + 1) l).length = l.length := by cases l <;> rfl
      rw [hch]
      simp [e]; omega

theorem mergeAt_ok {m : Mem} (h : Sane m) {i : Nat} (hi : i + 1 < m.chain.length) (hn : m.notify i = some m) :
    ∃ m', m.mergeAt i = some m' ∧ Sane m' ∧ Same m m' ∧ m'.chain.length + 1 = m.chain.length ∧
      ∃ s2, m.chain[i + 1]? = some s2 ∧ m'.deadS = m.deadS ++ [s2.id] := by
  unfold Mem.mergeAt
  cases hd : m.chain.drop i with
  | nil => rw [List.drop_eq_nil_iff] at hd; omega
  | cons s1 l0 =>
    cases l0 with
    | nil =>
      have := congrArg List.length hd
      rw [List.length_drop, List.length_singleton] at this
      omega
    | cons s2 l =>
      simp only
      have hch : m.chain = m.chain.take i ++ s1 :: s2 :: l := by rw [← hd, List.take_append_drop]
      have hk := h.linked
      rw [hch] at hk
      have hg : s1.gout = s2.gin := hk.right.1
      have nG := h.nodupG
      have nS := h.nodupS
      have hlen : (m.chain.take i).length = i := by rw [List.length_take]; omega
      have hidx : m.chain[i + 1]? = some s2 := by
        have := congrArg (fun l => l[1]?) hd
        simpa using this
      have hgs : ∃ pre, gates m.chain = pre ++ s1.gout :: s2.gout :: l.map Sl.gout ∧ s2.gin ∉ pre := by
        rw [hch] at nG ⊢
        generalize m.chain.take i = f at nG
        cases f with
        | nil =>
          refine ⟨[s1.gin], by simp [gates], ?_⟩
          simp only [List.nil_append, gates, List.map_cons, List.cons_append, List.nodup_cons, List.mem_cons] at nG
          push Not at nG
          simp only [List.mem_singleton]
          rw [← hg]; exact fun e => nG.1.1 e.symm
        | cons t f =>
          refine ⟨t.gin :: t.gout :: f.map Sl.gout, by simp [gates], ?_⟩
          simp only [gates, List.map_cons, List.cons_append, List.map_append] at nG
          rw [← hg]
          intro hm
          have hp : (t.gin :: t.gout :: (f.map Sl.gout ++ s1.gout :: s2.gout :: l.map Sl.gout) ++ m.deadG) =
            (t.gin :: t.gout :: f.map Sl.gout) ++ (s1.gout :: s2.gout :: (l.map Sl.gout ++ m.deadG)) := by simp
          rw [← List.cons_append, ← List.cons_append, hp] at nG
          exact (List.nodup_append.1 nG).2.2 _ hm _ (List.mem_cons_self) rfl
      obtain ⟨pre, hpre, hnp⟩ := hgs
      rw [hpre] at nG
      have hr := (List.nodup_append.1 nG).2.2
      have hl := (List.nodup_append.1 nG).1
      have h2d : s2.gin ∉ m.deadG := fun hm => hr s2.gin (by rw [hg]; simp) _ hm rfl
      have h2d' : s2.gout ∉ m.deadG := fun hm => hr s2.gout (by simp) _ hm rfl
      have hne : s2.gout ≠ s2.gin := by
        have := (List.nodup_append.1 hl).2.1
        rw [List.nodup_cons] at this
        intro e
        exact this.1 (by rw [hg, ← e]; simp)
      have hsd : s2.id ∉ m.deadS := by
        intro hm
        rw [hch] at nS
        exact (List.nodup_append.1 nS).2.2 s2.id (by simp) _ hm rfl
      rw [hn, Option.bind_some, delSlice_both (by exact h2d) (by exact h2d') hne (by exact hsd), Option.map_some]
      generalize hf : m.chain.take i = f at hch hk
      refine ⟨_, rfl, ⟨?_, ?_, ?_⟩, ⟨rfl, rfl, rfl, rfl⟩, ?_, s2, hidx, rfl⟩
      · exact linked_swap (s := s1) rfl hk (linked_relink (s := { s1 with gout := m.nextG }) hk.right.tail.tail)
      · have a := h.slices
        rw [hch] at a
        simp only [List.perm_iff_count, List.count_append, List.count_cons, List.count_nil, List.map_append, List.map_cons, relink_id] at a ⊢
        intro x; have := a x; omega
      · have b := h.gts
        rw [hch] at b
        show (gates (f ++ _) ++ _).Perm _
        cases f with
        | nil =>
          simp only [List.nil_append, gates, List.perm_iff_count, List.range_succ, List.count_append, List.count_cons, List.count_nil, List.map_cons, relink_gout, hg] at b ⊢
          intro x; have := b x; omega
        | cons t f =>
          simp only [List.cons_append, gates, List.perm_iff_count, List.range_succ, List.count_append, List.count_cons, List.count_nil, List.map_append, List.map_cons, relink_gout, hg] at b ⊢
          intro x; have := b x; omega
      · have e : (relink m.nextG l).length = l.length := by cases l <;> rfl
        rw [hch]
        simp [e]; omega

theorem delTree_ok {m : Mem} (h : Sane m) (hs : Synced m) :
    ∃ m', m.delTree = some m' ∧ Sane m' ∧ Synced m' ∧ m'.mode = (if m.mode = .tree then .none else m.mode) ∧ m'.chain = m.chain ∧
      m'.deadS = m.deadS ∧ m'.deadG = m.deadG ∧ m'.nextS = m.nextS ∧ m'.nextG = m.nextG := by
  unfold Mem.delTree
  by_cases hm : m.mode = .tree
  · rw [if_pos hm]
    obtain ⟨h1, h2⟩ := hs.on hm
    rw [h1]
    simp only
    rw [if_neg]
    · refine ⟨_, rfl, ⟨h.linked, h.slices, h.gts⟩, ⟨hs.ne, fun e => by simp at e, fun _ => ⟨rfl, ?_⟩, ?_⟩, by simp [hm], rfl, rfl, rfl, rfl, rfl⟩
      · simp [h2]
      · have := hs.synth
        rw [hm] at this
        simp at this ⊢
        omega
    · simp only [List.any_eq_true, decide_eq_true_eq, not_exists, not_and]
      intro i hi hd
      exact (List.nodup_append.1 h.nodupS).2.2 i hi i hd rfl
  · rw [if_neg hm]
    exact ⟨m, rfl, h, hs, by rw [if_neg hm], rfl, rfl, rfl, rfl, rfl⟩

theorem delPoly_ok {m : Mem} (h : Sane m) (hs : Synced m) (hm : m.mode ≠ .tree) :
    Sane m.delPoly ∧ Synced m.delPoly ∧ m.delPoly.mode = .none ∧ m.delPoly.chain = m.chain ∧ m.delPoly.deadS = m.deadS ∧
      m.delPoly.deadG = m.deadG ∧ m.delPoly.nextS = m.nextS ∧ m.delPoly.nextG = m.nextG := by
  unfold Mem.delPoly
  by_cases hp : m.mode = .poly
  · rw [if_pos hp]
    refine ⟨⟨h.linked, h.slices, h.gts⟩, ⟨hs.ne, fun e => by simp at e, fun _ => hs.off hm, ?_⟩, rfl, rfl, rfl, rfl, rfl, rfl⟩
    have := hs.synth
    rw [hp] at this
    simp at this ⊢
    omega
  · rw [if_neg hp]
    exact ⟨h, hs, by cases e : m.mode <;> simp_all, rfl, rfl, rfl, rfl, rfl⟩

theorem notify_ok {m : Mem} (hs : Synced m) {i : Nat} (hi : i < m.chain.length) : m.notify i = some m := by
  unfold Mem.notify
  cases hd : m.chain.drop i with
  | nil => rw [List.drop_eq_nil_iff] at hd; omega
  | cons s l =>
    simp only
    rw [if_neg]
    rintro ⟨h1, h2⟩
    have hmem : ∀ s' ∈ l, s' ∈ m.chain := fun s' h => List.mem_of_mem_drop (i := i) (by rw [hd]; exact List.mem_cons_of_mem _ h)
    by_cases hm : m.mode = .tree
    · rw [(hs.on hm).2] at h2
      simp only [List.any_eq_true, decide_eq_true_eq] at h2
      obtain ⟨s', h3, h4⟩ := h2
      exact h4 (List.mem_map_of_mem (hmem s' h3))
    · rw [(hs.off hm).2] at h1
      simp at h1

theorem reset_ok {m : Mem} (h : Sane m) (hs : Synced m) :
    ∃ m', m.delTree.map Mem.delPoly = some m' ∧ Sane m' ∧ Synced m' ∧ m'.mode = .none ∧ m'.chain = m.chain ∧ m'.deadS = m.deadS ∧ m'.deadG = m.deadG ∧
      m'.nextS = m.nextS ∧ m'.nextG = m.nextG := by
  obtain ⟨m1, h1, h2, h3, h4, h5, h6, h7, h8, h9⟩ := delTree_ok h hs
  have hm : m1.mode ≠ .tree := by rw [h4]; split_ifs with e <;> simp_all
  obtain ⟨g1, g2, g3, g4, g5, g6, g7, g8⟩ := delPoly_ok h2 h3 hm
  refine ⟨_, by rw [h1]; rfl, g1, g2, g3, ?_, ?_, ?_, ?_, ?_⟩
  · rw [g4, h5]
  · rw [g5, h6]
  · rw [g6, h7]
  · rw [g7, h8]
  · rw [g8, h9]

theorem truncate_sane {m : Mem} (h : Sane m) {a b : Nat} (hab : a + b < m.chain.length) :
    ∃ m2, ((m.delFront (m.chain.take a)).bind fun m1 => m1.delBack (m.chain.drop (m.chain.length - b)).reverse) = some m2 ∧ Same m m2 ∧ m2.chain = m.chain ∧
      Sane { m2 with chain := (m.chain.drop a).take (m.chain.length - b - a) } ∧
      m2.deadS = m.deadS ++ (m.chain.take a).map Sl.id ++ (m.chain.drop (m.chain.length - b)).reverse.map Sl.id := by
  set f := m.chain.take a with hf
  set e := m.chain.drop (m.chain.length - b) with he
  set r := (m.chain.drop a).take (m.chain.length - b - a) with hr
  have hch : m.chain = f ++ (r ++ e) := by
    rw [hf, he, hr]
    have e1 : m.chain.drop (m.chain.length - b) = (m.chain.drop a).drop (m.chain.length - b - a) := by
      rw [List.drop_drop]; congr 1; omega
    rw [e1, List.take_append_drop, List.take_append_drop]
  have hrn : r ≠ [] := by
    intro e0
    have := congrArg List.length e0
    rw [hr, List.length_take, List.length_drop, List.length_nil] at this
    omega
  have hk := h.linked
  rw [hch] at hk
  have hg : gates m.chain = f.map Sl.gin ++ (gates r ++ e.map Sl.gout) := by
    rw [hch, gates_front (by simp [hrn]) hk, gates_back hrn]
  have nS := h.nodupS
  have nG := h.nodupG
  have pS := h.slices
  have pG := h.gts
  rw [hg] at nG pG
  rw [hch] at nS pS
  have s1 : (f.map Sl.id ++ m.deadS).Nodup := by
    refine List.Nodup.sublist ?_ nS
    rw [List.map_append, List.append_assoc]
    exact List.Sublist.append_left (List.sublist_append_right _ _) _
  have g1 : (f.map Sl.gin ++ m.deadG).Nodup := by
    refine List.Nodup.sublist ?_ nG
    rw [List.append_assoc]
    exact List.Sublist.append_left (List.sublist_append_right _ _) _
  rw [delFront_ok f m s1 g1, Option.bind_some, delBack_ok]
  · refine ⟨_, rfl, ⟨rfl, rfl, rfl, rfl⟩, rfl, ⟨?_, ?_, ?_⟩, rfl⟩
    · exact hk.right.left
    · simp only [List.perm_iff_count, List.count_append, List.map_append, List.map_reverse, List.count_reverse] at pS ⊢
      intro x; have := pS x; omega
    · simp only [List.perm_iff_count, List.count_append, List.map_reverse, List.count_reverse] at pG ⊢
      intro x; have := pG x; omega
  · have : (e.reverse.map Sl.id ++ (m.deadS ++ f.map Sl.id) ++ r.map Sl.id).Nodup := by
      refine (List.Perm.nodup_iff ?_).1 nS
      simp only [List.perm_iff_count, List.count_append, List.map_append, List.map_reverse, List.count_reverse]
      intro; omega
    exact (List.nodup_append.1 this).1
  · have : (e.reverse.map Sl.gout ++ (m.deadG ++ f.map Sl.gin) ++ gates r).Nodup := by
      refine (List.Perm.nodup_iff ?_).1 nG
      simp only [List.perm_iff_count, List.count_append, List.map_reverse, List.count_reverse]
      intro; omega
    exact (List.nodup_append.1 this).1

end Codac.Life
