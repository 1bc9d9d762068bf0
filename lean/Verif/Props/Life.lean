import Verif.Tube.LifeProofs

/-!
# C126: memory of a tube over any history of calls

What a user knows of a tube: its number of slices and the mode of synthesis it has asked for.
-/

namespace Codac.Props

open Codac.Life

/-- number of slices and mode after a call, as documented: `enable_synthesis` chooses the mode, the calls that change the slices end it (but `remove_gate` and the setters) -/
def lifeAfter : Nat × Mode → Life.Op → Nat × Mode
  | (n, _), .tree => (n, .tree)
  | (n, _), .poly => (n, .poly)
  | (n, _), .off => (n, .none)
  | (n, _), .sample _ => (n + 1, .none)
  | (n, m), .merge _ => (n - 1, m)
  | (n, _), .truncate a b => (n - a - b, .none)
  | (_, _), .assign k => (k + 1, .none)
  | v, .selfAssign => v
  | v, .set _ => v
  | (n, _), .shift => (n, .none)

/-- the calls proved safe: indices of existing slices; with a tree, no polynomials, no `remove_gate`, no assignment, no `truncate_tdomain` that removes a slice; with polynomials, no tree; no
self-assignment -/
def LifeAllowed : Nat × Mode → Life.Op → Prop
  | (_, m), .tree => m ≠ .poly
  | (_, m), .poly => m ≠ .tree
  | _, .off => True
  | (n, _), .sample i => i < n
  | (n, m), .merge i => i + 1 < n ∧ m ≠ .tree
  | (n, m), .truncate a b => a + b < n ∧ (m = .tree → a + b = 0)
  | (_, m), .assign _ => m ≠ .tree
  | _, .selfAssign => False
  | (n, _), .set i => i < n
  | _, .shift => True

/-- all the calls of the history are of this kind -/
def LifeCareful : Nat × Mode → List Life.Op → Prop
  | _, [] => True
  | v, o :: os => LifeAllowed v o ∧ LifeCareful (lifeAfter v o) os

theorem life_step {m : Mem} (h : Sane m) (hs : Synced m) {o : Life.Op} (ha : LifeAllowed (m.chain.length, m.mode) o) :
    ∃ m', m.step o = some m' ∧ Sane m' ∧ Synced m' ∧ (m'.chain.length, m'.mode) = lifeAfter (m.chain.length, m.mode) o := by
  cases o with
  | tree =>
    have ha : m.mode ≠ .poly := ha
    obtain ⟨m1, h1, h2, h3, h4, h5, _⟩ := delTree_ok h hs
    have hm : m1.mode = .none := by
      rw [h4]; cases e : m.mode <;> simp_all
    refine ⟨{ m1 with tree := some (m1.chain.map Sl.id), mode := .tree, refs := m1.refs ++ m1.chain.map Sl.id, synth := m1.synth + 1 },
      by simp only [Mem.step, Mem.mkTree, h1, Option.map_some], ⟨h2.linked, h2.slices, h2.gts⟩, ⟨h3.ne, fun _ => ⟨rfl, ?_⟩, fun e => absurd rfl e, ?_⟩, ?_⟩
    · show m1.refs ++ _ = _
      rw [(h3.off (by rw [hm]; simp)).2]; rfl
    · have := h3.synth
      rw [hm] at this
      simp at this ⊢
      exact this
    · simp [lifeAfter, h5]
  | poly =>
    have ha : m.mode ≠ .tree := ha
    obtain ⟨g1, g2, g3, g4, _⟩ := delPoly_ok h hs ha
    refine ⟨_, rfl, ⟨g1.linked, g1.slices, g1.gts⟩, ⟨g2.ne, fun e => by simp [Mem.mkPoly] at e, fun _ => g2.off (by rw [g3]; simp), ?_⟩, ?_⟩
    · have := g2.synth
      rw [g3] at this
      simp [Mem.mkPoly] at this ⊢
      exact this
    · simp [Mem.mkPoly, lifeAfter, g4]
  | off =>
    obtain ⟨m', h1, h2, h3, h4, h5, _⟩ := reset_ok h hs
    exact ⟨m', h1, h2, h3, by rw [h4, h5]; rfl⟩
  | shift =>
    obtain ⟨m', h1, h2, h3, h4, h5, _⟩ := reset_ok h hs
    exact ⟨m', h1, h2, h3, by rw [h4, h5]; rfl⟩
  | sample i =>
    have ha : i < m.chain.length := ha
    obtain ⟨m1, h1, h2, h3, h4, h5, _⟩ := reset_ok h hs
    obtain ⟨m', g1, g2, g3, g4⟩ := split_ok h2 (i := i) (by rw [h5]; exact ha)
    obtain ⟨e1, e2, e3, e4⟩ := g3
    have hoff := h3.off (by rw [h4]; simp)
    refine ⟨m', ?_, g2, ⟨?_, ?_, ?_, ?_⟩, ?_⟩
    · rw [Option.map_eq_some_iff] at h1
      obtain ⟨m0, h0, rfl⟩ := h1
      simp only [Mem.step, h0, Option.bind_some, g1]
    · intro e
      rw [e, List.length_nil] at g4
      omega
    · intro e; rw [e1, h4] at e; simp at e
    · intro _; rw [e2, e3]; exact hoff
    · rw [e4, e1, h3.synth]
    · rw [g4, e1, h4, h5]; rfl
  | merge i =>
    obtain ⟨ha, hm⟩ : i + 1 < m.chain.length ∧ m.mode ≠ .tree := ha
    obtain ⟨m', g1, g2, g3, g4, _⟩ := mergeAt_ok h ha (notify_ok hs (by omega))
    obtain ⟨e1, e2, e3, e4⟩ := g3
    refine ⟨m', g1, g2, ⟨?_, ?_, ?_, ?_⟩, ?_⟩
    · intro e
      rw [e, List.length_nil] at g4
      omega
    · intro e; rw [e1] at e; exact absurd e hm
    · intro _; rw [e2, e3]; exact hs.off hm
    · rw [e4, e1, hs.synth]
    · rw [e1]
      show _ = (m.chain.length - 1, m.mode)
      rw [← g4]; rfl
  | truncate a b =>
    obtain ⟨ha, hm⟩ : a + b < m.chain.length ∧ (m.mode = .tree → a + b = 0) := ha
    obtain ⟨m2, g1, g2, _, g4, g5⟩ := truncate_sane h ha
    obtain ⟨e1, e2, e3, e4⟩ := g2
    have hlen : ((m.chain.drop a).take (m.chain.length - b - a)).length = m.chain.length - a - b := by
      rw [List.length_take, List.length_drop]; omega
    have hsy : Synced { m2 with chain := (m.chain.drop a).take (m.chain.length - b - a) } := by
      refine ⟨?_, ?_, ?_, ?_⟩
      · intro e
        simp only at e
        rw [e, List.length_nil] at hlen
        omega
      · intro e
        change m2.mode = .tree at e
        rw [e1] at e
        have h0 := hm e
        obtain ⟨rfl, rfl⟩ : a = 0 ∧ b = 0 := by omega
        obtain ⟨k1, k2⟩ := hs.on e
        simp only [e2, e3, k1, k2, List.drop_zero, Nat.sub_zero, List.take_length, and_self]
      · intro e
        change m2.mode ≠ .tree at e
        rw [e1] at e
        show m2.tree = none ∧ m2.refs = []
        rw [e2, e3]; exact hs.off e
      · show m2.synth = if m2.mode = .none then 0 else 1
        rw [e4, e1, hs.synth]
    obtain ⟨m', h1, h2, h3, h4, h5, _⟩ := reset_ok g4 hsy
    refine ⟨m', ?_, h2, h3, ?_⟩
    · simp only [Mem.step]
      rw [if_pos ha]
      rw [Option.bind_eq_some_iff] at g1
      obtain ⟨m1, k1, k2⟩ := g1
      rw [k1, Option.bind_some, k2, Option.bind_some, h1]
    · rw [h4, h5]
      show (_, _) = (m.chain.length - a - b, Mode.none)
      rw [← hlen]
  | assign k =>
    have hm : m.mode ≠ .tree := ha
    have hd := delAll_ok m.chain m h.linked h.nodupS h.nodupG
    have hp : ∀ m1 : Mem, m1.mode = m.mode → m1.delTree = some m1 := by
      intro m1 e
      unfold Mem.delTree
      rw [if_neg (by rw [e]; exact hm)]
    set m1 : Mem := { m with deadS := m.deadS ++ m.chain.map Sl.id, deadG := m.deadG ++ gates m.chain } with hm1
    have hpoly : m1.delPoly.mode = .none ∧ m1.delPoly.tree = none ∧ m1.delPoly.refs = [] ∧ m1.delPoly.synth = 0 ∧ m1.delPoly.deadS = m1.deadS ∧
        m1.delPoly.deadG = m1.deadG ∧ m1.delPoly.nextS = m.nextS ∧ m1.delPoly.nextG = m.nextG := by
      have k := hs.off hm
      have ks := hs.synth
      unfold Mem.delPoly
      by_cases hpo : m.mode = .poly
      · rw [if_pos hpo]
        rw [hpo] at ks
        simp at ks
        exact ⟨rfl, k.1, k.2, by simp [hm1, ks], rfl, rfl, rfl, rfl⟩
      · rw [if_neg hpo]
        have e : m.mode = .none := by cases e : m.mode <;> simp_all
        rw [e] at ks
        exact ⟨e, k.1, k.2, ks, rfl, rfl, rfl, rfl⟩
    obtain ⟨p1, p2, p3, p4, p5, p6, p7, p8⟩ := hpoly
    have hsane : Sane { m1.delPoly with chain := [] } := by
      refine ⟨trivial, ?_, ?_⟩
      · show ([] ++ m1.delPoly.deadS).Perm (List.range m1.delPoly.nextS)
        rw [p5, p7, List.nil_append]
        exact List.perm_append_comm.trans h.slices
      · show ([] ++ m1.delPoly.deadG).Perm (List.range m1.delPoly.nextG)
        rw [p6, p8, List.nil_append]
        exact List.perm_append_comm.trans h.gts
    obtain ⟨m', g1, g2, g3, g4⟩ := grow_ok (k + 1) _ hsane
    obtain ⟨e1, e2, e3, e4⟩ := g3
    have e1' : m'.mode = .none := e1.trans p1
    refine ⟨m', ?_, g2, ⟨?_, ?_, ?_, ?_⟩, ?_⟩
    · simp only [Mem.step]
      rw [hd, Option.bind_some, hp m1 rfl, Option.bind_some, g1]
    · intro e
      rw [e] at g4
      simp at g4
    · intro e; rw [e1'] at e; simp at e
    · intro _; exact ⟨e2.trans p2, e3.trans p3⟩
    · rw [e1']; exact e4.trans p4
    · rw [e1', g4]; simp [lifeAfter]
  | selfAssign => exact ha.elim
  | set i =>
    have ha : i < m.chain.length := ha
    exact ⟨m, notify_ok hs ha, h, hs, rfl⟩

theorem life_build (n : Nat) : ∃ m, Mem.build n = some m ∧ Sane m ∧ Synced m ∧ (m.chain.length, m.mode) = (n + 1, Mode.none) := by
  obtain ⟨m, h1, h2, ⟨e1, e2, e3, e4⟩, h4⟩ := grow_ok (n + 1) Mem.blank ⟨trivial, by simp [Mem.blank], by simp [Mem.blank, gates]⟩
  have h4' : m.chain.length = n + 1 := by rw [h4]; simp [Mem.blank]
  refine ⟨m, h1, h2, ⟨?_, ?_, fun _ => ⟨e2, e3⟩, ?_⟩, ?_⟩
  · intro e; rw [e] at h4'; simp at h4'
  · intro e; rw [e1] at e; simp [Mem.blank] at e
  · rw [e1, e4]; rfl
  · rw [h4', e1]; rfl

theorem life_run : ∀ (os : List Life.Op) {m : Mem}, Sane m → Synced m → LifeCareful (m.chain.length, m.mode) os →
    ∃ m', m.run os = some m' ∧ Sane m' ∧ Synced m' ∧ (m'.chain.length, m'.mode) = os.foldl lifeAfter (m.chain.length, m.mode)
  | [], m, h, hs, _ => ⟨m, rfl, h, hs, rfl⟩
  | o :: os, m, h, hs, hc => by
    obtain ⟨m1, h1, h2, h3, h4⟩ := life_step h hs hc.1
    obtain ⟨m', g1, g2, g3, g4⟩ := life_run os h2 h3 (by rw [h4]; exact hc.2)
    refine ⟨m', by rw [Mem.run, h1, Option.bind_some, g1], g2, g3, ?_⟩
    rw [g4, h4]; rfl

theorem life_destroy {m : Mem} (h : Sane m) (hs : Synced m) :
    ∃ m', m.destroy = some m' ∧ m'.chain = [] ∧ m'.deadS.Perm (List.range m'.nextS) ∧ m'.deadG.Perm (List.range m'.nextG) ∧ m'.synth = 0 := by
  obtain ⟨m1, h1, h2, h3, h4, h5, h6, h7, h8, h9⟩ := reset_ok h hs
  rw [Option.map_eq_some_iff] at h1
  obtain ⟨m0, h0, rfl⟩ := h1
  have hch : m0.delPoly.chain = m0.chain := by unfold Mem.delPoly; split_ifs <;> rfl
  have hd := delAll_ok m0.delPoly.chain m0.delPoly h2.linked h2.nodupS h2.nodupG
  refine ⟨_, by rw [Mem.destroy, h0, Option.bind_some, ← hch, hd, Option.map_some], rfl, ?_, ?_, ?_⟩
  · exact List.perm_append_comm.trans h2.slices
  · exact List.perm_append_comm.trans h2.gts
  · show m0.delPoly.synth = 0
    rw [h3.synth, h4]; rfl

/-- Any careful history on a new tube: no access to freed memory, no double `delete`, no null pointer followed; the number of slices and the mode are the documented ones; `nb_slices()` and
`slice(k)` give the slices of the tube, which are alive; when the tube is destroyed every slice and every gate ever allocated is freed exactly once, and no object of synthesis remains.
Missing for the full claim: the calls excluded by `LifeAllowed`, see the theorems below. -/
theorem C126_safe_partial (n : Nat) (os : List Life.Op) (hc : LifeCareful (n + 1, .none) os) :
    ∃ m0 m m', Mem.build n = some m0 ∧ m0.run os = some m ∧ m.destroy = some m' ∧
      (m.chain.length, m.mode) = os.foldl lifeAfter (n + 1, .none) ∧
      m.nbSlices = some m.chain.length ∧ (∀ k s, m.chain[k]? = some s → m.sliceAt k = some s.id ∧ s.id ∉ m.deadS ∧ s.gin ∉ m.deadG ∧ s.gout ∉ m.deadG) ∧
      m'.deadS.Perm (List.range m'.nextS) ∧ m'.deadG.Perm (List.range m'.nextG) ∧ m'.synth = 0 := by
  obtain ⟨m0, h1, h2, h3, h4⟩ := life_build n
  obtain ⟨m, g1, g2, g3, g4⟩ := life_run os h2 h3 (by rw [h4]; exact hc)
  obtain ⟨m', k1, _, k3, k4, k5⟩ := life_destroy g2 g3
  refine ⟨m0, m, m', h1, g1, k1, by rw [g4, h4], ?_, ?_, k3, k4, k5⟩
  · unfold Mem.nbSlices
    by_cases e : m.mode = .tree
    · rw [if_pos e, (g3.on e).1]; simp
    · rw [if_neg e]
  · intro k s hk
    have hmem : s ∈ m.chain := List.mem_of_getElem? hk
    have hgin : ∀ l : List Sl, Linked l → s ∈ l → s.gin ∈ gates l ∧ s.gout ∈ gates l := by
      intro l
      induction l with
      | nil => intro _ h; simp at h
      | cons t l ih =>
        intro hl hm
        rcases List.mem_cons.1 hm with rfl | hm
        · simp [gates]
        · obtain ⟨t', l', rfl⟩ := List.exists_cons_of_ne_nil (List.ne_nil_of_mem hm)
          have := ih hl.2 hm
          rw [gates_link hl.1]
          exact ⟨List.mem_cons_of_mem _ this.1, List.mem_cons_of_mem _ this.2⟩
    obtain ⟨a1, a2⟩ := hgin _ g2.linked hmem
    refine ⟨?_, ?_, ?_, ?_⟩
    · unfold Mem.sliceAt
      by_cases e : m.mode = .tree
      · rw [if_pos e, (g3.on e).1]; simp [hk]
      · rw [if_neg e]; simp [hk]
    · exact fun hd => (List.nodup_append.1 g2.nodupS).2.2 _ (List.mem_map_of_mem hmem) _ hd rfl
    · exact fun hd => (List.nodup_append.1 g2.nodupG).2.2 _ a1 _ hd rfl
    · exact fun hd => (List.nodup_append.1 g2.nodupG).2.2 _ a2 _ hd rfl

/-- the hypotheses are met by a history with a tree, samplings, updates, a truncation, a merge, polynomials and an assignment -/
example : LifeCareful (3, .none) [.tree, .set 1, .off, .sample 1, .tree, .sample 0, .merge 2, .truncate 1 1, .poly, .set 0, .assign 4, .tree, .set 2, .shift] := by
  simp [LifeCareful, LifeAllowed, lifeAfter]

/-- Any history after which the tube has a tree, then an assignment `x = y`: the slices are deleted before the tree, whose destructor writes in them. -/
theorem C126_assign_fails {m : Mem} (h : Sane m) (hs : Synced m) (hm : m.mode = .tree) (k : Nat) : m.step (.assign k) = none := by
  have hd := delAll_ok m.chain m h.linked h.nodupS h.nodupG
  simp only [Mem.step]
  rw [hd, Option.bind_some]
  have : (({ m with deadS := m.deadS ++ m.chain.map Sl.id, deadG := m.deadG ++ gates m.chain } : Mem)).delTree = none := by
    unfold Mem.delTree
    rw [if_pos hm]
    simp only [(hs.on hm).1]
    rw [if_pos]
    obtain ⟨s, l, e⟩ := List.exists_cons_of_ne_nil hs.ne
    simp [e]
  rw [this]; rfl

/-- The same with `truncate_tdomain` when it removes at least one slice. -/
theorem C126_truncate_fails {m : Mem} (h : Sane m) (hs : Synced m) (hm : m.mode = .tree) {a b : Nat} (h0 : 0 < a + b) : m.step (.truncate a b) = none := by
  simp only [Mem.step]
  by_cases ha : a + b < m.chain.length
  · rw [if_pos ha]
    obtain ⟨m2, g1, ⟨e1, e2, e3, e4⟩, _, _, g5⟩ := truncate_sane h ha
    rw [Option.bind_eq_some_iff] at g1
    obtain ⟨m1, k1, k2⟩ := g1
    rw [k1, Option.bind_some, k2, Option.bind_some]
    have : (({ m2 with chain := (m.chain.drop a).take (m.chain.length - b - a) } : Mem)).delTree = none := by
      unfold Mem.delTree
      rw [if_pos (by show m2.mode = .tree; rw [e1, hm])]
      simp only [e2, (hs.on hm).1]
      rw [if_pos]
      simp only [List.any_eq_true, decide_eq_true_eq, g5]
      rcases Nat.eq_zero_or_pos a with rfl | hpos
      · refine ⟨(m.chain[m.chain.length - 1]'(by omega)).id, List.mem_map_of_mem (List.getElem_mem _), ?_⟩
        refine List.mem_append_right _ (List.mem_map_of_mem (List.mem_reverse.2 ?_))
        rw [List.mem_iff_getElem]
        refine ⟨b - 1, by rw [List.length_drop]; omega, ?_⟩
        rw [List.getElem_drop]
        congr 1
        omega
      · refine ⟨(m.chain[0]'(by omega)).id, List.mem_map_of_mem (List.getElem_mem _), ?_⟩
        refine List.mem_append_left _ (List.mem_append_right _ (List.mem_map_of_mem ?_))
        rw [List.mem_iff_getElem]
        exact ⟨0, by rw [List.length_take]; omega, by rw [List.getElem_take]⟩
    rw [this]; rfl
  · rw [if_neg ha]

/-- After `remove_gate` (or `merge_similar_slices`) on a tube with a tree: `nb_slices()` is wrong, `slice(i + 1)` is a pointer to a deleted slice, and the tree cannot be deleted any more, even
by the destructor of the tube. -/
theorem C126_merge_fails {m : Mem} (h : Sane m) (hs : Synced m) (hm : m.mode = .tree) {i : Nat} (hi : i + 1 < m.chain.length) :
    ∃ m', m.step (.merge i) = some m' ∧ m'.nbSlices = some (m'.chain.length + 1) ∧ (∃ s, m'.sliceAt (i + 1) = some s ∧ s ∈ m'.deadS) ∧
      m'.step .off = none ∧ m'.destroy = none := by
  obtain ⟨m', g1, _, ⟨e1, e2, e3, e4⟩, g4, s2, k1, k2⟩ := mergeAt_ok h hi (notify_ok hs (by omega))
  have ht := (hs.on hm).1
  have hdt : m'.delTree = none := by
    unfold Mem.delTree
    rw [if_pos (by rw [e1, hm])]
    simp only [e2, ht]
    rw [if_pos]
    simp only [List.any_eq_true, decide_eq_true_eq]
    exact ⟨s2.id, List.mem_map_of_mem (List.mem_of_getElem? k1), by rw [k2]; simp⟩
  refine ⟨m', g1, ?_, ⟨s2.id, ?_, by rw [k2]; simp⟩, ?_, ?_⟩
  · unfold Mem.nbSlices
    rw [if_pos (by rw [e1, hm]), e2, ht, g4]; simp
  · unfold Mem.sliceAt
    rw [if_pos (by rw [e1, hm]), e2, ht]
    simp [k1]
  · simp [Mem.step, hdt]
  · simp [Mem.destroy, hdt]

/-- `x = x` reads its slices after their deletion. -/
theorem C126_self_assign_fails {m : Mem} (h : Sane m) (hs : Synced m) : m.step .selfAssign = none := by
  have hd := delAll_ok m.chain m h.linked h.nodupS h.nodupG
  obtain ⟨s, l, e⟩ := List.exists_cons_of_ne_nil hs.ne
  simp only [Mem.step]
  rw [hd, Option.bind_some]
  cases hdt : (({ m with deadS := m.deadS ++ m.chain.map Sl.id, deadG := m.deadG ++ gates m.chain } : Mem)).delTree with
  | none => rfl
  | some m1 =>
    rw [Option.bind_some]
    have : m1.chain = m.chain ∧ m1.deadS = m.deadS ++ m.chain.map Sl.id := by
      unfold Mem.delTree at hdt
      split_ifs at hdt
      · cases ht : m.tree with
        | none => simp [ht] at hdt
        | some ls =>
          simp only [ht] at hdt
          split_ifs at hdt
          cases hdt; exact ⟨rfl, rfl⟩
      · cases hdt; exact ⟨rfl, rfl⟩
    rw [this.1, e]
    simp only
    rw [if_pos (by rw [this.2, e]; simp)]

/-- A tree, then polynomials: the tree is not freed by the destructor of the tube. -/
theorem C126_leak_fails : ((Mem.build 1).bind fun m => (m.run [.tree, .poly]).bind Mem.destroy).map Mem.synth = some 1 := by decide

/-- the states of these theorems are reached: a tube of three slices with a tree -/
example : ∃ m0 m, Mem.build 2 = some m0 ∧ m0.run [.tree] = some m ∧ Sane m ∧ Synced m ∧ m.mode = .tree ∧ 1 + 1 < m.chain.length := by
  obtain ⟨m0, h1, h2, h3, h4⟩ := life_build 2
  obtain ⟨m, g1, g2, g3, g4⟩ := life_run [.tree] h2 h3 (by rw [h4]; simp [LifeCareful, LifeAllowed])
  rw [h4] at g4
  simp only [List.foldl_cons, List.foldl_nil, lifeAfter, Prod.mk.injEq] at g4
  exact ⟨m0, m, h1, g1, g2, g3, g4.2, by rw [g4.1]; omega⟩

/-- a concrete history of each kind -/
example : ((Mem.build 2).bind fun m => m.run [.tree, .assign 0]) = none ∧ ((Mem.build 2).bind fun m => m.run [.tree, .truncate 0 1]) = none ∧
    ((Mem.build 2).bind fun m => m.run [.tree, .merge 0, .sample 0]) = none ∧ ((Mem.build 2).bind fun m => m.run [.off, .selfAssign]) = none := by decide

end Codac.Props
