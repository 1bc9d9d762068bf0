import Verif.CN.Model

set_option linter.unusedSectionVars false

/-! # Histories of a contractor network, consistency of the queue and of the active flags -/

namespace Codac.CN

variable {D C M W : Type*} [DecidableEq D] [DecidableEq C]

/-- a network: graph, mutable state, contractors of the map -/
structure Net (D C M W : Type*) where
  G : Graph D C M W
  s : State D C M W
  all : List C

/-- public operations on a network -/
inductive Op (D C M : Type*)
  /-- `contract()`, stopped after `n` iterations by the time limit or by an empty queue -/
  | contract (n : Nat)
  /-- `contract_ordered_mode()` -/
  | ordered (n : Nat)
  /-- `trigger_all_contractors()` -/
  | triggerAll
  /-- `reset_interm_vars()`: intermediate variables and their reset -/
  | reset (interm : List D) (f : D → M → M)
  /-- `add(..)`: one contractor on some domains -/
  | add (c : C) (ds : List D) (k : Kind) (f : M → M)

/-- the graph after the registration, once more, of an already known contractor: `add_ctc` returns the known object and the
domains push it once more in their lists -/
def addAgain (G : Graph D C M W) (c : C) (ds : List D) : Graph D C M W :=
  { G with ctcs := fun d => G.ctcs d ++ List.replicate (ds.count d) c }

def Op.run (unset : W) (N : Net D C M W) : Op D C M → Net D C M W
  | .contract n => { N with s := CN.contract N.G n N.s }
  | .ordered n => { N with s := orderedMode N.G n N.s }
  | .triggerAll => { N with s := CN.triggerAll N.G N.all N.s }
  | .reset interm f => { N with s := resetInterm N.G f unset interm N.all N.s }
  | .add c ds k f =>
    if c ∈ N.all then { N with G := addAgain N.G c ds }
    else
      let G' := CN.addCtc N.G c ds k f
      ⟨G', enqueueNew G' c N.s, c :: N.all⟩

def runOps (unset : W) : List (Op D C M) → Net D C M W → Net D C M W
  | [], N => N
  | o :: os, N => runOps unset os (o.run unset N)

/-- consistency of the queue with the active flags: `sub` tells whether sub-networks are in the scope -/
structure QInv (all : List C) (G : Graph D C M W) (s : State D C M W) : Prop where
  nodup : s.queue.Nodup
  known : ∀ c ∈ s.queue, c ∈ all
  act : ∀ c ∈ s.queue, s.active c = true
  que : ∀ c ∈ all, G.kind c ≠ .subnet → s.active c = true → c ∈ s.queue
  ctcs : ∀ d, ∀ c ∈ G.ctcs d, c ∈ all

theorem mem_addToQueue {G : Graph D C M W} {c x : C} {q : List C} : x ∈ addToQueue G c q ↔ x = c ∨ x ∈ q := by
  unfold addToQueue
  split_ifs
  · simp [or_comm]
  · simp

theorem addToQueue_nodup {G : Graph D C M W} {c : C} {q : List C} (h : q.Nodup) (hc : c ∉ q) :
    (addToQueue G c q).Nodup := by
  unfold addToQueue
  split_ifs
  · rw [List.nodup_append]
    refine ⟨h, by simp, ?_⟩
    intro a ha b hb
    simp only [List.mem_singleton] at hb
    subst hb; rintro rfl; exact hc ha
  · exact List.nodup_cons.mpr ⟨hc, h⟩

/-- what `activate` does to the flags and to the local queue -/
theorem activate_spec (G : Graph D C M W) (avoid : Option C) (cs : List C) (r : (C → Bool) × List C)
    (hr : r.2.Nodup) (hact : ∀ c ∈ r.2, r.1 c = true) :
    (∀ x, (activate G avoid cs r).1 x = true ↔ (r.1 x = true ∨ (x ∈ cs ∧ some x ≠ avoid))) ∧
    (∀ x, x ∈ (activate G avoid cs r).2 ↔ (x ∈ r.2 ∨ (x ∈ cs ∧ some x ≠ avoid ∧ r.1 x = false))) ∧
    (activate G avoid cs r).2.Nodup := by
  induction cs generalizing r with
  | nil => exact ⟨by simp [activate], by simp [activate], hr⟩
  | cons c cs ih =>
    unfold activate
    split_ifs with h
    · have hn : c ∉ r.2 := fun hc => by have := hact c hc; rw [h.2] at this; cases this
      have := ih (Function.update r.1 c true, addToQueue G c r.2) (addToQueue_nodup hr hn) (by
        intro x hx
        rw [mem_addToQueue] at hx
        by_cases e : x = c
        · subst e; simp
        · simp only [Function.update_of_ne e]
          rcases hx with hx | hx
          · exact absurd hx e
          · exact hact x hx)
      obtain ⟨h1, h2, h3⟩ := this
      refine ⟨?_, ?_, h3⟩
      · intro x
        rw [h1 x]
        by_cases e : x = c
        · subst e; simp [h.1]
        · simp [e]
      · intro x
        rw [h2 x, mem_addToQueue]
        by_cases e : x = c
        · subst e; simp [h.1, h.2]
        · simp [e]
    · obtain ⟨h1, h2, h3⟩ := ih r hr hact
      refine ⟨?_, ?_, h3⟩
      · intro x
        rw [h1 x]
        by_cases e : x = c
        · subst e
          constructor
          · rintro (h4 | h4)
            · exact Or.inl h4
            · exact Or.inr ⟨by simp, h4.2⟩
          · rintro (h4 | ⟨-, h4⟩)
            · exact Or.inl h4
            · left
              by_contra h5
              exact h ⟨h4, by simpa using h5⟩
        · simp [e]
      · intro x
        rw [h2 x]
        by_cases e : x = c
        · subst e
          constructor
          · rintro (h4 | h4)
            · exact Or.inl h4
            · exact Or.inr ⟨by simp, h4.2⟩
          · rintro (h4 | ⟨-, h4⟩)
            · exact Or.inl h4
            · exact absurd h4 h
        · simp [e]

/-- effect of one trigger on the state: memory, volumes, flags, queue -/
theorem triggerOne_spec (G : Graph D C M W) (avoid : Option C) (s : State D C M W) (d : D) :
    (triggerOne G avoid s d).mem = s.mem ∧
    (triggerOne G avoid s d).saved = Function.update s.saved d (G.vol d s.mem) ∧
    (∀ x, (triggerOne G avoid s d).active x = true ↔
      (s.active x = true ∨ (G.drop (G.vol d s.mem) (s.saved d) = true ∧ x ∈ G.ctcs d ∧ some x ≠ avoid))) ∧
    (∀ x, x ∈ (triggerOne G avoid s d).queue ↔ (x ∈ s.queue ∨
      (G.drop (G.vol d s.mem) (s.saved d) = true ∧ x ∈ G.ctcs d ∧ some x ≠ avoid ∧ s.active x = false))) ∧
    ((∀ c ∈ s.queue, s.active c = true) → s.queue.Nodup → (triggerOne G avoid s d).queue.Nodup) := by
  unfold triggerOne
  by_cases h : G.drop (G.vol d s.mem) (s.saved d) = true
  · obtain ⟨h1, h2, h3⟩ := activate_spec G avoid (G.ctcs d) (s.active, []) (by simp) (by simp)
    simp only [h, if_true]
    refine ⟨trivial, trivial, ?_, ?_, ?_⟩
    · intro x; rw [h1 x]; simp
    · intro x
      simp only [List.mem_append, List.mem_reverse, h2 x, List.not_mem_nil, false_or, true_and]
      exact or_comm
    · intro ha hn
      rw [List.nodup_append]
      refine ⟨List.nodup_reverse.mpr h3, hn, ?_⟩
      intro a ha' b hb e
      subst e
      rw [List.mem_reverse, h2 a] at ha'
      simp only [List.not_mem_nil, false_or] at ha'
      have := ha a hb
      rw [ha'.2.2] at this; cases this
  · simp only [h]
    refine ⟨rfl, rfl, ?_, ?_, fun _ hn => hn⟩ <;> simp

theorem triggerOne_qinv {all : List C} {G : Graph D C M W} {s : State D C M W} (avoid : Option C) (h : QInv all G s)
    (d : D) : QInv all G (triggerOne G avoid s d) := by
  obtain ⟨-, -, h3, h4, h5⟩ := triggerOne_spec G avoid s d
  refine ⟨h5 h.act h.nodup, ?_, ?_, ?_, h.ctcs⟩
  · intro c hc
    rw [h4 c] at hc
    rcases hc with hc | hc
    · exact h.known c hc
    · exact h.ctcs d c hc.2.1
  · intro c hc
    rw [h4 c] at hc
    rw [h3 c]
    rcases hc with hc | hc
    · exact Or.inl (h.act c hc)
    · exact Or.inr ⟨hc.1, hc.2.1, hc.2.2.1⟩
  · intro c hc hk ha
    rw [h3 c] at ha
    rw [h4 c]
    by_cases e : s.active c = true
    · exact Or.inl (h.que c hc hk e)
    · rcases ha with ha | ha
      · exact absurd ha e
      · exact Or.inr ⟨ha.1, ha.2.1, ha.2.2, by simpa using e⟩

theorem foldl_triggerOne_qinv {all : List C} {G : Graph D C M W} (avoid : Option C) (ds : List D)
    {s : State D C M W} (h : QInv all G s) : QInv all G (ds.foldl (triggerOne G avoid) s) := by
  induction ds generalizing s with
  | nil => exact h
  | cons d ds ih => exact ih (triggerOne_qinv avoid h d)

theorem foldl_trigger_eq (G : Graph D C M W) (avoid : Option C) (ds : List D) (s : State D C M W) :
    ds.foldl (trigger G avoid) s = (ds.flatMap fun d => d :: G.comps d).foldl (triggerOne G avoid) s := by
  induction ds generalizing s with
  | nil => rfl
  | cons d ds ih => rw [List.foldl_cons, ih, List.flatMap_cons, List.foldl_append]; rfl

theorem step_qinv {all : List C} {G : Graph D C M W} {s : State D C M W} (h : QInv all G s) : QInv all G (step G s) := by
  unfold step
  split
  · exact h
  · rename_i c q hq
    have hn : (c :: q).Nodup := hq ▸ h.nodup
    rw [List.nodup_cons] at hn
    have hq' : ∀ x ∈ q, x ∈ s.queue := fun x hx => by rw [hq]; exact List.mem_cons_of_mem _ hx
    split_ifs with hk
    · refine ⟨hn.2, fun x hx => h.known x (hq' x hx), fun x hx => h.act x (hq' x hx), ?_, h.ctcs⟩
      intro x hx hkx ha
      have := h.que x hx hkx ha
      rw [hq, List.mem_cons] at this
      rcases this with rfl | this
      · exact absurd hk hkx
      · exact this
    · rw [foldl_trigger_eq]
      apply foldl_triggerOne_qinv
      refine ⟨hn.2, fun x hx => h.known x (hq' x hx), ?_, ?_, h.ctcs⟩
      · intro x hx
        have e : x ≠ c := fun e => hn.1 (e ▸ hx)
        simp only [Function.update_of_ne e]
        exact h.act x (hq' x hx)
      · intro x hx hkx ha
        by_cases e : x = c
        · subst e; simp at ha
        · simp only [Function.update_of_ne e] at ha
          have := h.que x hx hkx ha
          rw [hq, List.mem_cons] at this
          rcases this with h4 | this
          · exact absurd h4 e
          · exact this

theorem steps_qinv {all : List C} {G : Graph D C M W} (n : Nat) {s : State D C M W} (h : QInv all G s) :
    QInv all G (steps G n s) := by
  induction n generalizing s with
  | zero => exact h
  | succ n ih => exact ih (step_qinv h)

theorem mem_foldl_addToQueue {G : Graph D C M W} {cs q : List C} {x : C} :
    x ∈ cs.foldl (fun q c => addToQueue G c q) q ↔ x ∈ cs ∨ x ∈ q := by
  induction cs generalizing q with
  | nil => simp
  | cons c cs ih => rw [List.foldl_cons, ih, mem_addToQueue]; simp [or_left_comm, or_assoc]

theorem foldl_addToQueue_nodup {G : Graph D C M W} {cs q : List C} (h : cs.Nodup) (hq : q.Nodup)
    (hd : ∀ x ∈ cs, x ∉ q) : (cs.foldl (fun q c => addToQueue G c q) q).Nodup := by
  induction cs generalizing q with
  | nil => exact hq
  | cons c cs ih =>
    rw [List.nodup_cons] at h
    rw [List.foldl_cons]
    refine ih h.2 (addToQueue_nodup hq (hd c (by simp))) ?_
    intro x hx
    rw [mem_addToQueue, not_or]
    exact ⟨fun e => h.1 (e ▸ hx), hd x (by simp [hx])⟩

theorem triggerAll_qinv {all : List C} {G : Graph D C M W} {s : State D C M W} (hall : all.Nodup)
    (hc : ∀ d, ∀ c ∈ G.ctcs d, c ∈ all) : QInv all G (triggerAll G all s) := by
  unfold triggerAll
  refine ⟨foldl_addToQueue_nodup (hall.filter _) (by simp) (by simp), ?_, ?_, ?_, hc⟩
  · intro c hc
    rw [mem_foldl_addToQueue] at hc
    simp at hc; exact hc.1
  · intro c hc
    rw [mem_foldl_addToQueue] at hc
    simp only [List.mem_filter, decide_eq_true_eq, List.not_mem_nil, or_false] at hc
    simp [hc.1, hc.2]
  · intro c hc _ ha
    rw [mem_foldl_addToQueue]
    simp only [if_pos hc, decide_eq_true_eq] at ha
    simp [hc, ha]

theorem orderedMode_spec (G : Graph D C M W) (n : Nat) (s : State D C M W) :
    (orderedMode G n s).active = s.active ∧ (orderedMode G n s).queue = s.queue := by
  induction n generalizing s with
  | zero => exact ⟨rfl, rfl⟩
  | succ n ih => exact ih _

/-- the invariant of all the histories -/
structure NetInv (N : Net D C M W) : Prop where
  q : QInv N.all N.G N.s
  all : N.all.Nodup

theorem run_inv (unset : W) {N : Net D C M W} (h : NetInv N) (o : Op D C M) : NetInv (o.run unset N) := by
  cases o with
  | contract n =>
    exact ⟨steps_qinv n ⟨h.q.nodup, h.q.known, h.q.act, h.q.que, h.q.ctcs⟩, h.all⟩
  | ordered n =>
    obtain ⟨e1, e2⟩ := orderedMode_spec N.G n N.s
    refine ⟨⟨?_, ?_, ?_, ?_, h.q.ctcs⟩, h.all⟩
    · show (orderedMode N.G n N.s).queue.Nodup; rw [e2]; exact h.q.nodup
    · show ∀ c ∈ (orderedMode N.G n N.s).queue, _; rw [e2]; exact h.q.known
    · show ∀ c ∈ (orderedMode N.G n N.s).queue, (orderedMode N.G n N.s).active c = true; rw [e1, e2]; exact h.q.act
    · show ∀ c ∈ N.all, _ → (orderedMode N.G n N.s).active c = true → c ∈ (orderedMode N.G n N.s).queue
      rw [e1, e2]; exact h.q.que
  | triggerAll => exact ⟨triggerAll_qinv h.all h.q.ctcs, h.all⟩
  | reset interm f => exact ⟨triggerAll_qinv h.all h.q.ctcs, h.all⟩
  | add c ds k f =>
    simp only [Op.run]
    split_ifs with hc
    · refine ⟨⟨h.q.nodup, h.q.known, h.q.act, h.q.que, ?_⟩, h.all⟩
      intro d x hx
      simp only [addAgain, List.mem_append, List.mem_replicate] at hx
      rcases hx with hx | hx
      · exact h.q.ctcs d x hx
      · rw [hx.2]; exact hc
    · have hcq : c ∉ N.s.queue := fun h' => hc (h.q.known c h')
      refine ⟨⟨addToQueue_nodup h.q.nodup hcq, ?_, ?_, ?_, ?_⟩, List.nodup_cons.mpr ⟨hc, h.all⟩⟩
      · intro x hx
        rw [List.mem_cons]
        rcases mem_addToQueue.mp hx with hx | hx
        · exact Or.inl hx
        · exact Or.inr (h.q.known x hx)
      · intro x hx
        show Function.update N.s.active c true x = true
        by_cases e : x = c
        · subst e; simp
        · rw [Function.update_of_ne e]
          rcases mem_addToQueue.mp hx with hx | hx
          · exact absurd hx e
          · exact h.q.act x hx
      · intro x hx hk ha
        apply mem_addToQueue.mpr
        by_cases e : x = c
        · exact Or.inl e
        · right
          have ha' : Function.update N.s.active c true x = true := ha
          rw [Function.update_of_ne e] at ha'
          have hk' : Function.update N.G.kind c k x ≠ .subnet := hk
          rw [Function.update_of_ne e] at hk'
          rcases List.mem_cons.mp hx with hx | hx
          · exact absurd hx e
          · exact h.q.que x hx hk' ha'
      · intro d x hx
        have hx' : x ∈ N.G.ctcs d ++ List.replicate (ds.count d) c := hx
        rw [List.mem_append, List.mem_replicate] at hx'
        rw [List.mem_cons]
        rcases hx' with hx' | hx'
        · exact Or.inr (h.q.ctcs d x hx')
        · exact Or.inl hx'.2

theorem runOps_inv (unset : W) (os : List (Op D C M)) {N : Net D C M W} (h : NetInv N) :
    NetInv (runOps unset os N) := by
  induction os generalizing N with
  | nil => exact h
  | cons o os ih => exact ih (run_inv unset h o)

end Codac.CN
