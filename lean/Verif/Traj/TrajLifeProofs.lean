import Verif.Traj.TrajLife
import Mathlib.Order.Basic

/-! # The function owned by a trajectory: the programs which are defined -/

set_option linter.unusedSectionVars false

namespace Codac.TrajLife

variable {V F P D : Type*} [DecidableEq V]

/-- what happened to the last function of a trajectory now defined by points: there was none, it was deleted by `sample`, it is still there -/
inductive Stale
  | clean
  | freed
  | kept
  deriving DecidableEq

/-- the meaning of one operation on the values of the trajectories, `none` for the operations which are excluded: on a trajectory which does not exist, a construction of
one which exists, the assignment of a function to itself or to a trajectory whose function was deleted by `sample`, and, with `strict`, the destruction of a trajectory
by function which was assigned points -/
def meaning (sampF : D → F → P) (sampP : D → P → P) (strict : Bool) (e : V → Option (Val F P × Stale)) : Op V F P D → Option (V → Option (Val F P × Stale))
  | .newFn v f => match e v with
    | none => some (Function.update e v (some (.fn f, .clean)))
    | some _ => none
  | .newMap v l => match e v with
    | none => some (Function.update e v (some (.pts l, .clean)))
    | some _ => none
  | .copy v w => match e v, e w with
    | none, some (x, _) => some (Function.update e v (some (x, .clean)))
    | _, _ => none
  | .assign v w => match e v, e w with
    | some (_, s), some (.fn f, _) => if v = w ∨ s = .freed then none else some (Function.update e v (some (.fn f, .clean)))
    | some (.fn _, _), some (.pts l, _) => some (Function.update e v (some (.pts l, .kept)))
    | some (.pts _, s), some (.pts l, _) => some (Function.update e v (some (.pts l, s)))
    | _, _ => none
  | .sample v d => match e v with
    | some (.fn f, _) => some (Function.update e v (some (.pts (sampF d f), .freed)))
    | some (.pts l, s) => some (Function.update e v (some (.pts (sampP d l), s)))
    | none => none
  | .destroy v => match e v with
    | some (_, s) => if strict ∧ s = .kept then none else some (Function.update e v none)
    | none => none

/-- the meaning of a program -/
def meanings (sampF : D → F → P) (sampP : D → P → P) (strict : Bool) : List (Op V F P D) → (V → Option (Val F P × Stale)) → Option (V → Option (Val F P × Stale))
  | [], e => some e
  | o :: os, e => (meaning sampF sampP strict e o).bind (meanings sampF sampP strict os)

/-- an object in memory and its meaning -/
inductive Good (h : Nat → Option F) : Option (Obj P) → Option (Val F P × Stale) → Prop
  | none : Good h none none
  | fn (p : Nat) (f : F) (l : P) (hp : h p = some f) : Good h (some ⟨.analytic, some p, l⟩) (some (.fn f, .clean))
  | clean (l : P) : Good h (some ⟨.mapOfValues, none, l⟩) (some (.pts l, .clean))
  | freed (p : Nat) (l : P) (hp : h p = none) : Good h (some ⟨.mapOfValues, some p, l⟩) (some (.pts l, .freed))
  | kept (p : Nat) (f : F) (l : P) (hp : h p = some f) : Good h (some ⟨.mapOfValues, some p, l⟩) (some (.pts l, .kept))

/-- the memory represents the values -/
structure Rel (strict : Bool) (m : Mem V F P) (e : V → Option (Val F P × Stale)) : Prop where
  good : ∀ v, Good m.heap (m.vars v) (e v)
  lt : ∀ v o p, m.vars v = some o → o.fn = some p → p < m.next
  inj : ∀ v w o o' p, m.vars v = some o → m.vars w = some o' → o.fn = some p → o'.fn = some p → v = w
  own : strict = true → ∀ p, m.heap p ≠ none → ∃ v o, m.vars v = some o ∧ o.fn = some p

theorem Good.congr {h h' : Nat → Option F} {o : Option (Obj P)} {x : Option (Val F P × Stale)} (hg : Good h o x)
    (hh : ∀ q p, o = some q → q.fn = some p → h' p = h p) : Good h' o x := by
  cases hg with
  | none => exact .none
  | fn p f l hp => exact .fn p f l (by rw [hh _ p rfl rfl, hp])
  | clean l => exact .clean l
  | freed p l hp => exact .freed p l (by rw [hh _ p rfl rfl, hp])
  | kept p f l hp => exact .kept p f l (by rw [hh _ p rfl rfl, hp])

theorem Rel.update {strict : Bool} {m : Mem V F P} {e : V → Option (Val F P × Stale)} (hr : Rel strict m e) {a : V} {o : Option (Obj P)}
    {x : Option (Val F P × Stale)} {h : Nat → Option F} {nx : Nat} (hg : Good h o x) (hnx : m.next ≤ nx)
    (hh : ∀ v q p, v ≠ a → m.vars v = some q → q.fn = some p → h p = m.heap p)
    (hlt : ∀ q p, o = some q → q.fn = some p → p < nx ∧ ∀ v q', v ≠ a → m.vars v = some q' → q'.fn ≠ some p)
    (hown : strict = true → ∀ p, h p ≠ none → (∃ q, o = some q ∧ q.fn = some p) ∨ (m.heap p ≠ none ∧ ∀ q, m.vars a = some q → q.fn ≠ some p)) :
    Rel strict ⟨Function.update m.vars a o, h, nx⟩ (Function.update e a x) := by
  refine ⟨fun v => ?_, fun v q p hv hq => ?_, fun v w q q' p hv hw hq hq' => ?_, fun hs p hp => ?_⟩
  · by_cases hv : v = a
    · subst hv; simpa using hg
    · simp only [Function.update_of_ne hv]
      exact (hr.good v).congr fun q p h1 h2 => hh v q p hv h1 h2
  · by_cases hva : v = a
    · subst hva
      exact (hlt q p (by simpa using hv) hq).1
    · exact Nat.lt_of_lt_of_le (hr.lt v q p (by simpa [Function.update_of_ne hva] using hv) hq) hnx
  · by_cases hva : v = a <;> by_cases hwa : w = a
    · rw [hva, hwa]
    · subst hva
      exact absurd hq' ((hlt q p (by simpa using hv) hq).2 w q' hwa (by simpa [Function.update_of_ne hwa] using hw))
    · subst hwa
      exact absurd hq ((hlt q' p (by simpa using hw) hq').2 v q hva (by simpa [Function.update_of_ne hva] using hv))
    · exact hr.inj v w q q' p (by simpa [Function.update_of_ne hva] using hv) (by simpa [Function.update_of_ne hwa] using hw) hq hq'
  · rcases hown hs p hp with ⟨q, h1, h2⟩ | ⟨h1, h2⟩
    · exact ⟨a, q, by simpa using h1, h2⟩
    · obtain ⟨v, q, h3, h4⟩ := hr.own hs p h1
      have hva : v ≠ a := fun e => h2 q (e ▸ h3) h4
      exact ⟨v, q, by simpa [Function.update_of_ne hva] using h3, h4⟩

/-- a fresh function for `a`, which had none -/
theorem Rel.alloc {strict : Bool} {m : Mem V F P} {e : V → Option (Val F P × Stale)} (hr : Rel strict m e) {a : V} (f : F) (l : P)
    (ha : ∀ q, m.vars a = some q → q.fn = none) :
    Rel strict ⟨Function.update m.vars a (some ⟨.analytic, some m.next, l⟩), Function.update m.heap m.next (some f), m.next + 1⟩
      (Function.update e a (some (.fn f, .clean))) := by
  refine hr.update (.fn _ _ _ (Function.update_self _ _ _)) (Nat.le_succ _) ?_ ?_ ?_
  · intro v q p _ hv hq
    rw [Function.update_of_ne (Nat.ne_of_lt (hr.lt v q p hv hq))]
  · intro q p hq hp
    cases hq; cases hp
    exact ⟨Nat.lt_succ_self _, fun v q' _ hv hq' => absurd (hr.lt v q' _ hv hq') (Nat.lt_irrefl _)⟩
  · intro _ p hp
    by_cases h : p = m.next
    · exact .inl ⟨_, rfl, by rw [h]⟩
    · rw [Function.update_of_ne h] at hp
      exact .inr ⟨hp, fun q hq => by rw [ha q hq]; exact fun h => by cases h⟩

/-- the function of `a` is deleted and another one allocated -/
theorem Rel.realloc {strict : Bool} {m : Mem V F P} {e : V → Option (Val F P × Stale)} (hr : Rel strict m e) {a : V} (f : F) (l : P) {q : Obj P} {p : Nat}
    (ha : m.vars a = some q) (hq : q.fn = some p) :
    Rel strict ⟨Function.update m.vars a (some ⟨.analytic, some m.next, l⟩), Function.update (Function.update m.heap p none) m.next (some f), m.next + 1⟩
      (Function.update e a (some (.fn f, .clean))) := by
  refine hr.update (.fn _ _ _ (Function.update_self _ _ _)) (Nat.le_succ _) ?_ ?_ ?_
  · intro v q' p' hva hv hq'
    rw [Function.update_of_ne (Nat.ne_of_lt (hr.lt v q' p' hv hq')), Function.update_of_ne]
    rintro rfl
    exact hva (hr.inj v a q' q p' hv ha hq' hq)
  · intro q' p' hq' hp
    cases hq'; cases hp
    exact ⟨Nat.lt_succ_self _, fun v q' _ hv hq' => absurd (hr.lt v q' _ hv hq') (Nat.lt_irrefl _)⟩
  · intro _ p' hp
    by_cases h : p' = m.next
    · exact .inl ⟨_, rfl, by rw [h]⟩
    · rw [Function.update_of_ne h] at hp
      by_cases h2 : p' = p
      · rw [h2, Function.update_self] at hp; exact absurd rfl hp
      · rw [Function.update_of_ne h2] at hp
        refine .inr ⟨hp, fun q' hq' h3 => h2 ?_⟩
        rw [ha] at hq'; cases hq'
        rw [hq] at h3; exact (Option.some.inj h3).symm

/-- the points of `a` are changed, not the pointer -/
theorem Rel.points {strict : Bool} {m : Mem V F P} {e : V → Option (Val F P × Stale)} (hr : Rel strict m e) {a : V} {q : Obj P} (ha : m.vars a = some q)
    {o : Obj P} {x : Option (Val F P × Stale)} (hg : Good m.heap (some o) x) (ho : o.fn = q.fn) :
    Rel strict ⟨Function.update m.vars a (some o), m.heap, m.next⟩ (Function.update e a x) := by
  refine hr.update hg (Nat.le_refl _) (fun _ _ _ _ _ _ => rfl) ?_ ?_
  · intro q' p hq' hp
    cases hq'
    rw [ho] at hp
    exact ⟨hr.lt a q p ha hp, fun v q' hva hv hq' => hva (hr.inj v a q' q p hv ha hq' hp)⟩
  · intro _ p hp
    by_cases h : q.fn = some p
    · exact .inl ⟨o, rfl, by rw [ho, h]⟩
    · exact .inr ⟨hp, fun q' hq' => by rw [ha] at hq'; cases hq'; exact h⟩

/-- the function of `a` is deleted -/
theorem Rel.free {strict : Bool} {m : Mem V F P} {e : V → Option (Val F P × Stale)} (hr : Rel strict m e) {a : V} {q : Obj P} {p : Nat} (ha : m.vars a = some q)
    (hq : q.fn = some p) {o : Option (Obj P)} (ho : ∀ q', o = some q' → q'.fn = some p) {x : Option (Val F P × Stale)} (hg : Good (Function.update m.heap p none) o x) :
    Rel strict ⟨Function.update m.vars a o, Function.update m.heap p none, m.next⟩ (Function.update e a x) := by
  refine hr.update hg (Nat.le_refl _) ?_ ?_ ?_
  · intro v q' p' hva hv hq'
    rw [Function.update_of_ne]
    rintro rfl
    exact hva (hr.inj v a q' q p' hv ha hq' hq)
  · intro q' p' hq' hp
    rw [ho q' hq'] at hp; cases hp
    exact ⟨hr.lt a q p ha hq, fun v q' hva hv hq' => hva (hr.inj v a q' q p hv ha hq' hq)⟩
  · intro _ p' hp
    by_cases h : p' = p
    · rw [h, Function.update_self] at hp; exact absurd rfl hp
    · rw [Function.update_of_ne h] at hp
      refine .inr ⟨hp, fun q' hq' h3 => h ?_⟩
      rw [ha] at hq'; cases hq'
      rw [hq] at h3; exact (Option.some.inj h3).symm

theorem step_rel (nil : P) (sampF : D → F → P) (sampP : D → P → P) {strict : Bool} {m : Mem V F P} {e e' : V → Option (Val F P × Stale)} (hr : Rel strict m e)
    (o : Op V F P D) (he : meaning sampF sampP strict e o = some e') : ∃ m', step nil sampF sampP m o = some m' ∧ Rel strict m' e' := by
  cases o with
  | newFn v f =>
    have hg := hr.good v
    unfold meaning at he
    unfold step
    generalize hv : m.vars v = a at hg
    generalize hw : e v = b at hg
    cases hg <;> simp only [hw, Option.some.injEq, reduceCtorEq] at he
    subst he
    exact ⟨_, by simp only [hv], hr.alloc f nil (by rw [hv]; exact fun _ h => by cases h)⟩
  | newMap v l =>
    have hg := hr.good v
    unfold meaning at he
    unfold step
    generalize hv : m.vars v = a at hg
    generalize hw : e v = b at hg
    cases hg <;> simp only [hw, Option.some.injEq, reduceCtorEq] at he
    subst he
    refine ⟨_, by simp only [hv], hr.update (.clean l) (Nat.le_refl _) (fun _ _ _ _ _ _ => rfl) (fun q p hq hp => by cases hq; cases hp) fun _ p hp => .inr ⟨hp, fun q hq => ?_⟩⟩
    rw [hv] at hq; cases hq
  | copy v w =>
    have hg := hr.good v
    have hk := hr.good w
    unfold meaning at he
    unfold step
    generalize hv : m.vars v = a at hg
    generalize hv' : e v = b at hg
    generalize hw : m.vars w = c at hk
    generalize hw' : e w = d at hk
    have hno : m.vars v = none → ∀ q, m.vars v = some q → q.fn = none := fun h q hq => by rw [h] at hq; cases hq
    have hn2 : m.vars v = none → ∀ p, ∀ q, m.vars v = some q → q.fn ≠ some p := fun h p q hq => by rw [h] at hq; cases hq
    cases hg <;> cases hk <;> simp only [hv', hw', Option.some.injEq, reduceCtorEq] at he
    · subst he
      rename_i p f l hp
      refine ⟨_, ?_, hr.alloc f nil (hno hv)⟩
      simp only [hv, hw, assignTo, del, Option.bind_some, deref, hp, Option.map_some]
    all_goals
      subst he
      exact ⟨_, by simp only [hv, hw]; rfl, hr.update (.clean _) (Nat.le_refl _) (fun _ _ _ _ _ _ => rfl) (fun q p hq hp => by cases hq; cases hp) fun _ p hp => .inr ⟨hp, hn2 hv p⟩⟩
  | assign v w =>
    have hg := hr.good v
    have hk := hr.good w
    unfold meaning at he
    unfold step
    generalize hv : m.vars v = a at hg
    generalize hv' : e v = b at hg
    generalize hw : m.vars w = c at hk
    generalize hw' : e w = d at hk
    cases hk with
    | none => cases hg <;> simp only [hv', hw', reduceCtorEq] at he
    | fn p f l hp =>
      cases hg with
      | none => simp only [hv', hw', reduceCtorEq] at he
      | clean l' =>
        simp only [hv', hw'] at he
        split at he
        · cases he
        · cases he
          refine ⟨_, ?_, hr.alloc f l' (by rw [hv]; rintro _ ⟨⟩; rfl)⟩
          simp only [hv, hw, assignTo, del, Option.bind_some, deref, hp, Option.map_some]
      | freed p' l' hp' =>
        simp only [hv', hw', or_true, if_true, reduceCtorEq] at he
      | fn p' f' l' hp' =>
        simp only [hv', hw'] at he
        split at he
        · cases he
        · rename_i hn
          cases he
          have hpp : p ≠ p' := by
            rintro rfl
            exact hn (.inl (hr.inj v w _ _ p hv hw rfl rfl))
          refine ⟨_, ?_, hr.realloc f l' hv rfl⟩
          simp only [hv, hw, assignTo, del, hp', Option.isNone_some, Bool.false_eq_true, if_false, Option.bind_some, deref, Function.update_of_ne hpp, hp, Option.map_some]
      | kept p' f' l' hp' =>
        simp only [hv', hw'] at he
        split at he
        · cases he
        · rename_i hn
          cases he
          have hpp : p ≠ p' := by
            rintro rfl
            exact hn (.inl (hr.inj v w _ _ p hv hw rfl rfl))
          refine ⟨_, ?_, hr.realloc f l' hv rfl⟩
          simp only [hv, hw, assignTo, del, hp', Option.isNone_some, Bool.false_eq_true, if_false, Option.bind_some, deref, Function.update_of_ne hpp, hp, Option.map_some]
    | clean l =>
      cases hg <;> simp only [hv', hw', Option.some.injEq, reduceCtorEq] at he <;> subst he
      · exact ⟨_, by simp only [hv, hw]; rfl, hr.points hv (.kept _ _ _ ‹_›) rfl⟩
      · exact ⟨_, by simp only [hv, hw]; rfl, hr.points hv (.clean _) rfl⟩
      · exact ⟨_, by simp only [hv, hw]; rfl, hr.points hv (.freed _ _ ‹_›) rfl⟩
      · exact ⟨_, by simp only [hv, hw]; rfl, hr.points hv (.kept _ _ _ ‹_›) rfl⟩
    | freed p l hp =>
      cases hg <;> simp only [hv', hw', Option.some.injEq, reduceCtorEq] at he <;> subst he
      · exact ⟨_, by simp only [hv, hw]; rfl, hr.points hv (.kept _ _ _ ‹_›) rfl⟩
      · exact ⟨_, by simp only [hv, hw]; rfl, hr.points hv (.clean _) rfl⟩
      · exact ⟨_, by simp only [hv, hw]; rfl, hr.points hv (.freed _ _ ‹_›) rfl⟩
      · exact ⟨_, by simp only [hv, hw]; rfl, hr.points hv (.kept _ _ _ ‹_›) rfl⟩
    | kept p f l hp =>
      cases hg <;> simp only [hv', hw', Option.some.injEq, reduceCtorEq] at he <;> subst he
      · exact ⟨_, by simp only [hv, hw]; rfl, hr.points hv (.kept _ _ _ ‹_›) rfl⟩
      · exact ⟨_, by simp only [hv, hw]; rfl, hr.points hv (.clean _) rfl⟩
      · exact ⟨_, by simp only [hv, hw]; rfl, hr.points hv (.freed _ _ ‹_›) rfl⟩
      · exact ⟨_, by simp only [hv, hw]; rfl, hr.points hv (.kept _ _ _ ‹_›) rfl⟩
  | sample v d =>
    have hg := hr.good v
    unfold meaning at he
    unfold step
    generalize hv : m.vars v = a at hg
    generalize hv' : e v = b at hg
    cases hg <;> simp only [hv', Option.some.injEq, reduceCtorEq] at he <;> subst he
    · rename_i p f l hp
      refine ⟨_, ?_, hr.free hv rfl (o := some ⟨.mapOfValues, some p, sampF d f⟩) (by rintro _ ⟨⟩; rfl) (.freed p _ (Function.update_self _ _ _))⟩
      simp only [hv, sample, deref, hp, Option.bind_some, del, Option.isNone_some, Bool.false_eq_true, if_false, Option.map_some]
    · exact ⟨_, by simp only [hv]; rfl, hr.points hv (.clean _) rfl⟩
    · exact ⟨_, by simp only [hv]; rfl, hr.points hv (.freed _ _ ‹_›) rfl⟩
    · exact ⟨_, by simp only [hv]; rfl, hr.points hv (.kept _ _ _ ‹_›) rfl⟩
  | destroy v =>
    have hg := hr.good v
    unfold meaning at he
    unfold step
    generalize hv : m.vars v = a at hg
    generalize hv' : e v = b at hg
    cases hg with
    | none => simp only [hv', reduceCtorEq] at he
    | fn p f l hp =>
      simp only [hv', reduceCtorEq, and_false, if_false, Option.some.injEq] at he
      subst he
      refine ⟨_, ?_, hr.free hv rfl (o := none) (fun _ h => by cases h) .none⟩
      simp only [hv, destroy, del, hp, Option.isNone_some, Bool.false_eq_true, if_false, Option.map_some]
    | clean l =>
      simp only [hv', reduceCtorEq, and_false, if_false, Option.some.injEq] at he
      subst he
      exact ⟨_, by simp only [hv]; rfl, hr.update .none (Nat.le_refl _) (fun _ _ _ _ _ _ => rfl) (fun _ _ h => by cases h) fun _ p hp => .inr ⟨hp, fun q hq => by rw [hv] at hq; cases hq; exact fun h => by cases h⟩⟩
    | freed p l hp =>
      simp only [hv', reduceCtorEq, and_false, if_false, Option.some.injEq] at he
      subst he
      refine ⟨_, by simp only [hv]; rfl, hr.update .none (Nat.le_refl _) (fun _ _ _ _ _ _ => rfl) (fun _ _ h => by cases h) fun _ p' hp' => .inr ⟨hp', fun q hq h => ?_⟩⟩
      rw [hv] at hq; cases hq
      cases h
      exact hp' hp
    | kept p f l hp =>
      simp only [hv', and_true] at he
      split at he
      · cases he
      · rename_i hn
        cases he
        exact ⟨_, by simp only [hv]; rfl, hr.update .none (Nat.le_refl _) (fun _ _ _ _ _ _ => rfl) (fun _ _ h => by cases h) fun hs => absurd hs hn⟩

theorem run_rel (nil : P) (sampF : D → F → P) (sampP : D → P → P) {strict : Bool} : ∀ (os : List (Op V F P D)) {m : Mem V F P} {e e' : V → Option (Val F P × Stale)},
    Rel strict m e → meanings sampF sampP strict os e = some e' → ∃ m', run nil sampF sampP os m = some m' ∧ Rel strict m' e'
  | [], m, e, e', hr, he => by
    cases he
    exact ⟨m, rfl, hr⟩
  | o :: os, m, e, e', hr, he => by
    rw [meanings] at he
    obtain ⟨e1, h1, h2⟩ := Option.bind_eq_some_iff.mp he
    obtain ⟨m1, k1, k2⟩ := step_rel nil sampF sampP hr o h1
    obtain ⟨m2, l1, l2⟩ := run_rel nil sampF sampP os k2 h2
    exact ⟨m2, by rw [run, k1, Option.bind_some, l1], l2⟩

theorem start_rel (strict : Bool) : Rel strict (start : Mem V F P) fun _ => none :=
  ⟨fun _ => .none, fun _ _ _ h => (by cases h), fun _ _ _ _ _ h => (by cases h), fun _ _ h => absurd rfl h⟩

theorem Rel.value {strict : Bool} {m : Mem V F P} {e : V → Option (Val F P × Stale)} (hr : Rel strict m e) (v : V) : m.value v = (e v).map Prod.fst := by
  have hg := hr.good v
  unfold Mem.value
  generalize m.vars v = a at hg
  generalize e v = b at hg
  cases hg <;> try rfl
  rename_i p f l hp
  simp only [deref, hp, Option.map_some]

end Codac.TrajLife
