import Verif.C2.Tube

/-!
# One component of a vector tube of codac2

Source: `src/core/2/domains/tube/codac2_TubeComponent.h`, `Slice::set_component` of `codac2_Slice.h`. The components of all the vector tubes of a temporal domain are the indices `k`, `j` of the tubes of `C2/Tube.lean`.
-/

set_option linter.unusedSectionVars false

namespace Codac.C2

variable {τ ι K : Type*} [LinearOrder τ] [LinearOrder K] [DecidableEq ι]

/-- a loop `for(auto& s : _tubevector) s.set_component(_i, ..)`, with `Slice::set_component`, codac2_Slice.h:317-328: a gate is intersected with the slice before, already set (its value is `p`), and
with the slice after, not set yet. `g s` is the value given, computed from the slice `s` (before it is set). -/
def compLoop (k : ι) (g : TS τ ι K → Itv K) : Option (Itv K) → List (TS τ ι K) → List (TS τ ι K)
  | _, [] => []
  | p, s :: l =>
    let v := if s.IsGate then infOpt (infOpt (g s) p) (l.head?.map fun r => r.val k) else g s
    s.put k v :: compLoop k g (some v) l

/-- `x[i].set(codomain)`, codac2_TubeComponent.h:63-67 -/
def compSet (k : ι) (x : Itv K) (l : List (TS τ ι K)) : List (TS τ ι K) := compLoop k (fun _ => x) none l

/-- `x[i] = y[j]`, codac2_TubeComponent.h:69-75, for tubes on the same temporal domain (assert) -/
def compAssign (k j : ι) (l : List (TS τ ι K)) : List (TS τ ι K) := compLoop k (fun s => s.val j) none l

/-- `x[i] = cos(y[j])`, codac2_TubeComponent.h:77-83: any interval function `F` -/
def compRel (k : ι) (F : Itv K → Itv K) (j : ι) (l : List (TS τ ι K)) : List (TS τ ι K) := compLoop k (fun s => F (s.val j)) none l

/-- `x[i].codomain()`, codac2_TubeComponent.h:49-55 -/
def compCodomain (k : ι) (l : List (TS τ ι K)) : Itv K := l.foldl (fun c s => c ⊔ s.val k) ⊥

/-- at each gate that has a slice after it, `f` is in the value of this slice -/
def NextOk (k : ι) (f : τ → K) : List (TS τ ι K) → Prop
  | s :: s' :: l => (s.IsGate → f s.lb ∈ s'.val k) ∧ NextOk k f (s' :: l)
  | _ => True

theorem nextOk_iff {k : ι} {f : τ → K} : ∀ {l : List (TS τ ι K)},
    NextOk k f l ↔ ∀ (i : Nat) (s s' : TS τ ι K), l[i]? = some s → l[i + 1]? = some s' → s.IsGate → f s.lb ∈ s'.val k
  | [] => by simp [NextOk]
  | [s] => by simp [NextOk]
  | s :: s' :: l => by
    rw [NextOk, nextOk_iff (l := s' :: l)]
    constructor
    · rintro ⟨h1, h2⟩ i r r' hr hr'
      cases i with
      | zero =>
        simp only [List.getElem?_cons_zero, List.getElem?_cons_succ, Option.some.injEq, zero_add] at hr hr'
        subst hr hr'
        exact h1
      | succ i => exact h2 i r r' (by simpa using hr) (by simpa using hr')
    · exact fun h => ⟨h 0 s s' rfl rfl, fun i r r' hr hr' => h (i + 1) r r' (by simpa using hr) (by simpa using hr')⟩

theorem mem_infOpt {x : Itv K} {p : Option (Itv K)} {v : K} : v ∈ infOpt x p ↔ v ∈ x ∧ ∀ y ∈ p, v ∈ y := by
  cases p with
  | none => simp [infOpt]
  | some y => simp [infOpt, Itv.mem_inf]

theorem infOpt_le' (x : Itv K) (p : Option (Itv K)) : infOpt x p ≤ x := by
  cases p with
  | none => exact le_refl _
  | some y => exact inf_le_left

theorem compLoop_same {k : ι} {g : TS τ ι K → Itv K} : ∀ {l : List (TS τ ι K)} {p : Option (Itv K)}, SameOthers k l (compLoop k g p l)
  | [], _ => ⟨rfl, fun _ _ => rfl⟩
  | s :: l, p => by
    have ih := fun q => compLoop_same (k := k) (g := g) (l := l) (p := q)
    refine ⟨?_, fun k' hk => ?_⟩
    · simp only [compLoop, List.map_cons, (ih _).1, TS.put_lb, TS.put_ub]
    · simp only [compLoop, List.map_cons, (ih _).2 k' hk, TS.put_other hk]

theorem compLoop_length {k : ι} {g : TS τ ι K → Itv K} : ∀ {l : List (TS τ ι K)} {p : Option (Itv K)}, (compLoop k g p l).length = l.length
  | [], _ => rfl
  | _ :: l, _ => by simp [compLoop, compLoop_length (l := l)]

/-- the value of each slice that is not a gate is the one given -/
theorem compLoop_slice {k : ι} {g : TS τ ι K → Itv K} : ∀ {l : List (TS τ ι K)} {p : Option (Itv K)} {i : Nat} {s : TS τ ι K}, l[i]? = some s → ¬ s.IsGate →
    (compLoop k g p l)[i]? = some (s.put k (g s))
  | [], _, _, _, h, _ => by simp at h
  | r :: l, p, 0, s, h, hs => by
    simp only [List.getElem?_cons_zero, Option.some.injEq] at h
    subst h
    simp [compLoop, hs]
  | r :: l, p, i + 1, s, h, hs => by
    simp only [compLoop, List.getElem?_cons_succ] at h ⊢
    exact compLoop_slice h hs

theorem compLoop_le {k : ι} {g : TS τ ι K → Itv K} : ∀ {l : List (TS τ ι K)} {p : Option (Itv K)} {i : Nat} {s : TS τ ι K}, l[i]? = some s →
    ∃ v, (compLoop k g p l)[i]? = some (s.put k v) ∧ v ≤ g s
  | [], _, _, _, h => by simp at h
  | r :: l, p, 0, s, h => by
    simp only [List.getElem?_cons_zero, Option.some.injEq] at h
    subst h
    refine ⟨_, rfl, ?_⟩
    split_ifs
    · exact le_trans (infOpt_le' _ _) (infOpt_le' _ _)
    · exact le_refl _
  | r :: l, p, i + 1, s, h => by
    simp only [compLoop, List.getElem?_cons_succ] at h ⊢
    exact compLoop_le h

/-- the functions of the component after the loop -/
theorem compLoop_encl {k : ι} {g : TS τ ι K → Itv K} {f : τ → K} : ∀ {l : List (TS τ ι K)} {p : Option (Itv K)} {a b : τ}, Chain a l b →
    (∀ y ∈ p, f a ∈ y) →
    (Encl (compLoop k g p l) k f ↔ (∀ s ∈ l, ∀ t, s.lb ≤ t → t ≤ s.ub → f t ∈ g s) ∧ NextOk k f l)
  | [], _, _, _, _, _ => by simp [compLoop, Encl, NextOk]
  | s :: l, p, a, b, hc, hp => by
    obtain ⟨h1, h2, h3⟩ := hc
    simp only [compLoop]
    rw [encl_cons]
    have hn : NextOk k f (s :: l) ↔ (s.IsGate → ∀ y ∈ l.head?.map fun r => r.val k, f s.lb ∈ y) ∧ NextOk k f l := by
      cases l with
      | nil => simp [NextOk]
      | cons r l => simp [NextOk]
    have hv : ∀ t, s.lb ≤ t → t ≤ s.ub →
        (f t ∈ (s.put k (if s.IsGate then infOpt (infOpt (g s) p) (l.head?.map fun r => r.val k) else g s)).val k ↔
          f t ∈ g s ∧ (s.IsGate → ∀ y ∈ l.head?.map fun r => r.val k, f s.lb ∈ y)) := by
      intro t t1 t2
      rw [TS.put_val]
      by_cases hg : s.IsGate
      · have e : t = s.lb := le_antisymm (by have hg : s.lb = s.ub := hg; rw [hg]; exact t2) t1
        subst e
        rw [if_pos hg, mem_infOpt, mem_infOpt]
        rw [← h1] at hp
        constructor
        · exact fun h => ⟨h.1.1, fun _ => h.2⟩
        · exact fun h => ⟨⟨h.1, hp⟩, h.2 hg⟩
      · rw [if_neg hg]
        exact ⟨fun h => ⟨h, fun hg' => absurd hg' hg⟩, fun h => h.1⟩
    constructor
    · rintro ⟨e1, e2⟩
      have e1' : f s.ub ∈ (if s.IsGate then infOpt (infOpt (g s) p) (l.head?.map fun r => r.val k) else g s) := by
        have := e1 s.ub h2 (le_refl _)
        rwa [TS.put_val] at this
      rw [compLoop_encl (l := l) h3 (by intro y hy; cases hy; exact e1')] at e2
      refine ⟨?_, hn.2 ⟨((hv s.lb (le_refl _) h2).1 (e1 s.lb (le_refl _) h2)).2, e2.2⟩⟩
      intro r hr t t1 t2
      rcases List.mem_cons.1 hr with rfl | hr
      · exact ((hv t t1 t2).1 (e1 t t1 t2)).1
      · exact e2.1 r hr t t1 t2
    · rintro ⟨e1, e2⟩
      obtain ⟨e2, e3⟩ := hn.1 e2
      have e4 : ∀ t, s.lb ≤ t → t ≤ s.ub → f t ∈ (s.put k (if s.IsGate then infOpt (infOpt (g s) p) (l.head?.map fun r => r.val k) else g s)).val k :=
        fun t t1 t2 => (hv t t1 t2).2 ⟨e1 s (by simp) t t1 t2, e2⟩
      refine ⟨e4, ?_⟩
      have e1' : f s.ub ∈ (if s.IsGate then infOpt (infOpt (g s) p) (l.head?.map fun r => r.val k) else g s) := by
        have := e4 s.ub h2 (le_refl _)
        rwa [TS.put_val] at this
      rw [compLoop_encl (l := l) h3 (by intro y hy; cases hy; exact e1')]
      exact ⟨fun r hr t t1 t2 => e1 r (by simp [hr]) t t1 t2, e3⟩

theorem compCodomain_aux {k : ι} : ∀ (l : List (TS τ ι K)) (c d : Itv K), l.foldl (fun c s => c ⊔ s.val k) c ≤ d ↔ c ≤ d ∧ ∀ s ∈ l, s.val k ≤ d
  | [], c, d => by simp
  | s :: l, c, d => by
    rw [List.foldl_cons, compCodomain_aux l]
    simp only [sup_le_iff, List.mem_cons, forall_eq_or_imp]
    tauto

theorem comp_adjacent : ∀ {l : List (TS τ ι K)} {a b : τ}, Chain a l b → ∀ {i : Nat} {s s' : TS τ ι K}, l[i]? = some s → l[i + 1]? = some s' → s.ub = s'.lb ∧ s'.lb ≤ s'.ub
  | [], _, _, _, _, _, _, h, _ => by simp at h
  | [_], _, _, _, _, _, _, _, h => by simp at h
  | r :: r' :: l, _, _, hc, 0, s, s', h, h' => by
    simp only [List.getElem?_cons_zero, List.getElem?_cons_succ, Option.some.injEq, zero_add] at h h'
    subst h h'
    exact ⟨hc.2.2.1.symm, hc.2.2.2.1⟩
  | r :: r' :: l, _, _, hc, i + 1, s, s', h, h' => by
    rw [List.getElem?_cons_succ] at h h'
    exact comp_adjacent hc.2.2 h h'

theorem comp_covers {t : τ} : ∀ {l : List (TS τ ι K)} {a b : τ}, Chain a l b → l ≠ [] → a ≤ t → t ≤ b → ∃ s ∈ l, s.lb ≤ t ∧ t ≤ s.ub
  | [], _, _, _, h, _, _ => absurd rfl h
  | [s], a, b, hc, _, h1, h2 => ⟨s, by simp, by rw [hc.1]; exact h1, by have := hc.2.2; rw [show s.ub = b from this]; exact h2⟩
  | s :: r :: l, a, b, hc, _, h1, h2 => by
    by_cases h : t ≤ s.ub
    · exact ⟨s, by simp, by rw [hc.1]; exact h1, h⟩
    · obtain ⟨q, hq, hq'⟩ := comp_covers hc.2.2 (by simp) (le_of_lt (not_le.1 h)) h2
      exact ⟨q, by simp at hq ⊢; exact .inr hq, hq'⟩

end Codac.C2
