import Verif.Interval
import Mathlib.Data.List.Basic
import Mathlib.Data.List.Pairwise
import Mathlib.Algebra.Order.Archimedean.Basic
import Mathlib.Tactic.Linarith
import Mathlib.Tactic.Tauto

/-!
# Temporal domains shared by tubes (codac2)

Models `/repo/src/core/2/domains/tube/codac2_TDomain.cpp`, `codac2_TSlice.cpp` and the part of `codac2_Tube.h`, `codac2_Slice.h` that
reads and writes the slices of a tube.

A temporal domain is the list of its slices; each slice has a temporal interval `[lb,ub]` (in any linear order: the default domain is
`[-oo,oo]`) and one codomain for each of the tubes defined on the domain (the map `_slices` of codac2_TSlice.h, whose keys are the tubes). An
iterator is the position of a slice in the list. A tube of boxes is one tube for each component.
-/

set_option linter.unusedSectionVars false

namespace Codac.C2

variable {τ ι K : Type*} [LinearOrder τ] [LinearOrder K]

/-- `TSlice`, codac2_TSlice.h: temporal interval and codomains of the tubes -/
structure TS (τ ι K : Type*) [LinearOrder K] where
  lb : τ
  ub : τ
  val : ι → Itv K

/-- `TSlice::is_gate`, codac2_TSlice.cpp:40-43 -/
def TS.IsGate (s : TS τ ι K) : Prop := s.lb = s.ub

instance (s : TS τ ι K) : Decidable s.IsGate := by unfold TS.IsGate; infer_instance

/-- the test of `iterator_tslice`, codac2_TDomain.cpp:103-104 -/
def TS.hit (t : τ) (s : TS τ ι K) : Prop := (s.IsGate ∧ s.lb = t) ∨ (s.lb ≤ t ∧ t < s.ub)

instance (t : τ) (s : TS τ ι K) : Decidable (s.hit t) := by unfold TS.hit; infer_instance

/-- `TDomain::iterator_tslice` for an instant of the domain, codac2_TDomain.cpp:95-111: the first slice that is hit, otherwise the last -/
def iter (t : τ) : List (TS τ ι K) → Nat
  | [] => 0
  | [_] => 0
  | s :: s' :: l => if s.hit t then 0 else iter t (s' :: l) + 1

/-- the slice `i` is cut at `t`: `set_tdomain`, copy and `insert` of codac2_TDomain.cpp:170-180 -/
def cut (l : List (TS τ ι K)) (i : Nat) (s : TS τ ι K) (t : τ) : List (TS τ ι K) :=
  l.take i ++ { s with ub := t } :: { s with lb := t } :: l.drop (i + 1)

/-- one execution of the body of `TDomain::sample(t, with_gates)`, codac2_TDomain.cpp:113-193: the slices, the position of the returned
iterator, and `true` if it ends by the recursive call `sample(t, true)`. `none`: the domain has no slice (undefined behaviour of `front`) -/
def sampleBody (l : List (TS τ ι K)) (t : τ) (g : Bool) : Option (List (TS τ ι K) × Nat × Bool) :=
  match l.head?, l.getLast? with
  | some f, some e =>
    if t ≤ f.lb then
      if f.IsGate ∧ f.lb = t then some (l, 0, false)
      else some (⟨t, f.lb, fun _ => ⊤⟩ :: l, 0, g && !decide (t = f.lb))
    else if e.ub < t then some (l ++ [⟨e.ub, t, fun _ => ⊤⟩], l.length, g)
    else
      match l[iter t l]? with
      | none => none
      | some s =>
        if s.IsGate ∨ (g = false ∧ (s.lb = t ∨ t = e.ub)) then some (l, iter t l, false)
        else if s.lb = t then some (cut l (iter t l) s t, iter t l, false)
        else some (cut l (iter t l) s t, iter t l + 1, g)
  | _, _ => none

/-- `TDomain::sample(t, with_gates)`, codac2_TDomain.cpp:113-193, with at most `n` nested calls -/
def sampleN : Nat → List (TS τ ι K) → τ → Bool → Option (List (TS τ ι K) × Nat)
  | 0, _, _, _ => none
  | n + 1, l, t, g =>
    match sampleBody l t g with
    | none => none
    | some (l', i, again) => if again then sampleN n l' t true else some (l', i)

/-- three nested calls are enough (`sampleN_total`) -/
def sample (l : List (TS τ ι K)) (t : τ) (g : Bool) : Option (List (TS τ ι K) × Nat) := sampleN 3 l t g

/-- `Tube::eval(t)`, codac2_Tube.h:264-279, for the tube `k` -/
def eval (k : ι) (t : τ) (l : List (TS τ ι K)) : Itv K :=
  match l.head?, l.getLast? with
  | some f, some e =>
    if f.lb ≤ t ∧ t ≤ e.ub then
      match l[iter t l]? with
      | none => ⊤
      | some s =>
        if ¬ s.IsGate ∧ t = s.lb ∧ iter t l ≠ 0 then
          match l[iter t l - 1]? with
          | none => s.val k
          | some s' => s.val k ⊓ s'.val k
        else s.val k
    else ⊤
  | _, _ => ⊤

/-- the loop of `TDomain::TDomain(t0_tf, dt, with_gates)` from `t`, codac2_TDomain.cpp:35-46, with at most `n` iterations; the test
`t < t0_tf.ub()+dt` is true whenever `t < t0_tf.ub()`, and the loop stops otherwise -/
def buildN [Field K] : Nat → K → K → K → Bool → Option (List (TS K ι K))
  | 0, _, _, _, _ => none
  | n + 1, t, tf, dt, g =>
    if t < tf + dt then
      let t' := min tf (t + dt)
      let new : List (TS K ι K) := (if g then [⟨t, t, fun _ => ⊤⟩] else []) ++ [⟨t, t', fun _ => ⊤⟩]
      if t' = tf then some (new ++ if g then [⟨tf, tf, fun _ => ⊤⟩] else [])
      else (buildN n (t + dt) tf dt g).map (new ++ ·)
    else some (if g then [⟨tf, tf, fun _ => ⊤⟩] else [])

/-- the loop of `TDomain::sample(t0_tf, dt, with_gates)` from `t`, codac2_TDomain.cpp:195-201, with at most `n` iterations -/
def sampleItvN [Field K] : Nat → List (TS K ι K) → K → K → K → Bool → Option (List (TS K ι K))
  | 0, _, _, _, _, _ => none
  | n + 1, l, t, tf, dt, g =>
    if t < tf + dt then
      match sample l (min tf t) g with
      | none => none
      | some (l', _) => sampleItvN n l' (t + dt) tf dt g
    else some l

/-- `TDomain::delete_gates`, codac2_TDomain.cpp:214-225 -/
def deleteGates (l : List (TS τ ι K)) : List (TS τ ι K) := l.filter fun s => !decide s.IsGate

/-! ### Specifications -/

/-- the slices are adjacent, from `a` to `b` -/
def Chain (a : τ) : List (TS τ ι K) → τ → Prop
  | [], b => a = b
  | s :: l, b => s.lb = a ∧ s.lb ≤ s.ub ∧ Chain s.ub l b

/-- at most one gate at each instant -/
def OneGate (l : List (TS τ ι K)) : Prop := l.Pairwise fun s s' => ¬ (s.IsGate ∧ s'.IsGate ∧ s.lb = s'.lb)

/-- a well-formed temporal domain on `[a,b]` -/
structure WF (a b : τ) (l : List (TS τ ι K)) : Prop where
  ne : l ≠ []
  chain : Chain a l b
  gates : OneGate l

/-- at `t`, the slices of the tube `k` allow the value `v` -/
def Allows (l : List (TS τ ι K)) (k : ι) (t : τ) (v : K) : Prop := ∀ s ∈ l, s.lb ≤ t → t ≤ s.ub → v ∈ s.val k

/-- there is a gate at `t` -/
def GateAt (l : List (TS τ ι K)) (t : τ) : Prop := ∃ s ∈ l, s.IsGate ∧ s.lb = t

theorem Chain.append {a b : τ} {l l' : List (TS τ ι K)} : Chain a (l ++ l') b ↔ ∃ c, Chain a l c ∧ Chain c l' b := by
  induction l generalizing a with
  | nil => simp [Chain]
  | cons s l ih =>
    simp only [List.cons_append, Chain, ih]
    constructor
    · rintro ⟨h1, h2, c, h3, h4⟩; exact ⟨c, ⟨h1, h2, h3⟩, h4⟩
    · rintro ⟨c, ⟨h1, h2, h3⟩, h4⟩; exact ⟨h1, h2, c, h3, h4⟩

theorem Chain.le {a b : τ} {l : List (TS τ ι K)} (h : Chain a l b) : a ≤ b := by
  induction l generalizing a with
  | nil => have h : a = b := h; exact _root_.le_of_eq h
  | cons s l ih => obtain ⟨rfl, h2, h3⟩ := h; exact h2.trans (ih h3)

theorem Chain.mem {a b : τ} {l : List (TS τ ι K)} (h : Chain a l b) {s : TS τ ι K} (hs : s ∈ l) : a ≤ s.lb ∧ s.lb ≤ s.ub ∧ s.ub ≤ b := by
  obtain ⟨p, q, rfl⟩ := List.append_of_mem hs
  obtain ⟨c, h1, rfl, h3, h4⟩ := Chain.append.mp h
  exact ⟨h1.le, h3, h4.le⟩

theorem Chain.head {a b : τ} {s : TS τ ι K} {l : List (TS τ ι K)} (h : Chain a (s :: l) b) : s.lb = a := h.1

theorem Chain.last {a b : τ} {s : TS τ ι K} {l : List (TS τ ι K)} (h : Chain a l b) (hs : l.getLast? = some s) : s.ub = b := by
  obtain ⟨p, rfl⟩ := List.getLast?_eq_some_iff.mp hs
  obtain ⟨c, _, _, _, h4⟩ := Chain.append.mp h
  exact h4

/-- the slice found by `iterator_tslice` -/
theorem iter_spec {t : τ} : ∀ {a b : τ} {l : List (TS τ ι K)}, l ≠ [] → Chain a l b → a ≤ t → t ≤ b →
    ∃ p s q, l = p ++ s :: q ∧ iter t l = p.length ∧ s.lb ≤ t ∧ t ≤ s.ub ∧ (∀ r ∈ p, ¬ r.hit t) ∧ (s.hit t ∨ (q = [] ∧ s.lb < t ∧ t = s.ub))
  | _, _, [], h, _, _, _ => absurd rfl h
  | a, b, [s], _, hc, ha, hb => by
    obtain ⟨rfl, h2, h3⟩ := hc
    have h3 : s.ub = b := h3
    subst h3
    refine ⟨[], s, [], rfl, rfl, ha, hb, by simp, ?_⟩
    by_cases h : s.hit t
    · exact .inl h
    · unfold TS.hit TS.IsGate at h
      have hub : t = s.ub := le_antisymm hb (not_lt.mp fun h' => h (.inr ⟨ha, h'⟩))
      refine .inr ⟨rfl, lt_of_le_of_ne ha fun e => h (.inl ⟨?_, e⟩), hub⟩
      rw [e, hub]
  | a, b, s :: s' :: l, _, hc, ha, hb => by
    by_cases h : s.hit t
    · refine ⟨[], s, s' :: l, rfl, by simp [iter, h], ?_, ?_, by simp, .inl h⟩
      · rw [hc.1]; exact ha
      · rcases h with ⟨h1, h2⟩ | h
        · rw [← h2]; exact h1.le
        · exact h.2.le
    · have hle : s.ub ≤ t := by
        by_contra hn
        exact h (.inr ⟨hc.1.le.trans ha, not_le.mp hn⟩)
      obtain ⟨p, r, q, e, hi, r1, r2, r3, r4⟩ := iter_spec (l := s' :: l) (by simp) hc.2.2 hle hb
      refine ⟨s :: p, r, q, by rw [e]; rfl, ?_, r1, r2, ?_, r4⟩
      · rw [iter, if_neg h, hi]; rfl
      · intro x hx
        rcases List.mem_cons.mp hx with rfl | hx
        exacts [h, r3 x hx]

/-- no other gate at `t` -/
theorem iter_unique {t a b : τ} {p q : List (TS τ ι K)} {s : TS τ ι K} (hc : Chain a (p ++ s :: q) b) (hp : ∀ r ∈ p, ¬ r.hit t)
    (hs : ¬ s.IsGate) (hh : s.hit t ∨ (q = [] ∧ s.lb < t ∧ t = s.ub)) : ¬ GateAt (p ++ s :: q) t := by
  rintro ⟨r, hr, hg, e⟩
  obtain ⟨c, h1, rfl, h3, h4⟩ := Chain.append.mp hc
  rcases List.mem_append.mp hr with hr | hr
  · exact hp r hr (.inl ⟨hg, e⟩)
  rcases List.mem_cons.mp hr with rfl | hr
  · exact hs hg
  rcases hh with hh | ⟨rfl, _⟩
  · rcases hh with hh | hh
    · exact hs hh.1
    · have := (h4.mem hr).1
      rw [e] at this
      exact absurd hh.2 (not_lt.mpr this)
  · simp at hr

/-- the slices around `s` -/
theorem around {a b : τ} {p q : List (TS τ ι K)} {s : TS τ ι K} (hc : Chain a (p ++ s :: q) b) :
    (∀ r ∈ p, r.ub ≤ s.lb) ∧ (∀ r ∈ q, s.ub ≤ r.lb) := by
  obtain ⟨c, h1, rfl, h3, h4⟩ := Chain.append.mp hc
  exact ⟨fun r hr => (h1.mem hr).2.2, fun r hr => (h4.mem hr).1⟩

theorem getElem?_mid {α : Type*} (p q : List α) (s : α) : (p ++ s :: q)[p.length]? = some s := by simp

/-- what `cut` does -/
theorem cut_mid (p q : List (TS τ ι K)) (s : TS τ ι K) (t : τ) :
    cut (p ++ s :: q) p.length s t = p ++ { s with ub := t } :: { s with lb := t } :: q := by
  unfold cut
  have h1 : (p ++ s :: q).take p.length = p := by simp
  have h2 : (p ++ s :: q).drop (p.length + 1) = q := by
    rw [List.drop_append]; simp
  rw [h1, h2]

/-- the effect of one execution of the body -/
structure BodySpec (a b : τ) (l : List (TS τ ι K)) (t : τ) (g : Bool) (l' : List (TS τ ι K)) (i : Nat) (again : Bool) : Prop where
  wf : WF (min a t) (max b t) l'
  same : ∀ k t' v, Allows l' k t' v ↔ Allows l k t' v
  gates : ∀ s : TS τ ι K, s.IsGate → s.lb ≠ t → (s ∈ l' ↔ s ∈ l)
  old : GateAt l t → l' = l
  /-- the codomains of the new slices -/
  slice : ∀ s ∈ l', s ∈ l ∨ (∃ r ∈ l, ¬ r.IsGate ∧ r.lb ≤ t ∧ t ≤ r.ub ∧ s.val = r.val) ∨ (s.val = (fun _ => ⊤) ∧ (t ≤ a ∨ b < t))
  again_g : again = true → g = true
  stop : (∃ s ∈ l, s.lb = t) → again = false
  next : again = true → (∃ s ∈ l', s.lb = t) ∨ b < t
  it : again = false → ∃ s, l'[i]? = some s ∧
    if g then s.IsGate ∧ s.lb = t else s.lb = t ∨ (s.ub = t ∧ (b < t ∧ s.lb = b ∨ t = b ∧ l'.getLast? = some s))
  nogate : g = false → t ≠ a → ∀ s ∈ l', s.IsGate → s ∈ l

theorem allows_top {l l' : List (TS τ ι K)} {s : TS τ ι K} (hs : s.val = fun _ => ⊤) (h : ∀ r, r ∈ l' ↔ r = s ∨ r ∈ l) (k : ι) (t : τ) (v : K) :
    Allows l' k t v ↔ Allows l k t v := by
  constructor
  · intro ha r hr; exact ha r ((h r).mpr (.inr hr))
  · intro ha r hr h1 h2
    rcases (h r).mp hr with rfl | hr
    · rw [hs]; exact Itv.mem_top v
    · exact ha r hr h1 h2

theorem allows_cut {p q : List (TS τ ι K)} {s : TS τ ι K} {t : τ} (h1 : s.lb ≤ t) (h2 : t ≤ s.ub) (k : ι) (t' : τ) (v : K) :
    Allows (p ++ { s with ub := t } :: { s with lb := t } :: q) k t' v ↔ Allows (p ++ s :: q) k t' v := by
  unfold Allows
  simp only [List.mem_append, List.mem_cons]
  constructor
  · rintro h r (hr | rfl | hr) a1 a2
    · exact h r (.inl hr) a1 a2
    · rcases le_total t' t with h' | h'
      · exact h { r with ub := t } (.inr (.inl rfl)) a1 h'
      · exact h { r with lb := t } (.inr (.inr (.inl rfl))) h' a2
    · exact h r (.inr (.inr (.inr hr))) a1 a2
  · rintro h r (hr | rfl | rfl | hr) a1 a2
    · exact h r (.inl hr) a1 a2
    · exact h s (.inr (.inl rfl)) a1 (le_trans a2 h2)
    · exact h s (.inr (.inl rfl)) (le_trans h1 a1) a2
    · exact h r (.inr (.inr hr)) a1 a2

theorem sampleBody_spec {a b t : τ} {l : List (TS τ ι K)} (g : Bool) (h : WF a b l) :
    ∃ l' i again, sampleBody l t g = some (l', i, again) ∧ BodySpec a b l t g l' i again := by
  obtain ⟨hne, hc, hg⟩ := h
  obtain ⟨f, l0, rfl⟩ := List.exists_cons_of_ne_nil hne
  have hf := hc.head
  obtain ⟨e, he⟩ : ∃ e, (f :: l0).getLast? = some e := ⟨_, List.getLast?_eq_some_getLast (by simp)⟩
  have hub := hc.last he
  have hab := hc.le
  unfold sampleBody
  simp only [List.head?_cons, he, hf, hub]
  by_cases h1 : t ≤ a
  · simp only [if_pos h1]
    by_cases h2 : f.IsGate ∧ a = t
    · -- already a gate
      simp only [if_pos h2]
      obtain ⟨h2, rfl⟩ := h2
      refine ⟨_, _, _, rfl, ⟨by simp, by simpa [hab] using hc, hg⟩, fun _ _ _ => Iff.rfl, fun _ _ _ => Iff.rfl, fun _ => rfl,
        fun s hs => .inl hs, by simp, fun _ => rfl, by simp, fun _ => ⟨f, rfl, ?_⟩, fun _ h => absurd rfl h⟩
      split
      · exact ⟨h2, hf⟩
      · exact .inl hf
    · simp only [if_neg h2]
      have hnog : ¬ GateAt (f :: l0) t := by
        rintro ⟨s, hs, hsg, hst⟩
        have := (hc.mem hs).1
        rw [hst] at this
        have hta := le_antisymm h1 this
        subst hta
        rcases List.mem_cons.mp hs with rfl | hs'
        · exact h2 ⟨hsg, rfl⟩
        · have h3 := (hc.2.2.mem hs').1
          have h4 := hc.2.1
          rw [hst] at h3
          exact h2 ⟨le_antisymm h4 (h3.trans hf.ge), rfl⟩
      have hmin : min a t = t := min_eq_right h1
      have hmax : max b t = b := max_eq_left (h1.trans hab)
      refine ⟨_, _, _, rfl, ⟨by simp, ?_, ?_⟩, ?_, ?_, ?_, ?_, ?_, ?_, ?_, ?_, ?_⟩
      · rw [hmin, hmax]; exact ⟨rfl, h1, hc⟩
      · refine List.pairwise_cons.mpr ⟨?_, hg⟩
        rintro s hs ⟨e1, e2, e3⟩
        have e3 : t = s.lb := e3
        exact hnog ⟨s, hs, e2, e3.symm⟩
      · exact fun k t' v => allows_top (s := ⟨t, a, fun _ => ⊤⟩) rfl (fun r => List.mem_cons) k t' v
      · intro s hs hst
        rw [List.mem_cons]
        refine ⟨fun h => h.resolve_left ?_, .inr⟩
        rintro rfl
        exact hst rfl
      · exact fun h => absurd h hnog
      · intro s hs
        rcases List.mem_cons.mp hs with rfl | hs
        · exact .inr (.inr ⟨rfl, .inl h1⟩)
        · exact .inl hs
      · intro h; simp only [Bool.and_eq_true] at h; exact h.1
      · rintro ⟨s, hs, e⟩
        have := (hc.mem hs).1
        rw [e] at this
        simp [le_antisymm h1 this]
      · exact fun _ => .inl ⟨_, List.mem_cons_self, rfl⟩
      · intro hag
        refine ⟨_, rfl, ?_⟩
        split
        · rename_i hgt
          rw [hgt, Bool.true_and, Bool.not_eq_false', decide_eq_true_eq] at hag
          exact ⟨hag, rfl⟩
        · exact .inl rfl
      · intro _ hta s hs hsg
        rcases List.mem_cons.mp hs with rfl | hs
        · exact absurd hsg hta
        · exact hs
  · simp only [if_neg h1]
    have h1' := not_le.mp h1
    have hmin : min a t = a := min_eq_left h1'.le
    by_cases h2 : b < t
    · simp only [if_pos h2]
      have hmax : max b t = t := max_eq_right h2.le
      have hnot : ∀ s ∈ f :: l0, s.lb ≠ t := by
        intro s hs e
        have := hc.mem hs
        rw [e] at this
        exact absurd h2 (not_lt.mpr (this.2.1.trans this.2.2))
      refine ⟨_, _, _, rfl, ⟨by simp, ?_, ?_⟩, ?_, ?_, ?_, ?_, ?_, ?_, ?_, ?_, ?_⟩
      · rw [hmin, hmax]
        exact Chain.append.mpr ⟨b, hc, rfl, h2.le, rfl⟩
      · refine List.pairwise_append.mpr ⟨hg, by simp, ?_⟩
        rintro s hs s' hs' ⟨_, e, _⟩
        rw [List.mem_singleton.mp hs'] at e
        exact absurd e h2.ne
      · refine fun k t' v => allows_top (s := ⟨b, t, fun _ => ⊤⟩) rfl (fun r => ?_) k t' v
        simp only [List.mem_append, List.mem_singleton]; tauto
      · intro s hs hst
        rw [List.mem_append, List.mem_singleton]
        refine ⟨fun h => h.resolve_right ?_, .inl⟩
        rintro rfl
        exact absurd hs h2.ne
      · rintro ⟨s, hs, _, e⟩; exact absurd e (hnot s hs)
      · intro s hs
        rcases List.mem_append.mp hs with hs | hs
        · exact .inl hs
        · rw [List.mem_singleton.mp hs]; exact .inr (.inr ⟨rfl, .inr h2⟩)
      · exact id
      · rintro ⟨s, hs, e⟩; exact absurd e (hnot s hs)
      · exact fun _ => .inr h2
      · intro hag
        refine ⟨⟨b, t, fun _ => ⊤⟩, by simp, ?_⟩
        rw [hag, if_neg (by simp)]
        exact .inr ⟨rfl, .inl ⟨h2, rfl⟩⟩
      · intro _ _ s hs hsg
        rcases List.mem_append.mp hs with hs | hs
        · exact hs
        · rw [List.mem_singleton.mp hs] at hsg; exact absurd hsg h2.ne
    · simp only [if_neg h2]
      have h2' := not_lt.mp h2
      have hmax : max b t = b := max_eq_left h2'
      obtain ⟨p, s, q, el, hi, hs1, hs2, hp, hh⟩ := iter_spec hne hc h1'.le h2'
      rw [hi]
      have hel : (f :: l0)[p.length]? = some s := by rw [el]; exact getElem?_mid p q s
      have hlast : t = b → ¬ s.IsGate → (f :: l0).getLast? = some s ∧ s.ub = b := by
        intro e hsg
        rcases hh with (hh | hh) | hh
        · exact absurd hh.1 hsg
        · rw [el] at hc
          have := hc.mem (s := s) (by simp)
          exact absurd (e ▸ hh.2) (not_lt.mpr this.2.2)
        · rw [el, hh.1]; exact ⟨by simp, by rw [← e]; exact hh.2.2.symm⟩
      simp only [hel]
      rw [el] at hc hg
      by_cases h3 : s.IsGate ∨ (g = false ∧ (s.lb = t ∨ t = b))
      · simp only [if_pos h3]
        refine ⟨_, _, _, rfl, ⟨hne, by rw [hmin, hmax, el]; exact hc, by rw [el]; exact hg⟩, fun _ _ _ => Iff.rfl, fun _ _ _ => Iff.rfl, fun _ => rfl,
          fun s hs => .inl hs, by simp, fun _ => rfl, by simp, fun _ => ⟨s, hel, ?_⟩, fun _ _ s hs _ => hs⟩
        by_cases hsg : s.IsGate
        · have : s.lb = t := le_antisymm hs1 (hs2.trans hsg.ge)
          split
          · exact ⟨hsg, this⟩
          · exact .inl this
        · rcases h3 with h3 | ⟨h3, h4⟩
          · exact absurd h3 hsg
          · rw [h3, if_neg (by simp)]
            rcases h4 with h4 | h4
            · exact .inl h4
            · obtain ⟨l1, l2⟩ := hlast h4 hsg
              exact .inr ⟨l2.trans h4.symm, .inr ⟨h4, l1⟩⟩
      · simp only [if_neg h3]
        rw [not_or] at h3
        obtain ⟨hsg, h4⟩ := h3
        have hnog := iter_unique hc hp hsg hh
        have hcut : cut (f :: l0) p.length s t = p ++ { s with ub := t } :: { s with lb := t } :: q := by rw [el]; exact cut_mid p q s t
        rw [hcut]
        have hlt : s.lb < s.ub := lt_of_le_of_ne (hs1.trans hs2) hsg
        have hwf : WF a b (p ++ { s with ub := t } :: { s with lb := t } :: q) := by
          refine ⟨by simp, ?_, ?_⟩
          · obtain ⟨c, k1, k2, k3, k4⟩ := Chain.append.mp hc
            exact Chain.append.mpr ⟨c, k1, k2, hs1, rfl, hs2, k4⟩
          · unfold OneGate at hg ⊢
            rw [List.pairwise_append, List.pairwise_cons] at hg ⊢
            rw [List.pairwise_cons]
            obtain ⟨g1, ⟨g2, g3⟩, g4⟩ := hg
            have gp : ∀ r ∈ p, ¬ (r.IsGate ∧ r.lb = t) := fun r hr hrg => hnog ⟨r, by simp [hr], hrg.1, hrg.2⟩
            have gq : ∀ r ∈ q, ¬ (r.IsGate ∧ r.lb = t) := fun r hr hrg => hnog ⟨r, by simp [hr], hrg.1, hrg.2⟩
            refine ⟨g1, ⟨?_, ?_, g3⟩, ?_⟩
            · intro r hr
              rcases List.mem_cons.mp hr with rfl | hr
              · rintro ⟨e1, e2, _⟩
                have e1 : s.lb = t := e1
                have e2 : t = s.ub := e2
                exact hsg (e1.trans e2)
              · rintro ⟨e1, e2, e3⟩
                have e1 : s.lb = t := e1
                have e3 : s.lb = r.lb := e3
                exact gq r hr ⟨e2, e3.symm.trans e1⟩
            · rintro r hr ⟨e1, e2, e3⟩
              have e3 : t = r.lb := e3
              exact gq r hr ⟨e2, e3.symm⟩
            · intro r hr r' hr'
              rcases List.mem_cons.mp hr' with rfl | hr'
              · rintro ⟨e1, e2, e3⟩
                have e2 : s.lb = t := e2
                have e3 : r.lb = s.lb := e3
                exact gp r hr ⟨e1, e3.trans e2⟩
              rcases List.mem_cons.mp hr' with rfl | hr'
              · rintro ⟨e1, e2, e3⟩
                exact gp r hr ⟨e1, e3⟩
              · exact g4 r hr r' (List.mem_cons_of_mem _ hr')
        have hgates : ∀ r : TS τ ι K, r.IsGate → r.lb ≠ t → (r ∈ p ++ { s with ub := t } :: { s with lb := t } :: q ↔ r ∈ p ++ s :: q) := by
          intro r hr hrt
          simp only [List.mem_append, List.mem_cons]
          constructor
          · rintro (h | rfl | rfl | h)
            · exact .inl h
            · have hr : s.lb = t := hr
              exact absurd hr hrt
            · exact absurd rfl hrt
            · exact .inr (.inr h)
          · rintro (h | rfl | h)
            · exact .inl h
            · exact absurd hr hsg
            · exact .inr (.inr (.inr h))
        have hgate : ∀ r ∈ p ++ { s with ub := t } :: { s with lb := t } :: q, r.IsGate → r ∈ p ++ s :: q ∨
            (r.val = s.val ∧ (s.lb = t ∨ t = s.ub)) := by
          intro r hr hrg
          simp only [List.mem_append, List.mem_cons] at hr ⊢
          rcases hr with h | rfl | rfl | h
          · exact .inl (.inl h)
          · exact .inr ⟨rfl, .inl hrg⟩
          · exact .inr ⟨rfl, .inr hrg⟩
          · exact .inl (.inr (.inr h))
        have hend : t = s.ub → s.lb ≠ t → t = b := by
          intro e1 e2
          rcases hh with (hh | hh) | hh
          · exact absurd hh.1 hsg
          · exact absurd e1 hh.2.ne
          · obtain ⟨c, k1, k2, k3, k4⟩ := Chain.append.mp hc
            rw [hh.1] at k4
            have k4 : s.ub = b := k4
            exact e1.trans k4
        have core : ∀ (i : Nat) (ag : Bool), (ag = true → g = true) → ((∃ r ∈ p ++ s :: q, r.lb = t) → ag = false) →
            (ag = false → ∃ r, (p ++ { s with ub := t } :: { s with lb := t } :: q)[i]? = some r ∧
              if g then r.IsGate ∧ r.lb = t else r.lb = t ∨ (r.ub = t ∧ (b < t ∧ r.lb = b ∨ t = b ∧
                (p ++ { s with ub := t } :: { s with lb := t } :: q).getLast? = some r))) →
            BodySpec a b (f :: l0) t g (p ++ { s with ub := t } :: { s with lb := t } :: q) i ag := by
          intro i ag c1 c2 c3
          rw [el]
          refine ⟨by rw [hmin, hmax]; exact hwf, allows_cut hs1 hs2, hgates, fun h => absurd h hnog, ?_, c1, c2,
            fun _ => .inl ⟨{ s with lb := t }, by simp, rfl⟩, c3, ?_⟩
          · intro r hr
            have new : r.val = s.val → _ := fun e : r.val = s.val =>
              (Or.inr (Or.inl ⟨s, by simp, hsg, hs1, hs2, e⟩) : r ∈ p ++ s :: q ∨ (∃ r' ∈ p ++ s :: q, ¬ r'.IsGate ∧ r'.lb ≤ t ∧
                t ≤ r'.ub ∧ r.val = r'.val) ∨ (r.val = (fun _ => ⊤) ∧ (t ≤ a ∨ b < t)))
            simp only [List.mem_append, List.mem_cons] at hr
            rcases hr with h | rfl | rfl | h
            · exact .inl (by simp [h])
            · exact new rfl
            · exact new rfl
            · exact .inl (by simp [h])
          · intro hgf hta r hr hrg
            rcases hgate r hr hrg with h | ⟨_, h⟩
            · exact h
            · exfalso
              by_cases hst : s.lb = t
              · exact h4 ⟨hgf, .inl hst⟩
              · exact h4 ⟨hgf, .inr (hend (h.resolve_left hst) hst)⟩
        by_cases h5 : s.lb = t
        · simp only [if_pos h5]
          refine ⟨_, _, _, rfl, core _ _ (by simp) (fun _ => rfl) fun _ => ⟨{ s with ub := t }, getElem?_mid _ _ _, ?_⟩⟩
          split
          · exact ⟨h5, h5⟩
          · exact .inl h5
        · simp only [if_neg h5]
          refine ⟨_, _, _, rfl, core _ _ id ?_ fun hgf => ⟨{ s with lb := t }, ?_, ?_⟩⟩
          · rintro ⟨r, hr, hrt⟩
            exfalso
            obtain ⟨k1, k2⟩ := around hc
            rcases List.mem_append.mp hr with hr | hr
            · have := (hc.mem (s := r) (by simp [hr])).2.1
              have := k1 r hr
              exact h5 (le_antisymm hs1 (by rw [← hrt]; exact le_trans ‹_› this))
            rcases List.mem_cons.mp hr with rfl | hr
            · exact h5 hrt
            · have := k2 r hr
              rw [hrt] at this
              rcases hh with (hh | hh) | hh
              · exact hsg hh.1
              · exact absurd hh.2 (not_lt.mpr this)
              · rw [hh.1] at hr; simp at hr
          · rw [List.getElem?_append_right (by simp)]; simp
          · rw [hgf, if_neg (by simp)]
            exact .inl rfl

/-- the effect of `sample` -/
structure SampleSpec (a b : τ) (l : List (TS τ ι K)) (t : τ) (g : Bool) (l' : List (TS τ ι K)) (i : Nat) : Prop where
  wf : WF (min a t) (max b t) l'
  same : ∀ k t' v, Allows l' k t' v ↔ Allows l k t' v
  gates : ∀ s : TS τ ι K, s.IsGate → s.lb ≠ t → (s ∈ l' ↔ s ∈ l)
  old : GateAt l t → l' = l
  slice : ∀ s ∈ l', s ∈ l ∨ (∃ r ∈ l, ¬ r.IsGate ∧ r.lb ≤ t ∧ t ≤ r.ub ∧ s.val = r.val) ∨ (s.val = (fun _ => ⊤) ∧ (t ≤ a ∨ b < t))
  it : ∃ s, l'[i]? = some s ∧
    if g then s.IsGate ∧ s.lb = t else s.lb = t ∨ (s.ub = t ∧ (b < t ∧ s.lb = b ∨ t = b ∧ l'.getLast? = some s))
  nogate : g = false → t ≠ a → ∀ s ∈ l', s.IsGate → s ∈ l

theorem BodySpec.done {a b t : τ} {l l' : List (TS τ ι K)} {g : Bool} {i : Nat} (h : BodySpec a b l t g l' i false) : SampleSpec a b l t g l' i :=
  ⟨h.wf, h.same, h.gates, h.old, h.slice, h.it rfl, h.nogate⟩

theorem BodySpec.comp {a b t : τ} {l l' l'' : List (TS τ ι K)} {g : Bool} {i j : Nat} (h : BodySpec a b l t g l' i true)
    (h' : SampleSpec (min a t) (max b t) l' t true l'' j) : SampleSpec a b l t g l'' j := by
  have hg := h.again_g rfl
  subst hg
  have h1 : min (min a t) t = min a t := min_eq_left (min_le_right _ _)
  have h2 : max (max b t) t = max b t := max_eq_left (le_max_right _ _)
  refine ⟨by rw [← h1, ← h2]; exact h'.wf, fun k t' v => (h'.same k t' v).trans (h.same k t' v), fun s hs hst => (h'.gates s hs hst).trans (h.gates s hs hst), ?_, ?_, ?_,
    by simp⟩
  · intro hgt
    obtain ⟨s, hs, _, e⟩ := hgt
    have := h.stop ⟨s, hs, e⟩
    simp at this
  · intro s hs
    have top : t ≤ min a t ∨ max b t < t → t ≤ a ∨ b < t := by
      rintro (h | h)
      · exact .inl (h.trans (min_le_left _ _))
      · exact .inr (lt_of_le_of_lt (le_max_left _ _) h)
    rcases h'.slice s hs with h3 | ⟨r, hr, k1, k2, k3, k4⟩ | ⟨h3, h4⟩
    · exact h.slice s h3
    · rcases h.slice r hr with h3 | ⟨r', hr', m1, m2, m3, m4⟩ | ⟨h3, h4⟩
      · exact .inr (.inl ⟨r, h3, k1, k2, k3, k4⟩)
      · exact .inr (.inl ⟨r', hr', m1, m2, m3, k4.trans m4⟩)
      · exact .inr (.inr ⟨k4.trans h3, h4⟩)
    · exact .inr (.inr ⟨h3, top h4⟩)
  · exact h'.it

/-- when a slice starts at `t`, one call is enough -/
theorem sampleN_one {a b t : τ} {l : List (TS τ ι K)} (g : Bool) (n : Nat) (h : WF a b l) (ht : ∃ s ∈ l, s.lb = t) :
    ∃ l' i, sampleN (n + 1) l t g = some (l', i) ∧ SampleSpec a b l t g l' i := by
  obtain ⟨l', i, ag, e, hs⟩ := sampleBody_spec (t := t) g h
  have hag := hs.stop ht
  subst hag
  exact ⟨l', i, by rw [sampleN, e]; rfl, hs.done⟩

theorem sampleN_two {a b t : τ} {l : List (TS τ ι K)} (g : Bool) (n : Nat) (h : WF a b l) (ht : t ≤ b) :
    ∃ l' i, sampleN (n + 2) l t g = some (l', i) ∧ SampleSpec a b l t g l' i := by
  obtain ⟨l', i, ag, e, hs⟩ := sampleBody_spec (t := t) g h
  cases ag with
  | false => exact ⟨l', i, by rw [sampleN, e]; rfl, hs.done⟩
  | true =>
    rcases hs.next rfl with h2 | h2
    · obtain ⟨l'', j, e', hs'⟩ := sampleN_one true n hs.wf h2
      exact ⟨l'', j, by rw [sampleN, e]; exact e', hs.comp hs'⟩
    · exact absurd h2 (not_lt.mpr ht)

/-- three nested calls are always enough -/
theorem sampleN_total {a b t : τ} {l : List (TS τ ι K)} (g : Bool) (n : Nat) (h : WF a b l) :
    ∃ l' i, sampleN (n + 3) l t g = some (l', i) ∧ SampleSpec a b l t g l' i := by
  obtain ⟨l', i, ag, e, hs⟩ := sampleBody_spec (t := t) g h
  cases ag with
  | false => exact ⟨l', i, by rw [sampleN, e]; rfl, hs.done⟩
  | true =>
    obtain ⟨l'', j, e', hs'⟩ := sampleN_two true n hs.wf (le_max_right _ _)
    exact ⟨l'', j, by rw [sampleN, e]; exact e', hs.comp hs'⟩

theorem sample_spec {a b t : τ} {l : List (TS τ ι K)} (g : Bool) (h : WF a b l) :
    ∃ l' i, sample l t g = some (l', i) ∧ SampleSpec a b l t g l' i := sampleN_total g 0 h

/-- evaluation: the gate at `t` if there is one, otherwise what the slices allow -/
theorem eval_spec {a b t : τ} {l : List (TS τ ι K)} (h : WF a b l) (ha : a ≤ t) (hb : t ≤ b) (k : ι) :
    (∃ s ∈ l, s.IsGate ∧ s.lb = t ∧ eval k t l = s.val k) ∨ (¬ GateAt l t ∧ ∀ v, v ∈ eval k t l ↔ Allows l k t v) := by
  obtain ⟨hne, hc, hg⟩ := h
  obtain ⟨f, l0, rfl⟩ := List.exists_cons_of_ne_nil hne
  have hf := hc.head
  obtain ⟨e, he⟩ : ∃ e, (f :: l0).getLast? = some e := ⟨_, List.getLast?_eq_some_getLast (by simp)⟩
  have hub := hc.last he
  obtain ⟨p, s, q, el, hi, hs1, hs2, hp, hh⟩ := iter_spec hne hc ha hb
  unfold eval
  simp only [List.head?_cons, he, hf, hub, ha, hb, and_self, if_true, hi]
  rw [el] at hc ⊢
  simp only [getElem?_mid]
  by_cases hsg : s.IsGate
  · left
    refine ⟨s, by simp, hsg, le_antisymm hs1 (hs2.trans hsg.ge), ?_⟩
    rw [if_neg fun h => h.1 hsg]
  · right
    refine ⟨iter_unique hc hp hsg hh, fun v => ?_⟩
    obtain ⟨r1, r2⟩ := around hc
    have hq : ∀ r ∈ q, ¬ r.lb ≤ t := by
      intro r hr hrt
      rcases hh with (hh | hh) | hh
      · exact hsg hh.1
      · exact absurd (lt_of_lt_of_le hh.2 (r2 r hr)) (not_lt.mpr hrt)
      · rw [hh.1] at hr; simp at hr
    by_cases hst : t = s.lb
    · rcases p.eq_nil_or_concat with rfl | ⟨p, r, rfl⟩
      · rw [if_neg fun h => h.2.2 rfl]
        constructor
        · intro hv r hr h1 h2
          rcases List.mem_cons.mp hr with rfl | hr
          · exact hv
          · exact absurd h1 (hq r hr)
        · intro hv; exact hv s (by simp) hs1 hs2
      · rw [List.concat_eq_append] at *
        rw [if_pos ⟨hsg, hst, by simp⟩]
        have e1 : (p ++ [r] ++ s :: q)[(p ++ [r]).length - 1]? = some r := by simp
        rw [e1]
        simp only [Itv.mem_inf]
        have hc' := hc
        rw [List.append_assoc] at hc'
        obtain ⟨c, k1, k2, k3, k4⟩ := Chain.append.mp hc'
        obtain ⟨k5, k6, k7⟩ := k4
        constructor
        · rintro ⟨v1, v2⟩ x hx h1 h2
          simp only [List.mem_append, List.mem_cons, List.not_mem_nil, or_false] at hx
          rcases hx with (hx | rfl) | rfl | hx
          · -- before the previous slice: it would be a gate
            exfalso
            have hxc := (k1.mem hx).2.2
            have hrt : r.lb = t := by
              have h3 : r.lb ≤ t := by rw [hst, k5]; exact k3
              exact le_antisymm h3 (h2.trans (hxc.trans k2.ge))
            refine hp r (by simp) (.inl ⟨?_, hrt⟩)
            show r.lb = r.ub
            rw [hrt, hst, k5]
          · exact v2
          · exact v1
          · exact absurd h1 (hq x hx)
        · intro hv
          refine ⟨hv s (by simp) hs1 hs2, hv r (by simp) ?_ ?_⟩
          · rw [hst, k5]; exact k3
          · rw [hst, k5]
    · rw [if_neg fun h => hst h.2.1]
      constructor
      · intro hv r hr h1 h2
        rcases List.mem_append.mp hr with hr | hr
        · exact absurd (le_antisymm (h2.trans (r1 r hr)) hs1) hst
        rcases List.mem_cons.mp hr with rfl | hr
        · exact hv
        · exact absurd h1 (hq r hr)
      · intro hv; exact hv s (by simp) hs1 hs2

theorem WF.gate_unique {a b : τ} {l : List (TS τ ι K)} (h : WF a b l) {s s' : TS τ ι K} (hs : s ∈ l) (hs' : s' ∈ l) (h1 : s.IsGate)
    (h2 : s'.IsGate) (e : s.lb = s'.lb) : s = s' := by
  by_contra hne
  have hsym : ∀ x y : TS τ ι K, ¬ (x.IsGate ∧ y.IsGate ∧ x.lb = y.lb) → ¬ (y.IsGate ∧ x.IsGate ∧ y.lb = x.lb) := by
    rintro x y h ⟨a1, a2, a3⟩; exact h ⟨a2, a1, a3.symm⟩
  have : Std.Symm fun s s' : TS τ ι K => ¬ (s.IsGate ∧ s'.IsGate ∧ s.lb = s'.lb) := ⟨hsym⟩
  exact h.gates.forall hs hs' hne ⟨h1, h2, e⟩

/-- the slices that contain the inner instants of a slice -/
theorem WF.inner {a b t : τ} {l : List (TS τ ι K)} (h : WF a b l) {r : TS τ ι K} (hr : r ∈ l) (h1 : r.lb < t) (h2 : t ≤ r.ub)
    (hno : ∀ s ∈ l, s.lb ≠ t) (k : ι) (v : K) : Allows l k t v ↔ v ∈ r.val k := by
  obtain ⟨p, q, rfl⟩ := List.append_of_mem hr
  obtain ⟨r1, r2⟩ := around h.chain
  constructor
  · intro hv; exact hv r hr h1.le h2
  · intro hv s hs k1 k2
    rcases List.mem_append.mp hs with hs' | hs'
    · exact absurd (k2.trans (r1 s hs')) (not_le.mpr h1)
    rcases List.mem_cons.mp hs' with rfl | hs'
    · exact hv
    · exact absurd (le_antisymm k1 (h2.trans (r2 s hs'))) (hno s hs)

theorem Chain.filter {a b : τ} {l : List (TS τ ι K)} (h : Chain a l b) : Chain a (deleteGates l) b := by
  induction l generalizing a with
  | nil => exact h
  | cons s l ih =>
    obtain ⟨rfl, h2, h3⟩ := h
    unfold deleteGates
    rw [List.filter_cons]
    by_cases hs : s.IsGate
    · have e : s.lb = s.ub := hs
      simp only [hs, decide_true, Bool.not_true, Bool.false_eq_true, if_false]
      rw [e]
      exact ih h3
    · simp only [hs, decide_false, Bool.not_false, if_true]
      exact ⟨rfl, h2, ih h3⟩

section Field
variable [Field K] [IsStrictOrderedRing K] [Archimedean K]

theorem buildN_spec {dt tf : K} (hdt : 0 < dt) (g : Bool) : ∀ (n : Nat) (t : K), t < tf → tf - t ≤ n * dt →
    ∃ l : List (TS K ι K), (∀ m, buildN (ι := ι) (n + m) t tf dt g = some l) ∧ WF t tf l ∧ (∀ s ∈ l, s.val = fun _ => ⊤) ∧
      (∀ s ∈ l, g = false → ¬ s.IsGate) ∧ (g = true → GateAt l tf ∧ ∀ s ∈ l, GateAt l s.lb) ∧ ∀ s ∈ l, s.ub - s.lb ≤ dt
  | 0, t, h, hn => absurd (by simpa using hn) (not_le.mpr (sub_pos.mpr h))
  | n + 1, t, h, hn => by
    have h1 : t < tf + dt := by linarith
    by_cases h2 : min tf (t + dt) = tf
    · refine ⟨((if g then [⟨t, t, fun _ => ⊤⟩] else []) ++ [⟨t, tf, fun _ => ⊤⟩]) ++ if g then [⟨tf, tf, fun _ => ⊤⟩] else [], ?_, ?_, ?_, ?_, ?_, ?_⟩
      · intro m
        rw [show n + 1 + m = (n + m) + 1 by omega, buildN]
        simp only [if_pos h1, h2, if_true]
      · cases g
        · exact ⟨by simp, ⟨rfl, h.le, rfl⟩, by simp [OneGate]⟩
        · refine ⟨by simp, ⟨rfl, le_rfl, rfl, h.le, rfl, le_rfl, rfl⟩, ?_⟩
          simp [OneGate, TS.IsGate, h.ne]
      · intro s hs
        cases g <;> simp at hs <;> aesop
      · rintro s hs rfl
        simp at hs
        rw [hs]; exact h.ne
      · rintro rfl
        refine ⟨⟨⟨tf, tf, fun _ => ⊤⟩, by simp, rfl, rfl⟩, ?_⟩
        intro s hs
        simp at hs
        rcases hs with rfl | rfl | rfl
        · exact ⟨⟨t, t, fun _ => ⊤⟩, by simp, rfl, rfl⟩
        · exact ⟨⟨t, t, fun _ => ⊤⟩, by simp, rfl, rfl⟩
        · exact ⟨⟨tf, tf, fun _ => ⊤⟩, by simp, rfl, rfl⟩
      · have h3 : tf ≤ t + dt := by rw [← h2]; exact min_le_right _ _
        intro s hs
        cases g <;> simp at hs
        · rw [hs]; simp only; linarith
        · rcases hs with rfl | rfl | rfl <;> simp only <;> linarith
    · have h3 : t + dt < tf := by
        by_contra hc
        exact h2 (min_eq_left (not_lt.mp hc))
      have h4 : min tf (t + dt) = t + dt := min_eq_right h3.le
      obtain ⟨l, e, hwf, htop, hng, hga, hw⟩ := buildN_spec hdt g n (t + dt) h3 (by push_cast at hn; linarith)
      refine ⟨((if g then [⟨t, t, fun _ => ⊤⟩] else []) ++ [⟨t, t + dt, fun _ => ⊤⟩]) ++ l, ?_, ?_, ?_, ?_, ?_, ?_⟩
      · intro m
        rw [show n + 1 + m = (n + m) + 1 by omega, buildN]
        simp only [if_pos h1, h4, if_neg h3.ne, e m, Option.map_some]
      · have hlb : ∀ s ∈ l, s.lb ≠ t := by
          intro s hs e
          have := (hwf.chain.mem hs).1
          linarith
        cases g
        · refine ⟨by simp, ⟨rfl, by simp only; linarith, hwf.chain⟩, ?_⟩
          refine List.pairwise_cons.mpr ⟨?_, hwf.gates⟩
          rintro s hs ⟨_, _, e⟩
          exact hlb s hs e.symm
        · refine ⟨by simp, ⟨rfl, le_rfl, rfl, by simp only; linarith, hwf.chain⟩, ?_⟩
          refine List.pairwise_cons.mpr ⟨?_, List.pairwise_cons.mpr ⟨?_, hwf.gates⟩⟩
          · rintro s hs ⟨_, e1, e⟩
            rcases List.mem_cons.mp hs with rfl | hs
            · have e1 : t = t + dt := e1
              linarith
            · exact hlb s hs e.symm
          · rintro s hs ⟨_, _, e⟩
            exact hlb s hs e.symm
      · intro s hs
        rcases List.mem_append.mp hs with hs | hs
        · cases g <;> simp at hs <;> aesop
        · exact htop s hs
      · rintro s hs rfl
        rcases List.mem_append.mp hs with hs | hs
        · simp at hs
          rw [hs]
          show ¬ t = t + dt
          intro e; linarith
        · exact hng s hs rfl
      · rintro rfl
        obtain ⟨⟨s0, k1, k2, k3⟩, k4⟩ := hga rfl
        refine ⟨⟨s0, List.mem_append_right _ k1, k2, k3⟩, ?_⟩
        intro s hs
        have first : GateAt (((if true then [⟨t, t, fun _ => ⊤⟩] else []) ++ [⟨t, t + dt, fun _ => ⊤⟩]) ++ l : List (TS K ι K)) t :=
          ⟨⟨t, t, fun _ => ⊤⟩, by simp, rfl, rfl⟩
        rcases List.mem_append.mp hs with hs | hs
        · simp at hs
          rcases hs with rfl | rfl <;> exact first
        · obtain ⟨r, m1, m2, m3⟩ := k4 s hs
          exact ⟨r, List.mem_append_right _ m1, m2, m3⟩
      · intro s hs
        rcases List.mem_append.mp hs with hs | hs
        · cases g <;> simp at hs
          · rw [hs]; simp only; linarith
          · rcases hs with rfl | rfl <;> simp only <;> linarith
        · exact hw s hs

theorem sampleItvN_spec {dt tf : K} (hdt : 0 < dt) (g : Bool) : ∀ (n : Nat) (l : List (TS K ι K)) (a b t : K), WF a b l → a ≤ t → tf ≤ b → a ≤ tf →
    tf + dt - t ≤ n * dt → ∃ l' : List (TS K ι K), (∀ m, sampleItvN (n + 1 + m) l t tf dt g = some l') ∧ WF a b l' ∧
      (∀ k t' v, Allows l' k t' v ↔ Allows l k t' v)
  | 0, l, a, b, t, h, _, _, _, hn => by
    refine ⟨l, fun m => ?_, h, fun _ _ _ => Iff.rfl⟩
    rw [show 0 + 1 + m = m + 1 by omega, sampleItvN, if_neg (by simp at hn; linarith)]
  | n + 1, l, a, b, t, h, ha, hb, hab, hn => by
    by_cases h1 : t < tf + dt
    · obtain ⟨l1, i, e, hs⟩ := sample_spec (t := min tf t) g h
      have hwf := hs.wf
      rw [min_eq_left (le_min hab ha), max_eq_left ((min_le_left _ _).trans hb)] at hwf
      obtain ⟨l2, e2, hwf2, hsame⟩ := sampleItvN_spec hdt g n l1 a b (t + dt) hwf (by linarith) hb hab (by push_cast at hn; linarith)
      refine ⟨l2, fun m => ?_, hwf2, fun k t' v => (hsame k t' v).trans (hs.same k t' v)⟩
      rw [show n + 1 + 1 + m = (n + 1 + m) + 1 by omega, sampleItvN, if_pos h1, e]
      exact e2 m
    · refine ⟨l, fun m => ?_, h, fun _ _ _ => Iff.rfl⟩
      rw [show n + 1 + 1 + m = (n + 1 + m) + 1 by omega, sampleItvN, if_neg h1]

end Field

end Codac.C2
