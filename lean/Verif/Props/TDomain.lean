import Verif.C2.TDomain
import Mathlib.Data.List.Induction
import Mathlib.Order.WithBot

/-!
# C45, C57, C58: sampling a temporal domain shared by tubes
-/

set_option linter.unusedSectionVars false

namespace Codac.Props
open Codac Codac.C2

variable {τ ι K : Type*} [LinearOrder τ] [LinearOrder K]

/-- the trajectory `f` belongs to the tube `k`: its values are in the codomain of each slice and each gate, on the whole slice -/
def InTube (l : List (TS τ ι K)) (k : ι) (f : τ → K) : Prop := ∀ s ∈ l, ∀ t, s.lb ≤ t → t ≤ s.ub → f t ∈ s.val k

theorem inTube_iff {l : List (TS τ ι K)} {k : ι} {f : τ → K} : InTube l k f ↔ ∀ t, Allows l k t (f t) :=
  ⟨fun h t s hs h1 h2 => h s hs t h1 h2, fun h s hs t h1 h2 => h t s hs h1 h2⟩

/-- **C45**: for any temporal domain on `[a,b]`, any instant `t` and with or without gates, `sample` returns; the domain is then the least
interval that contains `[a,b]` and `t`, cut into adjacent slices with at most one gate at each instant, and every tube contains the same
trajectories -/
theorem C45_sample {a b : τ} {l : List (TS τ ι K)} (h : WF a b l) (t : τ) (g : Bool) :
    ∃ l' i, sample l t g = some (l', i) ∧ WF (min a t) (max b t) l' ∧ ∀ k f, InTube l' k f ↔ InTube l k f := by
  obtain ⟨l', i, e, hs⟩ := sample_spec (t := t) g h
  refine ⟨l', i, e, hs.wf, fun k f => ?_⟩
  rw [inTube_iff, inTube_iff]
  exact forall_congr' fun t' => hs.same k t' (f t')

/-- the iterator that is returned: the gate at `t` when gates are asked for, otherwise a slice (or gate) that starts at `t`, or the slice that
ends at `t` when `t` is the upper bound of the new domain -/
theorem C45_iterator {a b : τ} {l l' : List (TS τ ι K)} (h : WF a b l) {t : τ} {g : Bool} {i : Nat} (e : sample l t g = some (l', i)) :
    ∃ s, l'[i]? = some s ∧ (g = true → s.lb = t ∧ s.ub = t) ∧ (g = false → s.lb = t ∨ (s.ub = t ∧ b ≤ t)) := by
  obtain ⟨l2, i2, e2, hs⟩ := sample_spec (t := t) g h
  rw [e2] at e
  cases e
  obtain ⟨s, k1, k2⟩ := hs.it
  refine ⟨s, k1, ?_, ?_⟩
  · rintro rfl
    rw [if_pos rfl] at k2
    exact ⟨k2.2, k2.1.symm.trans k2.2⟩
  · rintro rfl
    rw [if_neg (by simp)] at k2
    refine k2.imp id fun h => ⟨h.1, ?_⟩
    rcases h.2 with h | h
    exacts [h.1.le, h.1.ge]

/-- a sequence of calls of `sample` -/
def sampleAll (l : List (TS τ ι K)) (h : List (τ × Bool)) : Option (List (TS τ ι K)) :=
  h.foldl (fun r q => r.bind fun l => (sample l q.1 q.2).map Prod.fst) (some l)

/-- **C45** over histories: any sequence of calls -/
theorem C45_history {a b : τ} {l : List (TS τ ι K)} (h : WF a b l) (calls : List (τ × Bool)) :
    ∃ l' a' b', sampleAll l calls = some l' ∧ WF a' b' l' ∧ a' ≤ a ∧ b ≤ b' ∧ (∀ q ∈ calls, a' ≤ q.1 ∧ q.1 ≤ b') ∧
      ∀ k f, InTube l' k f ↔ InTube l k f := by
  induction calls using List.reverseRecOn with
  | nil => exact ⟨l, a, b, rfl, h, le_rfl, le_rfl, by simp, fun _ _ => Iff.rfl⟩
  | append_singleton c q ih =>
    obtain ⟨l1, a1, b1, e1, w1, k1, k2, k3, k4⟩ := ih
    obtain ⟨l2, i, e2, w2, k5⟩ := C45_sample w1 q.1 q.2
    refine ⟨l2, _, _, ?_, w2, (min_le_left _ _).trans k1, k2.trans (le_max_left _ _), ?_, fun k f => (k5 k f).trans (k4 k f)⟩
    · unfold sampleAll at e1 ⊢
      rw [List.foldl_append, e1]
      simp [e2]
    · intro r hr
      rcases List.mem_append.mp hr with hr | hr
      · exact ⟨(min_le_left _ _).trans (k3 r hr).1, (k3 r hr).2.trans (le_max_left _ _)⟩
      · rw [List.mem_singleton.mp hr]; exact ⟨min_le_right _ _, le_max_right _ _⟩

/-- **C57**, partial: at the instants of the former domain the value of `eval` is the same, except possibly at `t` when `t`
is already the lower bound of a slice without gate (`C57_eval_fails`); missing: equality there -/
theorem C57_eval_partial {a b : τ} {l l' : List (TS τ ι K)} (h : WF a b l) {t : τ} {g : Bool} {i : Nat} (e : sample l t g = some (l', i))
    {t' : τ} (h1 : a ≤ t') (h2 : t' ≤ b) (hne : t' = t → (∃ s ∈ l, s.lb = t ∧ s.ub = t) ∨ ∀ s ∈ l, s.lb ≠ t) (k : ι) (v : K) :
    v ∈ eval k t' l' ↔ v ∈ eval k t' l := by
  obtain ⟨l2, i2, e2, hs⟩ := sample_spec (t := t) g h
  rw [e2] at e
  cases e
  have k1 : min a t ≤ t' := (min_le_left _ _).trans h1
  have k2 : t' ≤ max b t := h2.trans (le_max_left _ _)
  by_cases htt : t' = t
  · subst htt
    rcases hne rfl with ⟨s, hsl, s1, s2⟩ | hno
    · rw [hs.old ⟨s, hsl, s1.trans s2.symm, s1⟩]
    · have hnog : ¬ GateAt l t' := fun ⟨s, hsl, _, s1⟩ => hno s hsl s1
      rcases eval_spec h h1 h2 k with ⟨s, hsl, s1, s2, _⟩ | ⟨_, e1⟩
      · exact absurd ⟨s, hsl, s1, s2⟩ hnog
      rw [e1]
      rcases eval_spec hs.wf k1 k2 k with ⟨s, hsl, s1, s2, e3⟩ | ⟨_, e3⟩
      · rw [e3]
        rcases hs.slice s hsl with h3 | ⟨r, hr, r1, r2, r3, r4⟩ | ⟨_, h4⟩
        · exact absurd s2 (hno s h3)
        · rw [r4]
          exact (h.inner hr (lt_of_le_of_ne r2 (hno r hr)) r3 hno k v).symm
        · exfalso
          rcases h4 with h4 | h4
          · obtain ⟨f, l0, rfl⟩ := List.exists_cons_of_ne_nil h.ne
            exact hno f (by simp) (h.chain.head.trans (le_antisymm h1 h4))
          · exact absurd h4 (not_lt.mpr h2)
      · rw [e3]; exact hs.same k t' v
  · have hgate : GateAt l' t' ↔ GateAt l t' := by
      constructor
      · rintro ⟨s, s1, s2, s3⟩; exact ⟨s, (hs.gates s s2 (s3 ▸ htt)).mp s1, s2, s3⟩
      · rintro ⟨s, s1, s2, s3⟩; exact ⟨s, (hs.gates s s2 (s3 ▸ htt)).mpr s1, s2, s3⟩
    rcases eval_spec h h1 h2 k with ⟨s, s1, s2, s3, e1⟩ | ⟨n1, e1⟩ <;> rcases eval_spec hs.wf k1 k2 k with ⟨r, r1, r2, r3, e3⟩ | ⟨n3, e3⟩
    · have hr := (hs.gates r r2 (r3 ▸ htt)).mp r1
      rw [h.gate_unique s1 hr s2 r2 (s3.trans r3.symm)] at e1
      rw [e1, e3]
    · exact absurd (hgate.mpr ⟨s, s1, s2, s3⟩) n3
    · exact absurd (hgate.mp ⟨r, r1, r2, r3⟩) n1
    · rw [e1, e3]; exact hs.same k t' v

/-- no evaluation loses a value: a value of the slices is still a value of the evaluation -/
theorem C57_eval_sound {a b : τ} {l l' : List (TS τ ι K)} (h : WF a b l) {t : τ} {g : Bool} {i : Nat} (e : sample l t g = some (l', i))
    (k : ι) (f : τ → K) (hf : InTube l k f) {t' : τ} (h1 : min a t ≤ t') (h2 : t' ≤ max b t) : f t' ∈ eval k t' l' := by
  obtain ⟨l2, i2, e2, hs⟩ := sample_spec (t := t) g h
  rw [e2] at e
  cases e
  have hal : Allows l' k t' (f t') := (hs.same k t' (f t')).mpr fun s hs h1 h2 => hf s hs t' h1 h2
  rcases eval_spec hs.wf h1 h2 k with ⟨s, s1, s2, s3, e1⟩ | ⟨_, e1⟩
  · rw [e1]; exact hal s s1 s3.le (by rw [← s3]; exact s2.le)
  · rw [e1]; exact hal

/-- two slices `[0,1]` and `[1,2]` of one tube, of codomains `[0,2]` and `[1,3]` -/
def tdomEx : List (TS ℚ Unit ℚ) := [⟨0, 1, fun _ => .icc 0 2⟩, ⟨1, 2, fun _ => .icc 1 3⟩]

theorem tdomEx_wf : WF 0 2 tdomEx := by
  refine ⟨by simp [tdomEx], ⟨rfl, by norm_num, rfl, by norm_num, rfl⟩, ?_⟩
  simp [OneGate, tdomEx, TS.IsGate]

/-- sampling with a gate at an instant where two slices already meet changes the evaluation: the gate has the codomain of the next slice,
not its intersection with the codomain of the previous one. Sampling at the lower bound of the domain makes an unbounded gate -/
theorem C57_eval_fails :
    (sample tdomEx 1 true).map (fun r => decide (5 / 2 ∈ eval () 1 r.1)) = some true ∧ (5 / 2 : ℚ) ∉ eval () 1 tdomEx ∧
      (sample tdomEx 0 true).map (fun r => decide (100 ∈ eval () 0 r.1)) = some true ∧ (100 : ℚ) ∉ eval () 0 tdomEx := by
  decide +kernel

/-- without gates asked for, no gate appears, except at the lower bound of the domain -/
theorem C57_nogate_partial {a b : τ} {l l' : List (TS τ ι K)} (h : WF a b l) {t : τ} {i : Nat} (e : sample l t false = some (l', i))
    (ht : t ≠ a) : ∀ s ∈ l', s.lb = s.ub → s ∈ l := by
  obtain ⟨l2, i2, e2, hs⟩ := sample_spec (t := t) false h
  rw [e2] at e
  cases e
  exact hs.nogate rfl ht

/-- `sample(t, false)` at the lower bound of the domain inserts a gate -/
theorem C57_nogate_fails : (sample tdomEx 0 false).map (fun r => r.1.map fun s => (s.lb, s.ub)) = some [(0, 0), (0, 1), (1, 2)] := by
  decide +kernel

/-- `delete_gates` keeps the slices adjacent, and every trajectory of every tube, as long as a slice is not a gate -/
theorem C58_delete_gates {a b : τ} {l : List (TS τ ι K)} (h : WF a b l) (hab : a < b) :
    WF a b (deleteGates l) ∧ (∀ s ∈ deleteGates l, s.lb < s.ub) ∧
      ∀ k f, InTube (deleteGates l) k f ↔ ∀ s ∈ l, s.lb < s.ub → ∀ t, s.lb ≤ t → t ≤ s.ub → f t ∈ s.val k := by
  have hc := h.chain.filter
  have hmem : ∀ s, s ∈ deleteGates l ↔ s ∈ l ∧ s.lb < s.ub := by
    intro s
    unfold deleteGates
    rw [List.mem_filter]
    simp only [Bool.not_eq_true', decide_eq_false_iff_not]
    constructor
    · rintro ⟨h1, h2⟩; exact ⟨h1, lt_of_le_of_ne (h.chain.mem h1).2.1 h2⟩
    · rintro ⟨h1, h2⟩; exact ⟨h1, h2.ne⟩
  refine ⟨⟨?_, hc, h.gates.sublist List.filter_sublist⟩, fun s hs => ((hmem s).mp hs).2, fun k f => ?_⟩
  · intro e
    rw [e] at hc
    have hc : a = b := hc
    exact hab.ne hc
  · constructor
    · intro hf s hs hlt; exact hf s ((hmem s).mpr ⟨hs, hlt⟩)
    · intro hf s hs; exact hf s ((hmem s).mp hs).1 ((hmem s).mp hs).2

/-- `delete_gates` on a domain reduced to an instant leaves no slice: any later call is undefined -/
theorem C58_delete_gates_fails : ∃ l : List (TS ℚ Unit ℚ), WF 1 1 l ∧ deleteGates l = [] ∧ ∀ t g, sample (deleteGates l) t g = none :=
  ⟨[⟨1, 1, fun _ => ⊤⟩], ⟨by simp, ⟨rfl, le_rfl, rfl⟩, by simp [OneGate]⟩, rfl, fun _ _ => rfl⟩

section Field
variable [Field K] [IsStrictOrderedRing K] [Archimedean K]

/-- the constructor `TDomain(t0_tf, dt, with_gates)` ends; it gives adjacent slices on `[t0,tf]`, not longer than `dt`, with gates at all
their bounds or no gate at all -/
theorem C58_constructor {t0 tf dt : K} (h : t0 < tf) (hdt : 0 < dt) (g : Bool) :
    ∃ N, ∃ l : List (TS K ι K), (∀ n ≥ N, buildN n t0 tf dt g = some l) ∧ WF t0 tf l ∧ (∀ s ∈ l, s.ub - s.lb ≤ dt) ∧
      (g = false → ∀ s ∈ l, s.lb < s.ub) ∧
      (g = true → ∀ s ∈ l, (∃ r ∈ l, r.lb = r.ub ∧ r.lb = s.lb) ∧ ∃ r ∈ l, r.lb = r.ub ∧ r.lb = tf) := by
  obtain ⟨n, hn⟩ := Archimedean.arch (tf - t0) hdt
  rw [nsmul_eq_mul] at hn
  obtain ⟨l, e, w, _, k2, k3, k4⟩ := buildN_spec (ι := ι) hdt g n t0 h hn
  refine ⟨n, l, fun m hm => ?_, w, k4, fun hg s hs => ?_, fun hg s hs => ?_⟩
  · obtain ⟨d, rfl⟩ := Nat.exists_eq_add_of_le hm
    exact e d
  · exact lt_of_le_of_ne (w.chain.mem hs).2.1 (k2 s hs hg)
  · exact ⟨(k3 hg).2 s hs, (k3 hg).1⟩

/-- `sample(t0_tf, dt, with_gates)` inside the domain, for `dt > 0`: it ends, and every tube contains the same trajectories -/
theorem C58_interval_partial {a b : K} {l : List (TS K ι K)} (h : WF a b l) {t0 tf dt : K} (h1 : a ≤ t0) (h2 : t0 ≤ tf) (h3 : tf ≤ b) (hdt : 0 < dt)
    (g : Bool) : ∃ N l', (∀ n ≥ N, sampleItvN n l t0 tf dt g = some l') ∧ WF a b l' ∧ ∀ k f, InTube l' k f ↔ InTube l k f := by
  obtain ⟨n, hn⟩ := Archimedean.arch (tf + dt - t0) hdt
  rw [nsmul_eq_mul] at hn
  obtain ⟨l', e, w, hs⟩ := sampleItvN_spec hdt g n l a b t0 h h1 h3 (h1.trans h2) hn
  refine ⟨n + 1, l', fun m hm => ?_, w, fun k f => ?_⟩
  · obtain ⟨d, rfl⟩ := Nat.exists_eq_add_of_le hm
    exact e d
  · rw [inTube_iff, inTube_iff]
    exact forall_congr' fun t' => hs k t' (f t')

end Field

/-- `dt = 0` is accepted by the assertion of `sample(t0_tf, dt, with_gates)`; the loop never ends -/
theorem C58_interval_fails (l : List (TS ℚ Unit ℚ)) (n : Nat) (g : Bool) : sampleItvN n l 0 1 0 g = none := by
  induction n generalizing l with
  | zero => rfl
  | succ n ih =>
    rw [sampleItvN, if_pos (by norm_num)]
    cases sample l (min 1 0) g with
    | none => rfl
    | some r => rw [add_zero]; exact ih r.1

/-- sampling before, in and after the domain -/
example : (sampleAll tdomEx [(1 / 2, true), (-1, true), (3, false)]).map (fun l => l.map fun s => (s.lb, s.ub)) =
    some [(-1, -1), (-1, 0), (0, 1 / 2), (1 / 2, 1 / 2), (1 / 2, 1), (1, 2), (2, 3)] := by decide +kernel

example : (buildN 5 0 1 (2 / 5) true : Option (List (TS ℚ Unit ℚ))).map (fun l => l.map fun s => (s.lb, s.ub)) =
    some [(0, 0), (0, 2 / 5), (2 / 5, 2 / 5), (2 / 5, 4 / 5), (4 / 5, 4 / 5), (4 / 5, 1), (1, 1)] := by decide +kernel

/-- the hypotheses of the theorems are met: a trajectory of the tube, an instant which is not a bound -/
example : InTube tdomEx () (fun t => t + 1 / 2) := by
  intro s hs t h1 h2
  simp only [tdomEx, List.mem_cons, List.not_mem_nil, or_false] at hs
  rcases hs with rfl | rfl
  all_goals
    simp only at h1 h2 ⊢
    rw [Itv.mem_icc]
    constructor <;> linarith

example : ∀ s ∈ tdomEx, s.lb ≠ 1 / 2 := by decide +kernel

/-- the default domain `[-oo,oo]` -/
def timeAt (q : ℚ) : WithBot (WithTop ℚ) := ((q : WithTop ℚ) : WithBot (WithTop ℚ))

example : (sample ([⟨⊥, ⊤, fun _ => ⊤⟩] : List (TS (WithBot (WithTop ℚ)) Unit ℚ)) (timeAt 3) true).map
    (fun r => (r.1.map fun s => (s.lb, s.ub), r.2)) = some ([(⊥, timeAt 3), (timeAt 3, timeAt 3), (timeAt 3, ⊤)], 1) := by decide +kernel

end Codac.Props
