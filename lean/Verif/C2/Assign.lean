import Verif.C2.Tube

/-!
# Tubes of codac2: assignment at an instant or on an interval, setting of the whole tube
-/

set_option linter.unusedSectionVars false

namespace Codac.C2

variable {τ ι K : Type*} [LinearOrder τ] [LinearOrder K] [DecidableEq ι]

/-- at `t`, the slices of the tube `k` that are not gates allow the value `v` -/
def AllowsN (l : List (TS τ ι K)) (k : ι) (t : τ) (v : K) : Prop := ∀ s ∈ l, ¬ s.IsGate → s.lb ≤ t → t ≤ s.ub → v ∈ s.val k

/-- sampling does not change what the slices other than gates allow -/
theorem sampleBody_allowsN {a b t : τ} {l l' : List (TS τ ι K)} {g ag : Bool} {i : Nat} (h : WF a b l)
    (e : sampleBody l t g = some (l', i, ag)) (k : ι) (t' : τ) (v : K) : AllowsN l' k t' v ↔ AllowsN l k t' v := by
  obtain ⟨hne, hc, hg⟩ := h
  obtain ⟨f, l0, rfl⟩ := List.exists_cons_of_ne_nil hne
  have hf := hc.head
  obtain ⟨z, hz⟩ : ∃ e, (f :: l0).getLast? = some e := ⟨_, List.getLast?_eq_some_getLast (by simp)⟩
  have hub := hc.last hz
  have top : ∀ (s : TS τ ι K) (m m' : List (TS τ ι K)), (s.val = fun _ => ⊤) → (∀ r, r ∈ m' ↔ r = s ∨ r ∈ m) →
      (AllowsN m' k t' v ↔ AllowsN m k t' v) := by
    intro s m m' hs hm
    refine ⟨fun ha r hr => ha r ((hm r).mpr (.inr hr)), fun ha r hr hrg h1 h2 => ?_⟩
    rcases (hm r).mp hr with rfl | hr
    · rw [hs]; exact Itv.mem_top v
    · exact ha r hr hrg h1 h2
  unfold sampleBody at e
  simp only [List.head?_cons, hz, hf, hub] at e
  by_cases h1 : t ≤ a
  · rw [if_pos h1] at e
    by_cases h2 : f.IsGate ∧ a = t
    · rw [if_pos h2] at e
      simp only [Option.some.injEq, Prod.mk.injEq] at e
      rw [← e.1]
    · rw [if_neg h2] at e
      simp only [Option.some.injEq, Prod.mk.injEq] at e
      rw [← e.1]
      exact top _ _ _ rfl fun r => List.mem_cons
  · rw [if_neg h1] at e
    by_cases h2 : b < t
    · rw [if_pos h2] at e
      simp only [Option.some.injEq, Prod.mk.injEq] at e
      rw [← e.1]
      exact top _ _ _ rfl fun r => by rw [List.mem_append, List.mem_singleton, or_comm]
    · rw [if_neg h2] at e
      obtain ⟨p, s, q, e1, e2, e3, e4, e5, e6⟩ := iter_spec hne hc (not_le.mp h1).le (not_lt.mp h2)
      rw [e2] at e
      rw [e1, getElem?_mid] at e
      dsimp only at e
      have hcut : ¬ s.IsGate → (AllowsN (p ++ { s with ub := t } :: { s with lb := t } :: q) k t' v ↔ AllowsN (p ++ s :: q) k t' v) := by
        intro hsg
        unfold AllowsN
        simp only [List.mem_append, List.mem_cons]
        constructor
        · rintro h r (hr | rfl | hr) a0 a1 a2
          · exact h r (.inl hr) a0 a1 a2
          · rcases lt_trichotomy t' t with h' | rfl | h'
            · exact h { r with ub := t } (.inr (.inl rfl)) (fun hh => absurd (a1.trans_lt h') (by have hh : r.lb = t := hh; rw [hh]; exact lt_irrefl _))
                a1 h'.le
            · by_cases hl : r.lb = t'
              · exact h { r with lb := t' } (.inr (.inr (.inl rfl))) (fun hh => hsg (by have hh : t' = r.ub := hh; exact hl.trans hh)) (le_refl _) a2
              · exact h { r with ub := t' } (.inr (.inl rfl)) hl a1 (le_refl _)
            · exact h { r with lb := t } (.inr (.inr (.inl rfl))) (fun hh => absurd (h'.trans_le a2) (by have hh : t = r.ub := hh; rw [hh]; exact lt_irrefl _))
                h'.le a2
          · exact h r (.inr (.inr (.inr hr))) a0 a1 a2
        · rintro h r (hr | rfl | rfl | hr) a0 a1 a2
          · exact h r (.inl hr) a0 a1 a2
          · exact h s (.inr (.inl rfl)) hsg a1 (le_trans a2 e4)
          · exact h s (.inr (.inl rfl)) hsg (le_trans e3 a1) a2
          · exact h r (.inr (.inr hr)) a0 a1 a2
      by_cases h3 : s.IsGate ∨ (g = false ∧ (s.lb = t ∨ t = b))
      · rw [if_pos h3] at e
        simp only [Option.some.injEq, Prod.mk.injEq] at e
        rw [e1, ← e.1]
      · rw [if_neg h3, cut_mid] at e
        rw [not_or] at h3
        split at e
        all_goals
          simp only [Option.some.injEq, Prod.mk.injEq] at e
          rw [e1, ← e.1]
          exact hcut h3.1

theorem sampleN_allowsN {t : τ} {k : ι} {t' : τ} {v : K} : ∀ (n : Nat) {a b : τ} {l l' : List (TS τ ι K)} {g : Bool} {i : Nat}, WF a b l →
    sampleN n l t g = some (l', i) → (AllowsN l' k t' v ↔ AllowsN l k t' v)
  | 0, _, _, _, _, _, _, _, e => by simp [sampleN] at e
  | n + 1, a, b, l, l', g, i, h, e => by
    obtain ⟨l1, i1, ag, e1, hs⟩ := sampleBody_spec (t := t) g h
    rw [sampleN, e1] at e
    dsimp only at e
    have h1 := sampleBody_allowsN h e1 k t' v
    cases ag with
    | false =>
      simp only [Bool.false_eq_true, if_false, Option.some.injEq, Prod.mk.injEq] at e
      rw [← e.1]; exact h1
    | true =>
      rw [if_pos rfl] at e
      exact (sampleN_allowsN n hs.wf e).trans h1

/-- `x(t) = v`: at `t`, the gate; nothing changes elsewhere -/
theorem assignAt_instant {t0 tf t : τ} {l : List (TS τ ι K)} (h : WF t0 tf l) (k : ι) (x : Itv K) :
    ∃ l', assignAt k x t t l = some l' ∧ Chain (min t0 t) l' (max tf t) ∧
      ∀ f : τ → K, Encl l' k f ↔ f t ∈ x ∧ AllowsN l k t (f t) ∧ ∀ t' ≠ t, Allows l k t' (f t') := by
  obtain ⟨l1, i, e1, hs⟩ := sample_spec (t := t) true h
  obtain ⟨s, hi, hsg, hst⟩ := hs.it
  refine ⟨setSlice k x i l1, by rw [assignAt, if_pos rfl, e1]; rfl, (setSlice_same k x i l1).chain hs.wf.chain, fun f => ?_⟩
  have hn := fun v => sampleN_allowsN (k := k) (t' := t) (v := v) 3 h e1
  rw [setSlice_encl' hi hs.wf.chain, ← hn]
  have hsm : s ∈ l1 := List.mem_of_getElem? hi
  have hub : s.ub = t := by rw [← hst]; exact Eq.symm hsg
  -- the other slices at position `j`
  have hj : ∀ j r, l1[j]? = some r → r.IsGate → r.lb = t → j = i := by
    intro j r hj hrg hrt
    by_contra hne
    obtain ⟨j1, j2⟩ := List.getElem?_eq_some_iff.mp hj
    obtain ⟨i1, i2⟩ := List.getElem?_eq_some_iff.mp hi
    have hp := List.pairwise_iff_getElem.mp hs.wf.gates
    rcases lt_or_gt_of_ne hne with hlt | hlt
    · have := hp j i j1 i1 hlt
      rw [j2, i2] at this
      exact this ⟨hrg, hsg, hrt.trans hst.symm⟩
    · have := hp i j i1 j1 hlt
      rw [j2, i2] at this
      exact this ⟨hsg, hrg, hst.trans hrt.symm⟩
  constructor
  · rintro ⟨h1, h2⟩
    refine ⟨h1 t hst.le hub.ge, ?_, fun t' ht' => ?_⟩
    · intro r hr hrg r1 r2
      obtain ⟨j, hj'⟩ := List.mem_iff_getElem?.mp hr
      refine h2 j r ?_ hj' t r1 r2
      rintro rfl
      rw [hi, Option.some.injEq] at hj'
      exact hrg (hj' ▸ hsg)
    · rw [← hs.same]
      intro r hr r1 r2
      obtain ⟨j, hj'⟩ := List.mem_iff_getElem?.mp hr
      refine h2 j r ?_ hj' t' r1 r2
      rintro rfl
      rw [hi, Option.some.injEq] at hj'
      rw [← hj'] at r1 r2
      exact ht' (le_antisymm (r2.trans hub.le) (hst.ge.trans r1))
  · rintro ⟨h1, h2, h3⟩
    refine ⟨fun t' t1 t2 => ?_, fun j r hne hr t' r1 r2 => ?_⟩
    · have : t' = t := le_antisymm (t2.trans hub.le) (hst.ge.trans t1)
      rw [this]; exact h1
    · by_cases ht' : t' = t
      · rw [ht'] at r1 r2 ⊢
        refine h2 r (List.mem_of_getElem? hr) (fun hrg => hne (hj j r hr hrg ?_)) r1 r2
        exact le_antisymm r1 (r2.trans (Eq.symm hrg).le)
      · exact (hs.same k t' (f t')).mpr (h3 t' ht') r (List.mem_of_getElem? hr) r1 r2

/-! ### On an interval -/

/-- the positions are kept by a sampling after them -/
theorem sampleBody_pos {a b t : τ} {l l' : List (TS τ ι K)} {ag : Bool} {i : Nat} (h : WF a b l) (hat : a < t)
    (e : sampleBody l t false = some (l', i, ag)) {j : Nat} {s : TS τ ι K} (hj : l[j]? = some s) (hs : s.lb < t) :
    ∃ s', l'[j]? = some s' ∧ s'.lb = s.lb ∧ (s'.ub = s.ub ∨ (s'.ub = t ∧ t ≤ s.ub)) := by
  obtain ⟨hne, hc, hg⟩ := h
  obtain ⟨f, l0, rfl⟩ := List.exists_cons_of_ne_nil hne
  have hf := hc.head
  obtain ⟨z, hz⟩ : ∃ e, (f :: l0).getLast? = some e := ⟨_, List.getLast?_eq_some_getLast (by simp)⟩
  have hub := hc.last hz
  unfold sampleBody at e
  simp only [List.head?_cons, hz, hf, hub] at e
  rw [if_neg (not_le.mpr hat)] at e
  by_cases h2 : b < t
  · rw [if_pos h2] at e
    simp only [Option.some.injEq, Prod.mk.injEq] at e
    rw [← e.1]
    exact ⟨s, by rw [List.getElem?_append_left (List.getElem?_eq_some_iff.mp hj).1]; exact hj, rfl, .inl rfl⟩
  · rw [if_neg h2] at e
    obtain ⟨p, r, q, e1, e2, e3, e4, e5, e6⟩ := iter_spec hne hc hat.le (not_lt.mp h2)
    rw [e2] at e
    rw [e1, getElem?_mid] at e
    dsimp only at e
    by_cases h3 : r.IsGate ∨ (False = False ∧ (r.lb = t ∨ t = b))
    · rw [if_pos (by simpa using h3)] at e
      simp only [Option.some.injEq, Prod.mk.injEq] at e
      rw [← e.1, ← e1]
      exact ⟨s, hj, rfl, .inl rfl⟩
    · rw [if_neg (by simpa using h3), cut_mid] at e
      have e' : l' = p ++ { r with ub := t } :: { r with lb := t } :: q := by
        split at e <;> simp only [Option.some.injEq, Prod.mk.injEq] at e <;> exact e.1.symm
      rw [e']
      rw [e1] at hj
      rcases lt_trichotomy j p.length with hlt | rfl | hlt
      · rw [List.getElem?_append_left hlt] at hj ⊢
        exact ⟨s, hj, rfl, .inl rfl⟩
      · rw [getElem?_mid, Option.some.injEq] at hj
        subst hj
        exact ⟨_, getElem?_mid _ _ _, rfl, .inr ⟨rfl, e4⟩⟩
      · rw [List.getElem?_append_right hlt.le] at hj
        obtain ⟨m, hm⟩ : ∃ m, j - p.length = m + 1 := ⟨j - p.length - 1, by omega⟩
        rw [hm, List.getElem?_cons_succ] at hj
        have := (around (e1 ▸ hc)).2 s (List.mem_of_getElem? hj)
        exact absurd (hs.trans_le (e4.trans this)) (lt_irrefl _)

theorem sampleBody_len {t : τ} {l l' : List (TS τ ι K)} {g ag : Bool} {i : Nat} (e : sampleBody l t g = some (l', i, ag)) :
    l.length ≤ l'.length := by
  unfold sampleBody at e
  split at e
  · split at e
    · split at e <;> (simp only [Option.some.injEq, Prod.mk.injEq] at e; rw [← e.1]; try simp)
    · split at e
      · simp only [Option.some.injEq, Prod.mk.injEq] at e
        rw [← e.1]; simp
      · split at e
        · simp at e
        · rename_i s hs
          have hlt := (List.getElem?_eq_some_iff.mp hs).1
          split at e
          · simp only [Option.some.injEq, Prod.mk.injEq] at e
            rw [← e.1]
          · split at e <;> simp only [Option.some.injEq, Prod.mk.injEq] at e <;> rw [← e.1] <;> unfold cut <;>
              simp only [List.length_append, List.length_cons, List.length_take, List.length_drop] <;> omega
  · simp at e

theorem sample_false {a b t : τ} {l l' : List (TS τ ι K)} {i : Nat} (h : WF a b l) (e : sample l t false = some (l', i)) :
    sampleBody l t false = some (l', i, false) := by
  obtain ⟨l1, i1, ag, e1, hs⟩ := sampleBody_spec (t := t) false h
  have hag : ag = false := by
    cases ag with
    | false => rfl
    | true => exact absurd (hs.again_g rfl) (by simp)
  subst hag
  unfold sample at e
  rw [sampleN, e1] at e
  simp only [Bool.false_eq_true, if_false, Option.some.injEq, Prod.mk.injEq] at e
  rw [e1, e.1, e.2]

/-- the loop visits consecutive slices -/
theorem setLoop_eq (k : ι) (x : Itv K) (j : Nat) : ∀ (n i : Nat) (l : List (TS τ ι K)), i < l.length → l.length - i ≤ n →
    setLoop k x j n i l = (List.range' i (if i ≤ j then min (j + 1) l.length - i else l.length - i)).foldl (fun l i => setSlice k x i l) l
  | 0, i, l, h, hn => by omega
  | n + 1, i, l, h, hn => by
    rw [setLoop]
    have hlen := (setSlice_same k x i l).length
    rw [hlen]
    by_cases h1 : i ≠ j ∧ i + 1 < l.length
    · rw [if_pos h1, setLoop_eq k x j n (i + 1) _ (by rw [hlen]; omega) (by rw [hlen]; omega), hlen]
      have : (if i ≤ j then min (j + 1) l.length - i else l.length - i) = (if i + 1 ≤ j then min (j + 1) l.length - (i + 1) else l.length - (i + 1)) + 1 := by
        split <;> split <;> omega
      rw [this, List.range'_succ, List.foldl_cons]
    · rw [if_neg h1]
      have : (if i ≤ j then min (j + 1) l.length - i else l.length - i) = 1 := by
        split <;> omega
      rw [this]
      rfl

theorem Chain.split_lb {a b : τ} {l : List (TS τ ι K)} (h : Chain a l b) {i : Nat} {s : TS τ ι K} (hi : l[i]? = some s) :
    Chain a (l.take i) s.lb ∧ Chain s.lb (l.drop i) b ∧ Chain a (l.take (i + 1)) s.ub ∧ Chain s.ub (l.drop (i + 1)) b := by
  obtain ⟨h1, h2⟩ := List.getElem?_eq_some_iff.mp hi
  have e : l = l.take i ++ s :: l.drop (i + 1) := by rw [← h2, List.getElem_cons_drop, List.take_append_drop]
  obtain ⟨c, c1, c2, c3, c4⟩ := Chain.append.mp (e ▸ h)
  subst c2
  have e2 : l.drop i = s :: l.drop (i + 1) := by rw [← h2, List.getElem_cons_drop]
  have e3 : l.take (i + 1) = l.take i ++ [s] := by rw [List.take_add_one, hi]; rfl
  exact ⟨c1, by rw [e2]; exact ⟨rfl, c3, c4⟩, by rw [e3]; exact Chain.append.mpr ⟨_, c1, rfl, c3, rfl⟩, c4⟩

/-- `x([a,b]) = v` for `a < b`: the slices that are set start at `a`; when there is something after `b`, or a gate at `b`, they end at `b` -/
theorem assignAt_form {t0 tf a b : τ} {l : List (TS τ ι K)} (h : WF t0 tf l) (hab : a < b) (k : ι) (x : Itv K) :
    ∃ l2 i m, assignAt k x a b l = some ((List.range' i m).foldl (fun l i => setSlice k x i l) l2) ∧
      WF (min t0 a) (max tf b) l2 ∧ (∀ k t v, Allows l2 k t v ↔ Allows l k t v) ∧ Chain (min t0 a) (l2.take i) a ∧ Chain a (l2.drop i) (max tf b) ∧
      i + m ≤ l2.length ∧ ((b < tf ∨ GateAt l b) → Chain b (l2.drop (i + m)) (max tf b)) := by
  obtain ⟨l1, i1, e1, hs1⟩ := sample_spec (t := a) false h
  obtain ⟨l2, i2, e2, hs2⟩ := sample_spec (t := b) false hs1.wf
  have hmin : min (min t0 a) b = min t0 a := min_eq_left ((min_le_right _ _).trans hab.le)
  have hmax : max (max tf a) b = max tf b := by rw [max_assoc, max_eq_right hab.le]
  have hwf := hs2.wf
  rw [hmin, hmax] at hwf
  have hsame : ∀ k t v, Allows l2 k t v ↔ Allows l k t v := fun k t v => (hs2.same k t v).trans (hs1.same k t v)
  -- the first slice to set
  obtain ⟨s1, hi1, h1⟩ := hs1.it
  rw [if_neg (by simp)] at h1
  have hlb1 : s1.lb < b := by
    rcases h1 with h1 | h1
    · rw [h1]; exact hab
    · exact ((hs1.wf.chain.mem (List.mem_of_getElem? hi1)).2.1.trans h1.1.le).trans_lt hab
  have hlt : min t0 a < b := (min_le_right _ _).trans_lt hab
  obtain ⟨r1, hr1, r1lb, r1ub⟩ := sampleBody_pos hs1.wf hlt (sample_false hs1.wf e2) hi1 hlb1
  have hr1' : r1.lb = a ∨ r1.ub = a := by
    rcases h1 with h1 | h1
    · exact .inl (r1lb.trans h1)
    · rcases r1ub with r | ⟨_, r⟩
      · exact .inr (r.trans h1.1)
      · exact absurd (hab.trans_le (r.trans h1.1.le)) (lt_irrefl _)
  obtain ⟨ca, cb, cc, cd⟩ := hwf.chain.split_lb hr1
  obtain ⟨i, hi, hca, hcb⟩ : ∃ i, i = (if (l2[i1]?.map fun s => s.ub) = some a then i1 + 1 else i1) ∧
      Chain (min t0 a) (l2.take i) a ∧ Chain a (l2.drop i) (max tf b) := by
    refine ⟨_, rfl, ?_⟩
    rw [hr1]
    by_cases hu : r1.ub = a
    · rw [if_pos (by rw [Option.map_some, hu])]
      rw [hu] at cc cd
      exact ⟨cc, cd⟩
    · rw [if_neg (by rw [Option.map_some, Option.some.injEq]; exact hu)]
      rw [hr1'.resolve_right hu] at ca cb
      exact ⟨ca, cb⟩
  have hilt : i < l2.length := by
    by_contra hge
    rw [not_lt] at hge
    rw [List.drop_eq_nil_of_le hge] at hcb
    have hcb : a = max tf b := hcb
    exact absurd (hab.trans_le ((le_max_right tf b).trans hcb.ge)) (lt_irrefl _)
  -- the slice after the last one to set
  obtain ⟨s2, hi2, h2⟩ := hs2.it
  rw [if_neg (by simp)] at h2
  obtain ⟨da, db, dc, dd⟩ := hwf.chain.split_lb hi2
  -- in the good case, it starts at b
  have good : (b < tf ∨ GateAt l b) → s2.lb = b := by
    intro hgood
    rcases h2 with h2 | ⟨hu, ⟨h3, h4⟩ | ⟨h3, h4⟩⟩
    · exact h2
    · rcases hgood with hgood | ⟨r, hr, hrg, hrb⟩
      · exact absurd (h3.trans (hgood.trans_le (le_max_left tf a))) (lt_irrefl _)
      · have := (h.chain.mem hr).2
        exact absurd (h3.trans_le (hrb.ge.trans (this.1.trans (this.2.trans (le_max_left tf a))))) (lt_irrefl _)
    · rcases hgood with hgood | ⟨r, hr, hrg, hrb⟩
      · exact absurd (hgood.trans_le ((le_max_left tf a).trans h3.ge)) (lt_irrefl _)
      · have hr2 : r ∈ l2 := by
          have hr1 : r ∈ l1 := (hs1.gates r hrg (by rw [hrb]; exact hab.ne')).mpr hr
          rwa [hs2.old ⟨r, hr1, hrg, hrb⟩]
        -- the last slice ends at b and so does r
        obtain ⟨p, hp⟩ := List.getLast?_eq_some_iff.mp h4
        rw [hp] at hr2
        rcases List.mem_append.mp hr2 with hr2 | hr2
        · have hc2 := hwf.chain
          rw [hp] at hc2
          have h5 := (around hc2).1 r hr2
          have h6 : b ≤ s2.lb := (hrb.ge.trans (Eq.le hrg)).trans h5
          have h7 := (hwf.chain.mem (List.mem_of_getElem? hi2)).2.1
          exact le_antisymm (h7.trans hu.le) h6
        · rw [List.mem_singleton] at hr2
          rw [← hr2, hrb]
  -- its position is not the first
  have hi2pos : i2 ≠ 0 := by
    rintro rfl
    have da : min t0 a = s2.lb := by simpa [Chain] using da
    rcases h2 with h2 | ⟨hu, ⟨h3, h4⟩ | ⟨h3, h4⟩⟩
    · exact absurd hlt (by rw [da, h2]; exact lt_irrefl _)
    · -- appended after a nonempty list
      have hbody := sample_false hs1.wf e2
      have h5 := (hs1.wf.chain.le)
      rw [← h4, ← da] at h5
      -- all slices of l1 are in [s2.lb, s2.lb] : l1 is one gate
      have : l1[0]? = some (l1.head hs1.wf.ne) := by rw [← List.head?_eq_getElem?, List.head?_eq_some_head]
      obtain ⟨f, l0, e⟩ := List.exists_cons_of_ne_nil hs1.wf.ne
      obtain ⟨z, hz⟩ : ∃ e, (f :: l0).getLast? = some e := ⟨_, List.getLast?_eq_some_getLast (by simp)⟩
      unfold sampleBody at hbody
      have hcc := hs1.wf.chain
      rw [e] at hbody hcc
      simp only [List.head?_cons, hz, hcc.head, hcc.last hz] at hbody
      rw [if_neg (not_le.mpr hlt), if_pos h3] at hbody
      simp at hbody
    · -- a single slice
      obtain ⟨p, hp⟩ := List.getLast?_eq_some_iff.mp h4
      have hsing : l2 = [s2] := by
        cases p with
        | nil => exact hp
        | cons r p =>
          exfalso
          have hr : r = s2 := by rw [hp] at hi2; simpa using hi2
          have hc2 := hwf.chain
          rw [hp, hr] at hc2
          have h5 := (around (p := s2 :: p) (q := []) hc2).1 s2 (by simp)
          have h6 := (hwf.chain.mem (List.mem_of_getElem? hi2)).2.1
          have h7 := da.trans (le_antisymm h6 h5)
          rw [hu] at h7
          exact absurd hlt (by rw [h7]; exact lt_irrefl _)
      -- then l1 is this slice, so a = t0 and l1 starts with a gate at a
      have hi1z : i1 = 0 := by
        have := (List.getElem?_eq_some_iff.mp hr1).1
        rw [hsing] at this
        simpa using this
      have hr1s : r1 = s2 := by rw [hi1z, hsing] at hr1; simpa using hr1.symm
      rcases hr1' with hh | hh
      · -- s2.lb = a
        have hga : a ≤ t0 := by rw [hr1s] at hh; rw [← hh, ← da]; exact min_le_left _ _
        have hbody := sample_false h e1
        obtain ⟨f, l0, rfl⟩ := List.exists_cons_of_ne_nil h.ne
        obtain ⟨z, hz⟩ : ∃ e, (f :: l0).getLast? = some e := ⟨_, List.getLast?_eq_some_getLast (by simp)⟩
        unfold sampleBody at hbody
        simp only [List.head?_cons, hz, h.chain.head, h.chain.last hz] at hbody
        rw [if_pos hga] at hbody
        have hlen : l2.length = 1 := by rw [hsing]; rfl
        have hle := sampleBody_len (sample_false hs1.wf e2)
        by_cases hgf : f.IsGate ∧ t0 = a
        · rw [if_pos hgf] at hbody
          simp only [Option.some.injEq, Prod.mk.injEq] at hbody
          have hl0 : l0 = [] := by
            rw [← hbody.1, hlen] at hle
            exact List.length_eq_zero_iff.mp (by simpa using hle)
          subst hl0
          have hft : f.ub = tf := h.chain.2.2
          have hfa : f.lb = a := h.chain.head.trans hgf.2
          have htf : tf = a := by rw [← hft, ← hfa]; exact Eq.symm hgf.1
          rw [htf, max_self] at h3
          exact absurd hab (by rw [h3]; exact lt_irrefl _)
        · rw [if_neg hgf] at hbody
          simp only [Option.some.injEq, Prod.mk.injEq] at hbody
          rw [← hbody.1, hlen] at hle
          simp at hle
      · rw [hr1s, hu] at hh
        exact absurd hab (by rw [hh]; exact lt_irrefl _)
  have hil := (List.getElem?_eq_some_iff.mp hi2).1
  refine ⟨l2, i, if i ≤ i2 - 1 then min (i2 - 1 + 1) l2.length - i else l2.length - i, ?_, hwf, hsame, hca, hcb, ?_, ?_⟩
  · rw [assignAt, if_neg hab.ne, e1, Option.bind_some, e2, Option.bind_some]
    dsimp only
    rw [if_neg hi2pos, ← hi, if_pos hilt, setLoop_eq k x _ _ _ _ hilt (by omega)]
  · split <;> omega
  · intro hgood
    have hb := good hgood
    rw [hb] at da db
    have hlt2 : i < i2 := by
      by_contra hge
      rw [not_lt] at hge
      have : Chain a (l2.drop i) (max tf b) := hcb
      have e : l2.drop i = (l2.drop i2).drop (i - i2) := by rw [List.drop_drop]; congr 1; omega
      rw [e] at this
      -- slices from `i2` start at b, so those from `i` start after
      have h5 : (l2.drop i)[0]? = l2[i]? := by simp
      obtain ⟨c, hc⟩ : ∃ c, l2[i]? = some c := ⟨_, List.getElem?_eq_getElem hilt⟩
      obtain ⟨g1, g2, _, _⟩ := hwf.chain.split_lb hc
      have hca' : c.lb = a := by
        rw [← List.getElem_cons_drop hilt] at hcb
        have := hcb.head
        rw [← this]
        congr 1
        rw [List.getElem?_eq_getElem hilt, Option.some.injEq] at hc
        exact hc.symm
      have hcm : c ∈ l2.drop i2 := by
        rw [List.mem_iff_getElem?]
        refine ⟨i - i2, ?_⟩
        rw [List.getElem?_drop]
        rw [← hc]; congr 1; omega
      have := (db.mem hcm).1
      rw [hca'] at this
      exact absurd (hab.trans_le this) (lt_irrefl _)
    rw [if_pos (by omega)]
    have : i + (min (i2 - 1 + 1) l2.length - i) = i2 := by omega
    rw [this]
    exact db

/-- `x([a,b]) = v` for `a < b` -/
theorem assignAt_interval {t0 tf a b : τ} {l : List (TS τ ι K)} (h : WF t0 tf l) (hab : a < b) (k : ι) (x : Itv K) :
    ∃ l', assignAt k x a b l = some l' ∧ Chain (min t0 a) l' (max tf b) ∧
      (∀ f : τ → K, Encl l k f → (∀ t, a ≤ t → t ≤ b → f t ∈ x) → Encl l' k f) ∧
      (∀ f : τ → K, Encl l' k f → ∀ t, (t < a ∨ b < t) → Allows l k t (f t)) ∧
      ((b < tf ∨ GateAt l b) → ∀ f : τ → K, Encl l' k f → ∀ t, a ≤ t → t ≤ b → f t ∈ x) := by
  obtain ⟨l2, i, m, e, hwf, hsame, hca, hcb, him, hgood⟩ := assignAt_form h hab k x
  have hss : SameOthers k l2 ((List.range' i m).foldl (fun l i => setSlice k x i l) l2) := foldl_set_same _ l2
  -- the slices that are set are in [a,b]
  have hin : ∀ j ∈ List.range' i m, ∀ s, l2[j]? = some s → a ≤ s.lb ∧ s.ub ≤ b := by
    intro j hj s hs
    rw [List.mem_range'_1] at hj
    have hsd : s ∈ l2.drop i := by
      rw [List.mem_iff_getElem?]
      exact ⟨j - i, by rw [List.getElem?_drop, ← hs]; congr 1; omega⟩
    have h1 := hcb.mem hsd
    refine ⟨h1.1, ?_⟩
    rcases le_or_gt tf b with hh | hh
    · rw [max_eq_right hh] at h1; exact h1.2.2
    · have h2 := hgood (.inl hh)
      have hst : s ∈ l2.take (i + m) := by
        rw [List.mem_iff_getElem?]
        exact ⟨j, by rw [List.getElem?_take, if_pos hj.2]; exact hs⟩
      have hc2 := hwf.chain
      rw [← List.take_append_drop (i + m) l2] at hc2
      obtain ⟨c, c1, c2⟩ := Chain.append.mp hc2
      have hcb' : c = b := by
        cases hd : l2.drop (i + m) with
        | nil =>
          rw [hd] at c2 h2
          have c2 : c = max tf b := c2
          have h2 : b = max tf b := h2
          rw [c2]; exact h2.symm
        | cons r q =>
          rw [hd] at c2 h2
          exact c2.head.symm.trans h2.head
      rw [hcb'] at c1
      exact (c1.mem hst).2.2
  refine ⟨_, e, hss.chain hwf.chain, fun f hf hx => ?_, fun f hf t ht => ?_, fun hg f hf t t1 t2 => ?_⟩
  · refine foldl_set_keep (y := fun _ _ => x) _ l2 hwf.chain ?_ ?_
    · rw [encl_iff] at hf ⊢
      exact fun t => (hsame k t (f t)).mpr (hf t)
    · intro j hj l' _ _ s hs t t1 t2
      obtain ⟨h1, h2⟩ := hin j hj s hs
      exact hx t (h1.trans t1) (t2.trans h2)
  · rw [← hsame]
    intro s hs s1 s2
    obtain ⟨j, hj⟩ := List.mem_iff_getElem?.mp hs
    obtain ⟨s', e1, e2, e3⟩ := getElem?_bounds hss hj
    have h1 := foldl_set_le (k := k) (y := fun _ => x) _ List.nodup_range' l2 j s s' hj e1
    rw [if_neg ?_] at h1
    · exact Itv.mem_of_le h1 (hf s' (List.mem_of_getElem? e1) t (e2.le.trans s1) (s2.trans e3.ge))
    · intro hjm
      obtain ⟨h2, h3⟩ := hin j hjm s hj
      rcases ht with ht | ht
      · exact absurd (ht.trans_le (h2.trans s1)) (lt_irrefl _)
      · exact absurd (ht.trans_le (s2.trans h3)) (lt_irrefl _)
  · -- the slices that are set cover [a,b]
    have h2 := hgood hg
    have hm : (l2.drop i).take m ++ (l2.drop i).drop m = l2.drop i := List.take_append_drop _ _
    rw [← hm, List.drop_drop] at hcb
    obtain ⟨c, c1, c2⟩ := Chain.append.mp hcb
    have hcb' : c = b := by
      cases hd : l2.drop (i + m) with
      | nil =>
        rw [hd] at c2 h2
        have c2 : c = max tf b := c2
        have h2 : b = max tf b := h2
        rw [c2]; exact h2.symm
      | cons r q =>
        rw [hd] at c2 h2
        exact c2.head.symm.trans h2.head
    rw [hcb'] at c1
    have hne : (l2.drop i).take m ≠ [] := by
      intro h0
      rw [h0] at c1
      have c1 : a = b := c1
      exact hab.ne c1
    obtain ⟨p, s, q, e1, _, e3, e4, _⟩ := iter_spec hne c1 t1 t2
    have hsm : s ∈ (l2.drop i).take m := by rw [e1]; simp
    obtain ⟨j, hj⟩ := List.mem_iff_getElem?.mp hsm
    rw [List.getElem?_take] at hj
    split at hj
    · rename_i hjm
      rw [List.getElem?_drop] at hj
      obtain ⟨s', f1, f2, f3⟩ := getElem?_bounds hss hj
      have h3 := foldl_set_le (k := k) (y := fun _ => x) _ List.nodup_range' l2 _ s s' hj f1
      rw [if_pos (by rw [List.mem_range'_1]; omega)] at h3
      exact Itv.mem_of_le h3 (hf s' (List.mem_of_getElem? f1) t (f2.le.trans e3) (e4.trans f3.ge))
    · exact absurd hj (by simp)

/-! ### The whole tube -/

/-- the values after `setCore` when `x` meets all the values -/
theorem setSlice_meets {k : ι} {x : Itv K} {i : Nat} {l : List (TS τ ι K)} {s : TS τ ι K} (hs : l[i]? = some s)
    (hm : ∀ r ∈ l, r.val k ⊓ x ≠ ⊥)
    (hgate : s.IsGate → ∀ j r, (j + 1 = i ∨ j = i + 1) → l[j]? = some r → r.val k = x) :
    (∀ r ∈ setSlice k x i l, r.val k ⊓ x ≠ ⊥) ∧
    (∀ r, (setSlice k x i l)[i]? = some r → r.val k = x) ∧
    ∀ j r r', j ≠ i → l[j]? = some r → (s.IsGate ∨ ¬ r.IsGate) → (setSlice k x i l)[j]? = some r' → r'.val k = r.val k := by
  obtain ⟨p, q, rfl, rfl⟩ : ∃ p q, l = p ++ s :: q ∧ i = p.length := by
    obtain ⟨h1, h2⟩ := List.getElem?_eq_some_iff.mp hs
    exact ⟨l.take i, l.drop (i + 1), by rw [← h2, List.getElem_cons_drop, List.take_append_drop], by simp [h1.le]⟩
  have hx : x ≠ ⊥ := by
    rintro rfl
    exact hm s (by simp) (inf_bot_eq _)
  have hxx : x ⊓ x ≠ ⊥ := by rw [inf_idem]; exact hx
  have capv : ∀ (r : TS τ ι K), r.val k ⊓ x ≠ ⊥ → (capGate k x r).val k ⊓ x ≠ ⊥ := by
    intro r hr
    unfold capGate
    split
    · rw [TS.put_val, inf_assoc, inf_idem]; exact hr
    · exact hr
  have caph : ∀ (m : List (TS τ ι K)), (∀ r ∈ m, r.val k ⊓ x ≠ ⊥) → ∀ r ∈ capHead k x m, r.val k ⊓ x ≠ ⊥ := by
    intro m hm r hr
    cases m with
    | nil => simp [capHead] at hr
    | cons r0 m =>
      rcases List.mem_cons.mp hr with rfl | hr
      · exact capv r0 (hm r0 (by simp))
      · exact hm r (by simp [hr])
  -- `setCore`
  have core : (∀ r ∈ setCore k x p.length (p ++ s :: q), r.val k ⊓ x ≠ ⊥) ∧
      (∀ r, (setCore k x p.length (p ++ s :: q))[p.length]? = some r → r.val k = x) ∧
      ∀ j r r', j ≠ p.length → (p ++ s :: q)[j]? = some r → (s.IsGate ∨ ¬ r.IsGate) → (setCore k x p.length (p ++ s :: q))[j]? = some r' →
        r'.val k = r.val k := by
    rw [setCore_mid]
    by_cases hsg : s.IsGate
    · rw [if_pos hsg]
      have hv : infOpt (infOpt x (p.getLast?.map fun r => r.val k)) (q.head?.map fun r => r.val k) = x := by
        have h1 : infOpt x (p.getLast?.map fun r => r.val k) = x := by
          cases hp : p.getLast? with
          | none => rfl
          | some r =>
            obtain ⟨p', rfl⟩ := List.getLast?_eq_some_iff.mp hp
            have : r.val k = x := by
              refine hgate hsg p'.length r (.inl (by simp)) ?_
              rw [List.append_assoc]
              exact getElem?_mid _ _ _
            simp only [Option.map_some, infOpt, this, inf_idem]
        rw [h1]
        cases q with
        | nil => rfl
        | cons r q =>
          have : r.val k = x := by
            refine hgate hsg (p.length + 1) r (.inr rfl) ?_
            rw [List.getElem?_append_right (by omega)]
            simp
          simp only [List.head?_cons, Option.map_some, infOpt, this, inf_idem]
      rw [hv]
      refine ⟨?_, ?_, ?_⟩
      · intro r hr
        rcases List.mem_append.mp hr with hr | hr
        · exact hm r (by simp [hr])
        · rcases List.mem_cons.mp hr with rfl | hr
          · rw [TS.put_val]; exact hxx
          · exact hm r (by simp [hr])
      · intro r hr
        rw [getElem?_mid, Option.some.injEq] at hr
        rw [← hr, TS.put_val]
      · intro j r r' hj hr _ hr'
        rcases lt_or_gt_of_ne hj with h | h
        · rw [List.getElem?_append_left h] at hr hr'
          rw [hr, Option.some.injEq] at hr'
          rw [hr']
        · rw [List.getElem?_append_right h.le] at hr hr'
          obtain ⟨m, hm⟩ : ∃ m, j - p.length = m + 1 := ⟨j - p.length - 1, by omega⟩
          rw [hm, List.getElem?_cons_succ] at hr hr'
          rw [hr, Option.some.injEq] at hr'
          rw [hr']
    · rw [if_neg hsg]
      have hlen : (capHead k x p.reverse).reverse.length = p.length := by simp [capHead_length]
      refine ⟨?_, ?_, ?_⟩
      · intro r hr
        rcases List.mem_append.mp hr with hr | hr
        · rw [List.mem_reverse] at hr
          exact caph _ (fun r hr => hm r (by rw [List.mem_reverse] at hr; simp [hr])) r hr
        · rcases List.mem_cons.mp hr with rfl | hr
          · rw [TS.put_val]; exact hxx
          · exact caph _ (fun r hr => hm r (by simp [hr])) r hr
      · intro r hr
        rw [← hlen, getElem?_mid, Option.some.injEq] at hr
        rw [← hr, TS.put_val]
      · intro j r r' hj hr hrg hr'
        have hrg := hrg.resolve_left hsg
        rcases lt_or_gt_of_ne hj with h | h
        · rw [List.getElem?_append_left h] at hr
          rw [List.getElem?_append_left (by rw [hlen]; exact h)] at hr'
          obtain ⟨s1, h1, _, h2⟩ := capHead_rev_le k x p j hr'
          rw [hr, Option.some.injEq] at h1
          rw [h2 (h1 ▸ hrg), h1]
        · rw [List.getElem?_append_right h.le] at hr
          rw [List.getElem?_append_right (by rw [hlen]; exact h.le), hlen] at hr'
          obtain ⟨m, hm⟩ : ∃ m, j - p.length = m + 1 := ⟨j - p.length - 1, by omega⟩
          rw [hm, List.getElem?_cons_succ] at hr hr'
          obtain ⟨s1, h1, _, h2⟩ := capHead_le k x q m hr'
          rw [hr, Option.some.injEq] at h1
          rw [h2 (h1 ▸ hrg), h1]
  -- no emptiness
  have hne : ¬ SliceEmpty k (setCore k x p.length (p ++ s :: q)) p.length := by
    unfold SliceEmpty
    obtain ⟨c1, c2, _⟩ := core
    cases hl : (setCore k x p.length (p ++ s :: q))[p.length]? with
    | none => exact id
    | some r =>
      have hrx := c2 r hl
      have nb : ∀ r' ∈ setCore k x p.length (p ++ s :: q), (if r'.IsGate then r'.val k else r.val k ⊓ r'.val k) ≠ ⊥ := by
        intro r' hr'
        have := c1 r' hr'
        split
        · intro h; rw [h, bot_inf_eq] at this; exact this rfl
        · rw [hrx, inf_comm]; exact this
      dsimp only
      split
      · rw [hrx]; exact hx
      · rw [not_or]
        constructor
        · unfold inputGate
          cases hg : ((setCore k x p.length (p ++ s :: q)).take p.length).getLast? with
          | none => rw [hrx]; exact hx
          | some r' => exact nb r' (List.mem_of_mem_take (List.mem_of_getLast? hg))
        · unfold outputGate
          cases hg : (setCore k x p.length (p ++ s :: q))[p.length + 1]? with
          | none => rw [hrx]; exact hx
          | some r' => exact nb r' (List.mem_of_getElem? hg)
  unfold setSlice
  rw [if_neg hne]
  exact core

/-- `Tube::set(x)` when `x` meets all the values: every slice and every gate gets the value `x` -/
theorem setTube_meets {t0 tf : τ} {l : List (TS τ ι K)} (h : WF t0 tf l) {k : ι} {x : Itv K} (hm : ∀ r ∈ l, r.val k ⊓ x ≠ ⊥) :
    SameOthers k l (setTube k x l) ∧ ∀ r ∈ setTube k x l, r.val k = x := by
  have gateIff : ∀ (l1 : List (TS τ ι K)), SameOthers k l l1 → ∀ (i : Nat) (s s' : TS τ ι K), l[i]? = some s → l1[i]? = some s' → (s'.IsGate ↔ s.IsGate) := by
    intro l1 h1 i s s' hs hs'
    obtain ⟨r, e1, e2, e3⟩ := getElem?_bounds h1 hs
    rw [hs', Option.some.injEq] at e1
    unfold TS.IsGate
    rw [e1, e2, e3]
  -- first loop
  have loop1 : ∀ (idx : List Nat) (l1 : List (TS τ ι K)) (done : List Nat), SameOthers k l l1 → (∀ r ∈ l1, r.val k ⊓ x ≠ ⊥) →
      (∀ i ∈ idx, ∃ s, l[i]? = some s ∧ ¬ s.IsGate) →
      (∀ j ∈ done, ∀ r, l1[j]? = some r → r.val k = x) → (∀ j ∈ done, ∀ s, l[j]? = some s → ¬ s.IsGate) →
      (∀ r ∈ idx.foldl (fun l i => setSlice k x i l) l1, r.val k ⊓ x ≠ ⊥) ∧
      ∀ j ∈ done ++ idx, ∀ r, (idx.foldl (fun l i => setSlice k x i l) l1)[j]? = some r → r.val k = x := by
    intro idx
    induction idx with
    | nil => intro l1 done _ h2 _ h3 _; rw [List.append_nil]; exact ⟨h2, h3⟩
    | cons i idx ih =>
      intro l1 done h1 h2 h3 h4 h5
      rw [List.foldl_cons]
      obtain ⟨s, hs, hsg⟩ := h3 i (by simp)
      obtain ⟨s1, hs1, _, _⟩ := getElem?_bounds h1 hs
      have hs1g : ¬ s1.IsGate := fun hh => hsg ((gateIff l1 h1 i s s1 hs hs1).mp hh)
      obtain ⟨m1, m2, m3⟩ := setSlice_meets hs1 h2 (fun hh => absurd hh hs1g)
      have hsame := setSlice_same k x i l1
      have := ih (setSlice k x i l1) (done ++ [i]) (h1.trans hsame) m1 (fun j hj => h3 j (List.mem_cons_of_mem _ hj)) ?_ ?_
      · rw [List.append_assoc, List.singleton_append] at this
        exact this
      · intro j hj r hr
        by_cases hji : j = i
        · subst hji; exact m2 r hr
        · have hjd : j ∈ done := by
            rcases List.mem_append.mp hj with h | h
            · exact h
            · exact absurd (List.mem_singleton.mp h) hji
          obtain ⟨r0, e0, _, _⟩ := getElem?_bounds' hsame hr
          obtain ⟨r1, e1, _, _⟩ := getElem?_bounds' h1 e0
          have hg0 : ¬ r0.IsGate := fun hh => h5 j hjd r1 e1 ((gateIff l1 h1 j r1 r0 e1 e0).mp hh)
          rw [m3 j r0 r hji e0 (.inr hg0) hr]
          exact h4 j hjd r0 e0
      · intro j hj r hr
        rcases List.mem_append.mp hj with h | h
        · exact h5 j h r hr
        · rw [List.mem_singleton.mp h, hs, Option.some.injEq] at hr
          rw [← hr]; exact hsg
  -- second loop
  have nogg : ∀ i j (s r : TS τ ι K), (j + 1 = i ∨ j = i + 1) → l[i]? = some s → l[j]? = some r → s.IsGate → ¬ r.IsGate := by
    intro i j s r hij hi hj hsg hrg
    obtain ⟨i1, i2⟩ := List.getElem?_eq_some_iff.mp hi
    obtain ⟨j1, j2⟩ := List.getElem?_eq_some_iff.mp hj
    have hp := List.pairwise_iff_getElem.mp h.gates
    rcases hij with rfl | rfl
    · have := hp j (j + 1) j1 i1 (by omega)
      rw [i2, j2] at this
      refine this ⟨hrg, hsg, ?_⟩
      obtain ⟨_, _, c1, c2⟩ := h.chain.split_lb hj
      rw [← List.getElem_cons_drop i1, i2] at c2
      have hrg : r.lb = r.ub := hrg
      rw [hrg]; exact c2.head.symm
    · have := hp i (i + 1) i1 j1 (by omega)
      rw [i2, j2] at this
      refine this ⟨hsg, hrg, ?_⟩
      obtain ⟨_, _, c1, c2⟩ := h.chain.split_lb hi
      rw [← List.getElem_cons_drop j1, j2] at c2
      have hsg : s.lb = s.ub := hsg
      rw [hsg]; exact c2.head.symm
  have loop2 : ∀ (idx : List Nat) (l1 : List (TS τ ι K)) (done : List Nat), SameOthers k l l1 → (∀ r ∈ l1, r.val k ⊓ x ≠ ⊥) →
      (∀ i ∈ idx, ∃ s, l[i]? = some s ∧ s.IsGate) →
      (∀ (j : Nat) (s r : TS τ ι K), l[j]? = some s → l1[j]? = some r → ¬ s.IsGate → r.val k = x) → (∀ j ∈ done, ∀ r, l1[j]? = some r → r.val k = x) →
      (∀ (j : Nat) (s r : TS τ ι K), l[j]? = some s → (idx.foldl (fun l i => setSlice k x i l) l1)[j]? = some r → ¬ s.IsGate → r.val k = x) ∧
      ∀ j ∈ done ++ idx, ∀ r, (idx.foldl (fun l i => setSlice k x i l) l1)[j]? = some r → r.val k = x := by
    intro idx
    induction idx with
    | nil => intro l1 done _ h2 _ h3 h4; rw [List.append_nil]; exact ⟨h3, h4⟩
    | cons i idx ih =>
      intro l1 done h1 h2 h3 h4 h5
      rw [List.foldl_cons]
      obtain ⟨s, hs, hsg⟩ := h3 i (by simp)
      obtain ⟨s1, hs1, _, _⟩ := getElem?_bounds h1 hs
      have hs1g : s1.IsGate := (gateIff l1 h1 i s s1 hs hs1).mpr hsg
      obtain ⟨m1, m2, m3⟩ := setSlice_meets hs1 h2 (by
        intro _ j r hij hr
        obtain ⟨r0, e0, _, _⟩ := getElem?_bounds' h1 hr
        exact h4 j r0 r e0 hr (nogg i j s r0 hij hs e0 hsg))
      have hsame := setSlice_same k x i l1
      have := ih (setSlice k x i l1) (done ++ [i]) (h1.trans hsame) m1 (fun j hj => h3 j (List.mem_cons_of_mem _ hj)) ?_ ?_
      · rw [List.append_assoc, List.singleton_append] at this
        exact this
      · intro j s' r hs' hr hg
        have hji : j ≠ i := by
          rintro rfl
          rw [hs, Option.some.injEq] at hs'
          exact hg (hs' ▸ hsg)
        obtain ⟨r0, e0, _, _⟩ := getElem?_bounds' hsame hr
        rw [m3 j r0 r hji e0 (.inl hs1g) hr]
        exact h4 j s' r0 hs' e0 hg
      · intro j hj r hr
        by_cases hji : j = i
        · subst hji; exact m2 r hr
        · have hjd : j ∈ done := by
            rcases List.mem_append.mp hj with h | h
            · exact h
            · exact absurd (List.mem_singleton.mp h) hji
          obtain ⟨r0, e0, _, _⟩ := getElem?_bounds' hsame hr
          rw [m3 j r0 r hji e0 (.inl hs1g) hr]
          exact h5 j hjd r0 e0
  have idx1 : ∀ i ∈ (List.range l.length).filter (fun i => l[i]?.any fun s => !decide s.IsGate), ∃ s, l[i]? = some s ∧ ¬ s.IsGate := by
    intro i hi
    obtain ⟨h1, h2⟩ := List.mem_filter.mp hi
    have hlt : i < l.length := List.mem_range.mp h1
    rw [List.getElem?_eq_getElem hlt] at h2 ⊢
    exact ⟨_, rfl, by simpa using h2⟩
  have idx2 : ∀ i ∈ (List.range l.length).filter (fun i => l[i]?.any fun s => decide s.IsGate), ∃ s, l[i]? = some s ∧ s.IsGate := by
    intro i hi
    obtain ⟨h1, h2⟩ := List.mem_filter.mp hi
    have hlt : i < l.length := List.mem_range.mp h1
    rw [List.getElem?_eq_getElem hlt] at h2 ⊢
    exact ⟨_, rfl, by simpa using h2⟩
  have same1 : SameOthers k l (((List.range l.length).filter fun i => l[i]?.any fun s => !decide s.IsGate).foldl (fun l i => setSlice k x i l) l) :=
    foldl_set_same _ l
  obtain ⟨a1, a2⟩ := loop1 _ l [] ⟨rfl, fun _ _ => rfl⟩ hm idx1 (by simp) (by simp)
  obtain ⟨b1, b2⟩ := loop2 _ _ [] same1 a1 idx2 (by
    intro j s r hs hr hg
    refine a2 j ?_ r hr
    rw [List.nil_append]
    refine List.mem_filter.mpr ⟨List.mem_range.mpr (List.getElem?_eq_some_iff.mp hs).1, ?_⟩
    rw [hs]; simpa using hg) (by simp)
  have same2 : SameOthers k l (setTube k x l) := same1.trans (foldl_set_same _ _)
  refine ⟨same2, fun r hr => ?_⟩
  obtain ⟨j, hj⟩ := List.mem_iff_getElem?.mp hr
  obtain ⟨s, hs, _, _⟩ := getElem?_bounds' same2 hj
  by_cases hg : s.IsGate
  · refine b2 j ?_ r hj
    rw [List.nil_append]
    refine List.mem_filter.mpr ⟨List.mem_range.mpr (List.getElem?_eq_some_iff.mp hs).1, ?_⟩
    rw [hs]; simpa using hg
  · exact b1 j s r hs hj hg

/-- whatever the tube, after `Tube::set(x)` it encloses no function with a value out of `x` -/
theorem setTube_le {k : ι} {x : Itv K} (l : List (TS τ ι K)) : SameOthers k l (setTube k x l) ∧ ∀ r ∈ setTube k x l, r.val k ≤ x := by
  have same1 : SameOthers k l (((List.range l.length).filter fun i => l[i]?.any fun s => !decide s.IsGate).foldl (fun l i => setSlice k x i l) l) :=
    foldl_set_same _ l
  have same2 : SameOthers k l (setTube k x l) := same1.trans (foldl_set_same _ _)
  refine ⟨same2, fun r hr => ?_⟩
  obtain ⟨j, hj⟩ := List.mem_iff_getElem?.mp hr
  obtain ⟨s, hs, _, _⟩ := getElem?_bounds' same2 hj
  obtain ⟨s1, hs1, _, _⟩ := getElem?_bounds same1 hs
  have h1 := foldl_set_le (k := k) (y := fun _ => x) _ (List.nodup_range.filter _) l j s s1 hs hs1
  have h2 := foldl_set_le (k := k) (y := fun _ => x) ((List.range l.length).filter fun i => l[i]?.any fun (s : TS τ ι K) => decide s.IsGate)
    (List.nodup_range.filter _) _ j s1 r hs1 hj
  have hlt := (List.getElem?_eq_some_iff.mp hs).1
  by_cases hg : s.IsGate
  · rw [if_pos (List.mem_filter.mpr ⟨List.mem_range.mpr hlt, by rw [hs]; simpa using hg⟩)] at h2
    exact h2
  · rw [if_pos (List.mem_filter.mpr ⟨List.mem_range.mpr hlt, by rw [hs]; simpa using hg⟩)] at h1
    rw [if_neg (fun hh => by
      have := (List.mem_filter.mp hh).2
      rw [hs] at this
      exact hg (by simpa using this))] at h2
    exact h2.trans h1

end Codac.C2
