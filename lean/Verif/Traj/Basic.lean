import Verif.Traj.Model
import Mathlib.Tactic.Linarith
import Mathlib.Tactic.FieldSimp
import Mathlib.Tactic.Ring

/-! # Maps of values: lookup, evaluation, update -/

set_option linter.unusedSectionVars false

namespace Codac

variable {K : Type*} [Field K] [LinearOrder K] [IsStrictOrderedRing K]

theorem SortedPts.tail {p : K × K} {l : List (K × K)} (h : SortedPts (p :: l)) : SortedPts l := (List.pairwise_cons.mp h).2
theorem SortedPts.head {p : K × K} {l : List (K × K)} (h : SortedPts (p :: l)) : ∀ q ∈ l, p.1 < q.1 := (List.pairwise_cons.mp h).1

theorem lookupPt_eq_some {t v : K} {l : List (K × K)} (h : SortedPts l) : lookupPt t l = some v ↔ (t, v) ∈ l := by
  induction l with
  | nil => simp [lookupPt]
  | cons p l ih =>
    rw [lookupPt, List.mem_cons]
    by_cases hp : p.1 = t
    · rw [if_pos hp, Option.some.injEq]
      subst hp
      constructor
      · rintro rfl; exact .inl rfl
      · rintro (h1 | h1)
        · rw [← h1]
        · exact absurd (h.head _ h1) (lt_irrefl _)
    · rw [if_neg hp, ih h.tail]
      constructor
      · exact .inr
      · rintro (h1 | h1)
        · exact absurd (by rw [← h1]) hp
        · exact h1

theorem lookupPt_eq_none {t : K} {l : List (K × K)} : lookupPt t l = none ↔ ∀ p ∈ l, p.1 ≠ t := by
  induction l with
  | nil => simp [lookupPt]
  | cons p l ih =>
    rw [lookupPt]
    by_cases hp : p.1 = t
    · rw [if_pos hp]; simp [hp]
    · rw [if_neg hp, ih]; simp [hp]

theorem lookupPt_setPt {t y u : K} {l : List (K × K)} (h : SortedPts l) :
    lookupPt u (setPt t y l) = if u = t then some y else lookupPt u l := by
  induction l with
  | nil => simp [setPt, lookupPt, eq_comm]
  | cons p l ih =>
    rw [setPt]
    by_cases h1 : t < p.1
    · rw [if_pos h1]
      simp only [lookupPt, eq_comm (a := t)]
    · rw [if_neg h1]
      by_cases h2 : t = p.1
      · rw [if_pos h2]
        subst h2
        by_cases h3 : u = p.1
        · simp [lookupPt, h3]
        · have h3' : ¬ p.1 = u := fun e => h3 e.symm
          simp [lookupPt, h3, h3']
      · rw [if_neg h2]
        simp only [lookupPt]
        rw [ih h.tail]
        by_cases h3 : p.1 = u
        · have : ¬ u = t := fun e => h2 (by rw [h3, e])
          simp [h3, this]
        · simp [h3]

theorem mem_setPt {t y : K} {q : K × K} {l : List (K × K)} (h : SortedPts l) :
    q ∈ setPt t y l ↔ q = (t, y) ∨ (q ∈ l ∧ q.1 ≠ t) := by
  induction l with
  | nil => simp [setPt]
  | cons p l ih =>
    rw [setPt]
    by_cases h1 : t < p.1
    · rw [if_pos h1, List.mem_cons]
      refine or_congr_right ⟨fun h2 => ⟨h2, ?_⟩, fun h2 => h2.1⟩
      rcases List.mem_cons.mp h2 with rfl | h2
      · exact ne_of_gt h1
      · exact ne_of_gt (lt_trans h1 (h.head _ h2))
    · rw [if_neg h1]
      by_cases h2 : t = p.1
      · rw [if_pos h2, List.mem_cons]
        refine or_congr_right ⟨fun h3 => ⟨List.mem_cons_of_mem _ h3, ?_⟩, fun h3 => ?_⟩
        · rw [h2]; exact ne_of_gt (h.head _ h3)
        · rcases List.mem_cons.mp h3.1 with rfl | h4
          · exact absurd h2.symm h3.2
          · exact h4
      · rw [if_neg h2, List.mem_cons, ih h.tail, List.mem_cons]
        constructor
        · rintro (rfl | h3 | h3)
          · exact .inr ⟨.inl rfl, fun e => h2 e.symm⟩
          · exact .inl h3
          · exact .inr ⟨.inr h3.1, h3.2⟩
        · rintro (h3 | ⟨h3 | h3, h4⟩)
          · exact .inr (.inl h3)
          · exact .inl h3
          · exact .inr (.inr ⟨h3, h4⟩)

theorem SortedPts.setPt {l : List (K × K)} (h : SortedPts l) (t y : K) : SortedPts (setPt t y l) := by
  induction l with
  | nil => simp [Codac.setPt, SortedPts]
  | cons p l ih =>
    rw [Codac.setPt]
    by_cases h1 : t < p.1
    · rw [if_pos h1]
      refine List.pairwise_cons.mpr ⟨fun q hq => ?_, h⟩
      rcases List.mem_cons.mp hq with rfl | hq
      · exact h1
      · exact lt_trans h1 (h.head _ hq)
    · rw [if_neg h1]
      by_cases h2 : t = p.1
      · rw [if_pos h2]
        refine List.pairwise_cons.mpr ⟨fun q hq => ?_, h.tail⟩
        rw [h2]; exact h.head _ hq
      · rw [if_neg h2]
        refine List.pairwise_cons.mpr ⟨fun q hq => ?_, ih h.tail⟩
        rcases (mem_setPt h.tail).mp hq with rfl | hq
        · exact lt_of_le_of_ne (not_lt.mp h1) (Ne.symm h2)
        · exact h.head _ hq.1

/-! ### Evaluation -/

/-- evaluation by recursion on the list -/
def ev (t : K) : List (K × K) → Option K
  | [] => none
  | [p] => if p.1 = t then some p.2 else none
  | p :: q :: l => if p.1 = t then some p.2 else if p.1 < t ∧ t < q.1 then some (lin p q t) else ev t (q :: l)

theorem ev_none_of_lt {t : K} {l : List (K × K)} (h : ∀ p ∈ l, t < p.1) : ev t l = none := by
  induction l with
  | nil => rfl
  | cons p l ih =>
    have hp := h p (by simp)
    cases l with
    | nil => simp [ev, ne_of_gt hp]
    | cons q l =>
      rw [ev, if_neg (ne_of_gt hp), if_neg (fun hc => absurd hc.1 (not_lt.mpr hp.le))]
      exact ih fun r hr => h r (by simp [hr])

theorem ev_none_of_gt {t : K} {l : List (K × K)} (h : ∀ p ∈ l, p.1 < t) : ev t l = none := by
  induction l with
  | nil => rfl
  | cons p l ih =>
    have hp := h p (by simp)
    cases l with
    | nil => simp [ev, ne_of_lt hp]
    | cons q l =>
      have hq := h q (by simp)
      rw [ev, if_neg (ne_of_lt hp), if_neg (fun hc => absurd hc.2 (not_lt.mpr hq.le))]
      exact ih fun r hr => h r (by simp [hr])

theorem evalPts_eq_ev {t : K} {l : List (K × K)} (h : SortedPts l) : evalPts t l = ev t l := by
  induction l with
  | nil => rfl
  | cons p l ih =>
    rcases lt_trichotomy p.1 t with hp | hp | hp
    · cases l with
      | nil =>
        simp [evalPts, lookupPt, ev, ne_of_lt hp, hp]
      | cons q l =>
        rw [ev, if_neg (ne_of_lt hp)]
        by_cases hq : t < q.1
        · rw [if_pos ⟨hp, hq⟩]
          have h1 : lookupPt t (p :: q :: l) = none := by
            rw [lookupPt_eq_none]
            intro r hr
            rcases List.mem_cons.mp hr with rfl | hr
            · exact ne_of_lt hp
            · rcases List.mem_cons.mp hr with rfl | hr
              · exact ne_of_gt hq
              · exact ne_of_gt (lt_trans hq (h.tail.head _ hr))
          simp [evalPts, h1, hp, not_lt.mpr hq.le]
        · rw [if_neg (fun hc => hq hc.2), ← ih h.tail]
          have h1 : lookupPt t (p :: q :: l) = lookupPt t (q :: l) := by rw [lookupPt, if_neg (ne_of_lt hp)]
          unfold evalPts
          rw [h1]
          rcases lt_or_eq_of_le (not_lt.mp hq) with hq | hq
          · simp only [List.takeWhile_cons, List.dropWhile_cons, hp, hq, decide_true, if_true, List.getLast?_cons_cons]
          · rw [show lookupPt t (q :: l) = some q.2 by rw [lookupPt, if_pos hq]]
    · have : ev t (p :: l) = some p.2 := by cases l <;> simp [ev, hp]
      rw [this]
      simp [evalPts, lookupPt, hp]
    · have hall : ∀ q ∈ p :: l, t < q.1 := by
        intro q hq
        rcases List.mem_cons.mp hq with rfl | hq
        · exact hp
        · exact lt_trans hp (h.head _ hq)
      rw [ev_none_of_lt hall]
      have h1 : lookupPt t (p :: l) = none := lookupPt_eq_none.mpr fun r hr => ne_of_gt (hall r hr)
      simp [evalPts, h1, not_lt.mpr hp.le]

theorem lin_spec {p q : K × K} {t v : K} (hpq : p.1 < q.1) : v = lin p q t ↔ (v - p.2) * (q.1 - p.1) = (t - p.1) * (q.2 - p.2) := by
  have h : q.1 - p.1 ≠ 0 := sub_ne_zero.mpr (ne_of_gt hpq)
  unfold lin
  rw [← sub_eq_iff_eq_add', eq_div_iff h]

theorem ev_iff {t v : K} {l : List (K × K)} (h : SortedPts l) : ev t l = some v ↔ Interp l t v := by
  induction l with
  | nil => simp [ev, Interp]
  | cons p l ih =>
    cases l with
    | nil =>
      rw [ev]
      constructor
      · intro h1
        split at h1
        · rename_i h2
          rw [Option.some.injEq] at h1
          exact .inl (by rw [List.mem_singleton, ← h1, ← h2])
        · cases h1
      · rintro (h1 | ⟨l1, a, b, l2, h1, _⟩)
        · rw [List.mem_singleton] at h1; rw [← h1]; simp
        · have := congrArg List.length h1; simp at this; omega
    | cons q l =>
      have hpq := h.head q (by simp)
      rw [ev]
      by_cases h1 : p.1 = t
      · rw [if_pos h1, Option.some.injEq]
        constructor
        · rintro rfl; exact .inl (by simp [← h1])
        · rintro (h2 | ⟨l1, a, b, l2, h2, h3, h4, _⟩)
          · rcases List.mem_cons.mp h2 with h2 | h2
            · rw [← h2]
            · exact absurd (h.head _ h2) (by simp [h1])
          · exfalso
            have ha : a ∈ p :: q :: l := by rw [h2]; simp
            rcases List.mem_cons.mp ha with rfl | ha
            · exact absurd h3 (by rw [h1]; exact lt_irrefl _)
            · exact absurd (lt_trans (h.head _ ha) h3) (by rw [h1]; exact lt_irrefl _)
      · rw [if_neg h1]
        by_cases h2 : p.1 < t ∧ t < q.1
        · rw [if_pos h2, Option.some.injEq, eq_comm, lin_spec hpq]
          constructor
          · intro h3; exact .inr ⟨[], p, q, l, rfl, h2.1, h2.2, h3⟩
          · rintro (h3 | ⟨l1, a, b, l2, h3, h4, h5, h6⟩)
            · exfalso
              rcases List.mem_cons.mp h3 with h3 | h3
              · exact h1 (by rw [← h3])
              · rcases List.mem_cons.mp h3 with h3 | h3
                · rw [← h3] at h2; exact lt_irrefl _ h2.2
                · exact absurd (lt_trans h2.2 (h.tail.head _ h3)) (lt_irrefl _)
            · cases l1 with
              | nil =>
                simp only [List.nil_append, List.cons.injEq] at h3
                obtain ⟨rfl, rfl, _⟩ := h3
                exact h6
              | cons c l1 =>
                exfalso
                simp only [List.cons_append, List.cons.injEq] at h3
                have ha : a ∈ q :: l := by rw [h3.2]; simp
                rcases List.mem_cons.mp ha with rfl | ha
                · exact lt_irrefl _ (lt_trans h4 h2.2)
                · exact lt_irrefl _ (lt_trans (lt_trans (h.tail.head _ ha) h4) h2.2)
        · rw [if_neg h2, ih h.tail]
          constructor
          · rintro (h3 | ⟨l1, a, b, l2, h3, h4⟩)
            · exact .inl (List.mem_cons_of_mem _ h3)
            · exact .inr ⟨p :: l1, a, b, l2, by rw [h3]; rfl, h4⟩
          · rintro (h3 | ⟨l1, a, b, l2, h3, h4, h5, h6⟩)
            · rcases List.mem_cons.mp h3 with h3 | h3
              · exact absurd (by rw [← h3]) h1
              · exact .inl h3
            · cases l1 with
              | nil =>
                simp only [List.nil_append, List.cons.injEq] at h3
                obtain ⟨rfl, rfl, _⟩ := h3
                exact absurd ⟨h4, h5⟩ h2
              | cons c l1 =>
                simp only [List.cons_append, List.cons.injEq] at h3
                exact .inr ⟨l1, a, b, l2, h3.2, h4, h5, h6⟩

theorem evalPts_iff {t v : K} {l : List (K × K)} (h : SortedPts l) : evalPts t l = some v ↔ Interp l t v := by
  rw [evalPts_eq_ev h, ev_iff h]

/-! ### Hulls -/

omit [Field K] [IsStrictOrderedRing K] in
theorem hullOf_aux (l : List K) (acc : Itv K) (Y : Itv K) :
    l.foldl (fun acc v => acc ⊔ Itv.point v) acc ≤ Y ↔ acc ≤ Y ∧ ∀ a ∈ l, a ∈ Y := by
  induction l generalizing acc with
  | nil => simp
  | cons a l ih =>
    rw [List.foldl_cons, ih, sup_le_iff, List.forall_mem_cons, and_assoc]
    have : Itv.point a ≤ Y ↔ a ∈ Y := by
      constructor
      · intro h; exact Itv.mem_of_le h (Itv.mem_point.mpr rfl)
      · intro h
        cases Y with
        | empty => exact absurd h (Itv.not_mem_empty a)
        | mk l' h' p => cases l' <;> cases h' <;> exact h
    rw [this]

omit [Field K] [IsStrictOrderedRing K] in
theorem isHull_hullOf (l : List K) : IsHull (hullOf l) l := by
  constructor
  · exact ((hullOf_aux l ⊥ (hullOf l)).mp (le_refl _)).2
  · intro Y hY
    exact (hullOf_aux l ⊥ Y).mpr ⟨bot_le, hY⟩

omit [Field K] [IsStrictOrderedRing K] in
theorem IsHull.unique {X Y : Itv K} {l : List K} (h : IsHull X l) (h' : IsHull Y l) : X = Y :=
  le_antisymm (h.2 Y h'.1) (h'.2 X h.1)

theorem IsHull.congr {X : Itv K} {l l' : List K} (h : IsHull X l) (he : ∀ a, a ∈ l ↔ a ∈ l') : IsHull X l' :=
  ⟨fun a ha => h.1 a ((he a).mpr ha), fun Y hY => h.2 Y fun a ha => hY a ((he a).mp ha)⟩

theorem point_le_iff {a : K} {Y : Itv K} : Itv.point a ≤ Y ↔ a ∈ Y := by
  constructor
  · intro h; exact Itv.mem_of_le h (Itv.mem_point.mpr rfl)
  · intro h; rw [Itv.le_iff]; intro x hx; rw [Itv.mem_point] at hx; rw [hx]; exact h

/-- a point between two others -/
theorem mem_of_seg {X : Itv K} {p q : K × K} {l r t v vl vr : K} (hpq : p.1 < q.1) (hl : l ≤ t) (hr : t ≤ r)
    (hv : (v - p.2) * (q.1 - p.1) = (t - p.1) * (q.2 - p.2)) (hvl : (vl - p.2) * (q.1 - p.1) = (l - p.1) * (q.2 - p.2))
    (hvr : (vr - p.2) * (q.1 - p.1) = (r - p.1) * (q.2 - p.2)) (h1 : vl ∈ X) (h2 : vr ∈ X) : v ∈ X := by
  have hd : 0 < q.1 - p.1 := sub_pos.mpr hpq
  rcases le_total p.2 q.2 with h | h
  · refine Itv.mem_of_between h1 h2 ?_ ?_
    · refine le_of_mul_le_mul_right ?_ hd
      nlinarith [mul_le_mul_of_nonneg_right (sub_le_sub_right hl p.1) (sub_nonneg.mpr h)]
    · refine le_of_mul_le_mul_right ?_ hd
      nlinarith [mul_le_mul_of_nonneg_right (sub_le_sub_right hr p.1) (sub_nonneg.mpr h)]
  · refine Itv.mem_of_between h2 h1 ?_ ?_
    · refine le_of_mul_le_mul_right ?_ hd
      nlinarith [mul_le_mul_of_nonneg_right (sub_le_sub_right hr p.1) (sub_nonneg.mpr h)]
    · refine le_of_mul_le_mul_right ?_ hd
      nlinarith [mul_le_mul_of_nonneg_right (sub_le_sub_right hl p.1) (sub_nonneg.mpr h)]

/-- interpolated values are in the hull of the values -/
theorem Interp.mem_hull {l : List (K × K)} (hs : SortedPts l) {t v : K} (h : Interp l t v) {X : Itv K} (hX : ∀ p ∈ l, p.2 ∈ X) : v ∈ X := by
  rcases h with h | ⟨l1, p, q, l2, rfl, h1, h2, h3⟩
  · exact hX _ h
  · exact mem_of_seg (lt_trans h1 h2) h1.le h2.le h3 (vl := p.2) (vr := q.2) (by ring) (by ring) (hX p (by simp)) (hX q (by simp))

theorem ev_some_of_between {l : List (K × K)} {t : K} {a b : K × K} (ha : a ∈ l) (hb : b ∈ l) (hs : SortedPts l) (h1 : a.1 ≤ t) (h2 : t ≤ b.1) :
    ∃ v, ev t l = some v := by
  induction l with
  | nil => simp at ha
  | cons p l ih =>
    by_cases hp : p.1 = t
    · exact ⟨p.2, by cases l <;> simp [ev, hp]⟩
    · have hpt : p.1 < t := by
        rcases List.mem_cons.mp ha with rfl | ha
        · exact lt_of_le_of_ne h1 hp
        · exact lt_of_lt_of_le (hs.head _ ha) h1
      have hb' : b ∈ l := by
        rcases List.mem_cons.mp hb with rfl | hb
        · exact absurd hpt (not_lt.mpr h2)
        · exact hb
      cases l with
      | nil => simp at hb'
      | cons q l =>
        rw [ev, if_neg hp]
        by_cases hq : t < q.1
        · rw [if_pos ⟨hpt, hq⟩]; exact ⟨_, rfl⟩
        · rw [if_neg (fun hc => hq hc.2)]
          rcases List.mem_cons.mp ha with rfl | ha
          · -- `a` is the head: use `q` instead
            clear ih
            have : ∀ (l : List (K × K)) (c : K × K), SortedPts (c :: l) → c.1 ≤ t → b ∈ c :: l → ∃ v, ev t (c :: l) = some v := by
              intro l
              induction l with
              | nil =>
                intro c _ hc hb
                rw [List.mem_singleton] at hb
                subst hb
                exact ⟨b.2, by simp [ev, le_antisymm hc h2]⟩
              | cons d l ih =>
                intro c hs hc hb
                rw [ev]
                by_cases h3 : c.1 = t
                · rw [if_pos h3]; exact ⟨_, rfl⟩
                · rw [if_neg h3]
                  by_cases h4 : t < d.1
                  · rw [if_pos ⟨lt_of_le_of_ne hc h3, h4⟩]; exact ⟨_, rfl⟩
                  · rw [if_neg (fun hc => h4 hc.2)]
                    refine ih d hs.tail (not_lt.mp h4) ?_
                    rcases List.mem_cons.mp hb with rfl | hb
                    · exact absurd (lt_of_le_of_ne hc h3) (not_lt.mpr h2)
                    · exact hb
            exact this l q hs.tail (not_lt.mp hq) hb'
          · exact ih ha hb' hs.tail

end Codac
