import Verif.Traj.Basic
import Mathlib.Tactic.LinearCombination

/-! # Effect of the updates of a trajectory on its evaluation and on its domains -/

set_option linter.unusedSectionVars false

namespace Codac

variable {K : Type*} [Field K] [LinearOrder K] [IsStrictOrderedRing K]

/-! ### Adding an interpolated point -/

theorem ev_cons_of_le {p q : K × K} {l : List (K × K)} {t : K} (h1 : p.1 < t) (h2 : q.1 ≤ t) : ev t (p :: q :: l) = ev t (q :: l) := by
  rw [ev, if_neg (ne_of_lt h1), if_neg (fun hc => absurd hc.2 (not_lt.mpr h2))]

theorem lin_left {p q : K × K} {t u v : K} (hpt : p.1 < t) (htq : t < q.1) (hv : v = lin p q t) : lin p (t, v) u = lin p q u := by
  have hpq := lt_trans hpt htq
  symm
  rw [lin_spec hpt]
  have h1 := (lin_spec (v := lin p q u) hpq).mp rfl
  have h2 := (lin_spec hpq).mp hv
  have hd : q.1 - p.1 ≠ 0 := sub_ne_zero.mpr (ne_of_gt hpq)
  refine mul_right_cancel₀ hd ?_
  linear_combination (t - p.1) * h1 - (u - p.1) * h2

theorem lin_right {p q : K × K} {t u v : K} (hpt : p.1 < t) (htq : t < q.1) (hv : v = lin p q t) : lin (t, v) q u = lin p q u := by
  have hpq := lt_trans hpt htq
  symm
  rw [lin_spec (p := (t, v)) htq]
  have h1 := (lin_spec (v := lin p q u) hpq).mp rfl
  have h2 := (lin_spec hpq).mp hv
  have hd : q.1 - p.1 ≠ 0 := sub_ne_zero.mpr (ne_of_gt hpq)
  refine mul_right_cancel₀ hd ?_
  linear_combination (q.1 - t) * h1 - (q.1 - u) * h2

theorem ev_setPt {l : List (K × K)} (hs : SortedPts l) {t v : K} (h : ev t l = some v) (u : K) : ev u (setPt t v l) = ev u l := by
  induction l with
  | nil => simp [ev] at h
  | cons p l ih =>
    by_cases hp : p.1 = t
    · have hv : p.2 = v := by cases l <;> simpa [ev, hp] using h
      rw [setPt, if_neg (by rw [hp]; exact lt_irrefl _), if_pos hp.symm, ← hp, ← hv]
    · cases l with
      | nil => simp [ev, hp] at h
      | cons q l =>
        rw [ev, if_neg hp] at h
        by_cases hb : p.1 < t ∧ t < q.1
        · rw [if_pos hb, Option.some.injEq] at h
          rw [setPt, if_neg (not_lt.mpr hb.1.le), if_neg (Ne.symm hp), setPt, if_pos hb.2]
          have hL := lin_left (u := u) hb.1 hb.2 h.symm
          have hR := lin_right (u := u) hb.1 hb.2 h.symm
          simp only [ev]
          rw [hL, hR]
          by_cases h1 : p.1 = u
          · rw [if_pos h1, if_pos h1]
          · rw [if_neg h1, if_neg h1]
            by_cases h2 : t = u
            · subst h2
              rw [if_neg (fun hc => lt_irrefl _ hc.2), if_pos rfl, if_pos hb, h]
            · rw [if_neg h2]
              by_cases h3 : p.1 < u ∧ u < q.1
              · rw [if_pos h3]
                by_cases h4 : u < t
                · rw [if_pos ⟨h3.1, h4⟩]
                · rw [if_neg (fun hc => h4 hc.2), if_pos ⟨lt_of_le_of_ne (not_lt.mp h4) h2, h3.2⟩]
              · rw [if_neg h3, if_neg (fun hc => h3 ⟨hc.1, lt_trans hc.2 hb.2⟩), if_neg (fun hc => h3 ⟨lt_trans hb.1 hc.1, hc.2⟩)]
        · rw [if_neg hb] at h
          have ht : q.1 ≤ t := by
            by_contra hc
            have := ev_none_of_lt (t := t) (l := q :: l) (fun r hr => by
              rcases List.mem_cons.mp hr with rfl | hr
              · exact not_le.mp hc
              · exact lt_trans (not_le.mp hc) (hs.tail.head _ hr))
            rw [this] at h; cases h
          have hpt : p.1 < t := lt_of_lt_of_le (hs.head q (by simp)) ht
          have ih' := ih hs.tail h
          rw [setPt, if_neg (not_lt.mpr hpt.le), if_neg (Ne.symm hp)]
          have hd : ∃ l', setPt t v (q :: l) = q :: l' := by
            rw [setPt, if_neg (not_lt.mpr ht)]
            by_cases hq : t = q.1
            · rw [if_pos hq]
              have hv : q.2 = v := by cases l <;> simpa [ev, hq] using h
              exact ⟨l, by rw [hq, ← hv]⟩
            · rw [if_neg hq]; exact ⟨_, rfl⟩
          obtain ⟨l', hl'⟩ := hd
          rw [hl'] at ih' ⊢
          simp only [ev]
          rw [ih']

theorem mem_of_mem_setPt_ev {l : List (K × K)} (hs : SortedPts l) {t v : K} (h : ev t l = some v) {p : K × K} (hp : p ∈ l) : p ∈ setPt t v l := by
  rw [mem_setPt hs]
  by_cases hpt : p.1 = t
  · left
    have h1 : ev t l = some p.2 := (ev_iff hs).mpr (.inl (by rw [← hpt]; exact hp))
    rw [h, Option.some.injEq] at h1
    rw [h1, ← hpt]
  · exact .inr ⟨hp, hpt⟩

/-! ### Keeping the points of an interval -/

theorem setPt_of_lt {l : List (K × K)} {t y : K} (h : ∀ p ∈ l, t < p.1) : setPt t y l = (t, y) :: l := by
  cases l with
  | nil => rfl
  | cons p l => rw [setPt, if_pos (h p (by simp))]

theorem filter_setPt {P : K → Bool} {l : List (K × K)} (hs : SortedPts l) {t y : K} (ht : P t = true) :
    (setPt t y l).filter (fun p => P p.1) = setPt t y (l.filter fun p => P p.1) := by
  induction l with
  | nil => simp [setPt, ht]
  | cons p l ih =>
    rw [setPt]
    by_cases h1 : t < p.1
    · rw [if_pos h1, List.filter_cons_of_pos (by simpa using ht)]
      symm
      apply setPt_of_lt
      intro q hq
      rcases List.mem_cons.mp (List.mem_filter.mp hq).1 with rfl | hq
      · exact h1
      · exact lt_trans h1 (hs.head _ hq)
    · rw [if_neg h1]
      by_cases h2 : t = p.1
      · rw [if_pos h2, List.filter_cons_of_pos (by simpa using ht), List.filter_cons_of_pos (by simpa [← h2] using ht), setPt, if_neg h1, if_pos h2]
      · rw [if_neg h2]
        by_cases h3 : P p.1 = true
        · rw [List.filter_cons_of_pos (by simpa using h3), List.filter_cons_of_pos (by simpa using h3), setPt, if_neg h1, if_neg h2, ih hs.tail]
        · rw [List.filter_cons_of_neg (by simpa using h3), List.filter_cons_of_neg (by simpa using h3), ih hs.tail]

theorem ev_filter_ge {l : List (K × K)} (hs : SortedPts l) {a u : K} (ha : ∃ p ∈ l, p.1 = a) (hu : a ≤ u) :
    ev u (l.filter fun p => decide (a ≤ p.1)) = ev u l := by
  induction l with
  | nil => rfl
  | cons p l ih =>
    by_cases hp : a ≤ p.1
    · congr 1
      rw [List.filter_eq_self]
      intro q hq
      rcases List.mem_cons.mp hq with rfl | hq
      · exact decide_eq_true hp
      · exact decide_eq_true (hp.trans (hs.head _ hq).le)
    · rw [List.filter_cons_of_neg (by simpa using hp)]
      have ha' : ∃ q ∈ l, q.1 = a := by
        obtain ⟨q, hq, rfl⟩ := ha
        rcases List.mem_cons.mp hq with rfl | hq
        · exact absurd le_rfl hp
        · exact ⟨q, hq, rfl⟩
      rw [ih hs.tail ha']
      cases l with
      | nil => obtain ⟨q, hq, _⟩ := ha'; simp at hq
      | cons q l =>
        have hqa : q.1 ≤ a := by
          obtain ⟨r, hr, rfl⟩ := ha'
          rcases List.mem_cons.mp hr with rfl | hr
          · exact le_rfl
          · exact (hs.tail.head _ hr).le
        exact (ev_cons_of_le (lt_of_lt_of_le (not_le.mp hp) hu) (hqa.trans hu)).symm

theorem ev_filter_le {l : List (K × K)} (hs : SortedPts l) {b u : K} (hb : ∃ p ∈ l, p.1 = b) (hu : u ≤ b) :
    ev u (l.filter fun p => decide (p.1 ≤ b)) = ev u l := by
  induction l with
  | nil => rfl
  | cons p l ih =>
    have hpb : p.1 ≤ b := by
      obtain ⟨r, hr, rfl⟩ := hb
      rcases List.mem_cons.mp hr with rfl | hr
      · exact le_rfl
      · exact (hs.head _ hr).le
    rw [List.filter_cons_of_pos (by simpa using hpb)]
    rcases eq_or_lt_of_le hpb with he | hlt
    · have : l.filter (fun p => decide (p.1 ≤ b)) = [] := by
        rw [List.filter_eq_nil_iff]
        intro q hq
        have := hs.head q hq
        rw [he] at this
        simp [this]
      rw [this]
      rcases eq_or_lt_of_le hu with hub | hub
      · subst hub; cases l <;> simp [ev, he]
      · rw [ev_none_of_lt, ev_none_of_lt]
        · intro q hq
          rcases List.mem_cons.mp hq with rfl | hq
          · rw [he]; exact hub
          · exact lt_trans (by rw [he]; exact hub) (hs.head _ hq)
        · intro q hq
          rw [List.mem_singleton] at hq
          rw [hq, he]; exact hub
    · have hb' : ∃ q ∈ l, q.1 = b := by
        obtain ⟨q, hq, rfl⟩ := hb
        rcases List.mem_cons.mp hq with rfl | hq
        · exact absurd hlt (lt_irrefl _)
        · exact ⟨q, hq, rfl⟩
      have ih' := ih hs.tail hb'
      cases l with
      | nil => obtain ⟨q, hq, _⟩ := hb'; simp at hq
      | cons q l =>
        have hqb : q.1 ≤ b := by
          obtain ⟨r, hr, rfl⟩ := hb'
          rcases List.mem_cons.mp hr with rfl | hr
          · exact le_rfl
          · exact (hs.tail.head _ hr).le
        rw [List.filter_cons_of_pos (by simpa using hqb)] at ih' ⊢
        simp only [ev]
        rw [ih']

theorem SortedPts.filter {l : List (K × K)} (hs : SortedPts l) (P : K × K → Bool) : SortedPts (l.filter P) := List.Pairwise.filter P hs

theorem ev_filter_icc {l : List (K × K)} (hs : SortedPts l) {a b u : K} (ha : ∃ p ∈ l, p.1 = a) (hb : ∃ p ∈ l, p.1 = b) (hab : a ≤ b) (h1 : a ≤ u) (h2 : u ≤ b) :
    ev u (l.filter fun p => decide (a ≤ p.1 ∧ p.1 ≤ b)) = ev u l := by
  have : (l.filter fun p => decide (a ≤ p.1 ∧ p.1 ≤ b)) = (l.filter fun p => decide (a ≤ p.1)).filter fun p => decide (p.1 ≤ b) := by
    rw [List.filter_filter]
    congr 1
    funext p
    simp [Bool.and_comm]
  rw [this, ev_filter_le (hs.filter _) _ h2, ev_filter_ge hs ha h1]
  obtain ⟨p, hp, rfl⟩ := hb
  exact ⟨p, List.mem_filter.mpr ⟨hp, by simpa using hab⟩, rfl⟩

/-! ### Shift -/

theorem ev_shift (l : List (K × K)) (d t : K) : ev (t + d) (l.map fun p => (p.1 + d, p.2)) = ev t l := by
  induction l with
  | nil => rfl
  | cons p l ih =>
    cases l with
    | nil => simp [ev]
    | cons q l =>
      simp only [List.map_cons] at ih ⊢
      simp only [ev, add_left_inj, add_lt_add_iff_right]
      rw [ih]
      have : lin (p.1 + d, p.2) (q.1 + d, q.2) (t + d) = lin p q t := by simp [lin]
      rw [this]

theorem SortedPts.shift {l : List (K × K)} (hs : SortedPts l) (d : K) : SortedPts (l.map fun p => (p.1 + d, p.2)) := by
  rw [SortedPts, List.pairwise_map]
  exact hs.imp fun h => by simpa using h

theorem mem_shiftItv {d : K} {X : Itv K} {a : K} : a ∈ Traj.shiftItv d X ↔ a - d ∈ X := by
  cases X with
  | empty => exact Iff.rfl
  | mk l h hlh =>
    simp only [Traj.shiftItv]
    rw [Itv.mem_ofBounds, Itv.mem_mk]
    rcases l with _ | l <;> rcases h with _ | h <;> simp [le_sub_iff_add_le]

/-! ### The invariant -/

/-- the instants are in order, the temporal domain is the hull of the instants and the codomain is the hull of the values -/
structure TrajOk (x : Traj K) : Prop where
  sorted : SortedPts x.pts
  dom : IsHull x.dom (x.pts.map Prod.fst)
  cod : IsHull x.cod (x.pts.map Prod.snd)

theorem trajOk_empty : TrajOk (Traj.empty : Traj K) :=
  ⟨List.Pairwise.nil, ⟨by simp [Traj.empty], fun _ _ => bot_le⟩, ⟨by simp [Traj.empty], fun _ _ => bot_le⟩⟩

theorem icc_le_iff {a b : K} {Y : Itv K} (hab : a ≤ b) : Itv.icc a b ≤ Y ↔ a ∈ Y ∧ b ∈ Y := by
  constructor
  · intro h; exact ⟨Itv.mem_of_le h (Itv.mem_icc.mpr ⟨le_rfl, hab⟩), Itv.mem_of_le h (Itv.mem_icc.mpr ⟨hab, le_rfl⟩)⟩
  · rintro ⟨h1, h2⟩
    rw [Itv.le_iff]
    intro x hx
    rw [Itv.mem_icc] at hx
    exact Itv.mem_of_between h1 h2 hx.1 hx.2

theorem isHull_keys {l : List (K × K)} {a b : K} (hab : a ≤ b) (ha : ∃ p ∈ l, p.1 = a) (hb : ∃ p ∈ l, p.1 = b) (h : ∀ p ∈ l, a ≤ p.1 ∧ p.1 ≤ b) :
    IsHull (Itv.icc a b) (l.map Prod.fst) := by
  constructor
  · intro k hk
    obtain ⟨p, hp, rfl⟩ := List.mem_map.mp hk
    exact Itv.mem_icc.mpr (h p hp)
  · intro Y hY
    rw [icc_le_iff hab]
    obtain ⟨p, hp, rfl⟩ := ha
    obtain ⟨q, hq, rfl⟩ := hb
    exact ⟨hY _ (List.mem_map_of_mem hp), hY _ (List.mem_map_of_mem hq)⟩

theorem sorted_le_last {l : List (K × K)} (hs : SortedPts l) {q : K × K} (hq : l.getLast? = some q) : ∀ p ∈ l, p.1 ≤ q.1 := by
  induction l with
  | nil => simp
  | cons a l ih =>
    cases l with
    | nil =>
      simp only [List.getLast?_singleton, Option.some.injEq] at hq
      intro p hp; rw [List.mem_singleton] at hp; rw [hp, hq]
    | cons b l =>
      rw [List.getLast?_cons_cons] at hq
      intro p hp
      rcases List.mem_cons.mp hp with rfl | hp
      · exact (hs.head b (by simp)).le.trans (ih hs.tail hq b (by simp))
      · exact ih hs.tail hq p hp

theorem trajOk_ofMap {l : List (K × K)} (hs : SortedPts l) : TrajOk (Traj.ofMap l) := by
  cases l with
  | nil => exact trajOk_empty
  | cons p l =>
    obtain ⟨q, hq⟩ : ∃ q, (p :: l).getLast? = some q := by
      rw [List.getLast?_eq_some_getLast (List.cons_ne_nil p l)]; exact ⟨_, rfl⟩
    have he : Traj.ofMap (p :: l) = ⟨p :: l, Itv.icc p.1 q.1, hullOf ((p :: l).map Prod.snd)⟩ := by
      simp only [Traj.ofMap, List.head?_cons, hq, Traj.computeCodomain]
    rw [he]
    have hl := sorted_le_last hs hq
    refine ⟨hs, isHull_keys (hl p (by simp)) ⟨p, by simp, rfl⟩ ⟨q, List.mem_of_getLast? hq, rfl⟩ fun r hr => ⟨?_, hl r hr⟩, isHull_hullOf _⟩
    rcases List.mem_cons.mp hr with rfl | hr
    · exact le_rfl
    · exact (hs.head _ hr).le

theorem isHull_sup {X : Itv K} {l l' : List K} {a : K} (h : IsHull X l) (h1 : ∀ b, b ∈ l' ↔ b = a ∨ b ∈ l) : IsHull (X ⊔ Itv.point a) l' := by
  constructor
  · intro b hb
    rcases (h1 b).mp hb with rfl | hb
    · exact Itv.mem_sup_right (Itv.mem_point.mpr rfl)
    · exact Itv.mem_sup_left (h.1 b hb)
  · intro Y hY
    exact sup_le (h.2 Y fun b hb => hY b ((h1 b).mpr (.inr hb))) (point_le_iff.mpr (hY a ((h1 a).mpr (.inl rfl))))

theorem set_pts (x : Traj K) (y t : K) : (x.set y t).pts = setPt t y x.pts := by
  unfold Traj.set
  dsimp only
  split <;> split <;> rfl

theorem set_dom (x : Traj K) (y t : K) : (x.set y t).dom = x.dom ⊔ Itv.point t := by
  unfold Traj.set
  dsimp only
  split <;> split <;> rfl

theorem TrajOk.set {x : Traj K} (h : TrajOk x) (y t : K) : TrajOk (x.set y t) := by
  refine ⟨by rw [set_pts]; exact h.sorted.setPt t y, ?_, ?_⟩
  · rw [set_pts, set_dom]
    refine isHull_sup h.dom fun b => ?_
    simp only [List.mem_map]
    constructor
    · rintro ⟨p, hp, rfl⟩
      rcases (mem_setPt h.sorted).mp hp with rfl | hp
      · exact .inl rfl
      · exact .inr ⟨p, hp.1, rfl⟩
    · rintro (rfl | ⟨p, hp, rfl⟩)
      · exact ⟨(b, y), (mem_setPt h.sorted).mpr (.inl rfl), rfl⟩
      · by_cases hpt : p.1 = t
        · exact ⟨(t, y), (mem_setPt h.sorted).mpr (.inl rfl), hpt.symm⟩
        · exact ⟨p, (mem_setPt h.sorted).mpr (.inr ⟨hp, hpt⟩), rfl⟩
  · unfold Traj.set
    dsimp only
    cases hl : lookupPt t x.pts with
    | none =>
      dsimp only
      refine isHull_sup h.cod fun b => ?_
      simp only [List.mem_map]
      have hk := lookupPt_eq_none.mp hl
      constructor
      · rintro ⟨p, hp, rfl⟩
        rcases (mem_setPt h.sorted).mp hp with rfl | hp
        · exact .inl rfl
        · exact .inr ⟨p, hp.1, rfl⟩
      · rintro (rfl | ⟨p, hp, rfl⟩)
        · exact ⟨(t, b), (mem_setPt h.sorted).mpr (.inl rfl), rfl⟩
        · exact ⟨p, (mem_setPt h.sorted).mpr (.inr ⟨hp, hk p hp⟩), rfl⟩
    | some v =>
      dsimp only
      have hv : Itv.point v ≤ x.cod := point_le_iff.mpr (h.cod.1 v (List.mem_map.mpr ⟨(t, v), (lookupPt_eq_some h.sorted).mp hl, rfl⟩))
      rw [if_pos (decide_eq_true hv)]
      exact isHull_hullOf _

theorem evalAt_eq {x : Traj K} (h : TrajOk x) {t : K} (ht : t ∈ x.dom) : x.evalAt t = ev t x.pts := by
  unfold Traj.evalAt
  rw [if_pos (point_le_iff.mpr ht), evalPts_eq_ev h.sorted]

theorem evalAt_none {x : Traj K} {t : K} (ht : t ∉ x.dom) : x.evalAt t = none := by
  unfold Traj.evalAt
  rw [if_neg (fun h => ht (point_le_iff.mp h))]

theorem mem_dom_of_ev {x : Traj K} (h : TrajOk x) {t v : K} (hv : ev t x.pts = some v) : t ∈ x.dom := by
  rcases (ev_iff h.sorted).mp hv with h1 | ⟨l1, p, q, l2, h1, h2, h3, _⟩
  · exact h.dom.1 t (List.mem_map.mpr ⟨_, h1, rfl⟩)
  · exact Itv.mem_of_between (h.dom.1 p.1 (List.mem_map.mpr ⟨p, by rw [h1]; simp, rfl⟩)) (h.dom.1 q.1 (List.mem_map.mpr ⟨q, by rw [h1]; simp, rfl⟩)) h2.le h3.le

theorem exists_max {l : List K} (h : l ≠ []) : ∃ m ∈ l, ∀ b ∈ l, b ≤ m := by
  induction l with
  | nil => exact absurd rfl h
  | cons c l ih =>
    cases l with
    | nil => exact ⟨c, by simp, by simp⟩
    | cons d l =>
      obtain ⟨m, hm, hmx⟩ := ih (by simp)
      rcases le_total c m with hcm | hcm
      · refine ⟨m, List.mem_cons_of_mem _ hm, fun b hb => ?_⟩
        rcases List.mem_cons.mp hb with rfl | hb
        · exact hcm
        · exact hmx b hb
      · refine ⟨c, by simp, fun b hb => ?_⟩
        rcases List.mem_cons.mp hb with rfl | hb
        · exact le_rfl
        · exact (hmx b hb).trans hcm

theorem exists_min {l : List K} (h : l ≠ []) : ∃ m ∈ l, ∀ b ∈ l, m ≤ b := by
  induction l with
  | nil => exact absurd rfl h
  | cons c l ih =>
    cases l with
    | nil => exact ⟨c, by simp, by simp⟩
    | cons d l =>
      obtain ⟨m, hm, hmx⟩ := ih (by simp)
      rcases le_total m c with hcm | hcm
      · refine ⟨m, List.mem_cons_of_mem _ hm, fun b hb => ?_⟩
        rcases List.mem_cons.mp hb with rfl | hb
        · exact hcm
        · exact hmx b hb
      · refine ⟨c, by simp, fun b hb => ?_⟩
        rcases List.mem_cons.mp hb with rfl | hb
        · exact le_rfl
        · exact hcm.trans (hmx b hb)

/-- the hull of a non-empty list is the interval between its smallest and its largest element -/
theorem IsHull.eq_icc {X : Itv K} {l : List K} (h : IsHull X l) (hl : l ≠ []) : ∃ a ∈ l, ∃ b ∈ l, (∀ c ∈ l, a ≤ c ∧ c ≤ b) ∧ X = Itv.icc a b := by
  obtain ⟨a, ha, hmin⟩ := exists_min hl
  obtain ⟨b, hb, hmax⟩ := exists_max hl
  refine ⟨a, ha, b, hb, fun c hc => ⟨hmin c hc, hmax c hc⟩, le_antisymm (h.2 _ fun c hc => Itv.mem_icc.mpr ⟨hmin c hc, hmax c hc⟩) ?_⟩
  exact (icc_le_iff (hmin b hb)).mpr ⟨h.1 a ha, h.1 b hb⟩

/-- a point of the hull of a list is between two of its elements -/
theorem IsHull.between {X : Itv K} {l : List K} (h : IsHull X l) {t : K} (ht : t ∈ X) : ∃ a ∈ l, ∃ b ∈ l, a ≤ t ∧ t ≤ b := by
  have hl : l ≠ [] := by
    rintro rfl
    exact (Itv.mem_of_le (h.2 ⊥ (by simp)) ht : t ∈ (⊥ : Itv K)).elim
  obtain ⟨a, ha, b, hb, _, rfl⟩ := h.eq_icc hl
  rw [Itv.mem_icc] at ht
  exact ⟨a, ha, b, hb, ht.1, ht.2⟩

theorem evalAt_some {x : Traj K} (h : TrajOk x) {t : K} (ht : t ∈ x.dom) : ∃ v, x.evalAt t = some v := by
  obtain ⟨a, ha, b, hb, h1, h2⟩ := h.dom.between ht
  obtain ⟨p, hp, rfl⟩ := List.mem_map.mp ha
  obtain ⟨q, hq, rfl⟩ := List.mem_map.mp hb
  rw [evalAt_eq h ht]
  exact ev_some_of_between hp hq h.sorted h1 h2

theorem evalAt_iff {x : Traj K} (h : TrajOk x) {t v : K} : x.evalAt t = some v ↔ Interp x.pts t v := by
  by_cases ht : t ∈ x.dom
  · rw [evalAt_eq h ht, ev_iff h.sorted]
  · rw [evalAt_none ht]
    constructor
    · intro h1; cases h1
    · intro h1; exact absurd (mem_dom_of_ev h ((ev_iff h.sorted).mpr h1)) ht

theorem evalAt_ev {x : Traj K} (h : TrajOk x) {t : K} : x.evalAt t = ev t x.pts := by
  cases he : ev t x.pts with
  | some v => exact (evalAt_iff h).mpr ((ev_iff h.sorted).mp he)
  | none =>
    cases he' : x.evalAt t with
    | none => rfl
    | some v => rw [(ev_iff h.sorted).mpr ((evalAt_iff h).mp he')] at he; cases he

theorem evalAt_mem_cod {x : Traj K} (h : TrajOk x) {t v : K} (hv : x.evalAt t = some v) : v ∈ x.cod :=
  ((evalAt_iff h).mp hv).mem_hull h.sorted fun p hp => h.cod.1 p.2 (List.mem_map_of_mem hp)

/-! #### truncation -/

theorem truncate_eq {x x' : Traj K} (h : TrajOk x) {a b : K} (ht : x.truncate a b = some x') :
    ∃ va vb, a < b ∧ x.evalAt a = some va ∧ x.evalAt b = some vb ∧
      x' = ⟨(setPt b vb (setPt a va x.pts)).filter (fun p => decide (a ≤ p.1 ∧ p.1 ≤ b)), Itv.icc a b,
        hullOf (((setPt b vb (setPt a va x.pts)).filter fun p => decide (a ≤ p.1 ∧ p.1 ≤ b)).map Prod.snd)⟩ := by
  unfold Traj.truncate at ht
  split at ht
  · rename_i hc
    split at ht
    · rename_i va vb ha hb
      refine ⟨va, vb, hc.1, ha, hb, ?_⟩
      rw [Option.some.injEq] at ht
      rw [← ht, filter_setPt (P := fun k => decide (a ≤ k ∧ k ≤ b)) (h.sorted.setPt a va) (by simpa using hc.1.le),
        filter_setPt (P := fun k => decide (a ≤ k ∧ k ≤ b)) h.sorted (by simpa using hc.1.le)]
      rw [inf_eq_right.mpr hc.2]
      rfl
    · cases ht
  · cases ht

theorem trajOk_truncate {x x' : Traj K} (h : TrajOk x) {a b : K} (ht : x.truncate a b = some x') :
    TrajOk x' ∧ x'.dom = Itv.icc a b ∧ ∀ t, a ≤ t → t ≤ b → x'.evalAt t = x.evalAt t := by
  obtain ⟨va, vb, hab, ha, hb, rfl⟩ := truncate_eq h ht
  rw [evalAt_ev h] at ha hb
  have hs1 := h.sorted.setPt a va
  have hs := hs1.setPt b vb
  have hmb : (b, vb) ∈ setPt b vb (setPt a va x.pts) := (mem_setPt hs1).mpr (.inl rfl)
  have hma : (a, va) ∈ setPt b vb (setPt a va x.pts) := (mem_setPt hs1).mpr (.inr ⟨(mem_setPt h.sorted).mpr (.inl rfl), ne_of_lt hab⟩)
  have hok : TrajOk (⟨(setPt b vb (setPt a va x.pts)).filter (fun p => decide (a ≤ p.1 ∧ p.1 ≤ b)), Itv.icc a b,
        hullOf (((setPt b vb (setPt a va x.pts)).filter fun p => decide (a ≤ p.1 ∧ p.1 ≤ b)).map Prod.snd)⟩ : Traj K) := by
    refine ⟨hs.filter _, isHull_keys hab.le ⟨(a, va), List.mem_filter.mpr ⟨hma, by simpa using hab.le⟩, rfl⟩
      ⟨(b, vb), List.mem_filter.mpr ⟨hmb, by simpa using hab.le⟩, rfl⟩ fun p hp => ?_, isHull_hullOf _⟩
    simpa using (List.mem_filter.mp hp).2
  refine ⟨hok, rfl, fun t h1 h2 => ?_⟩
  rw [evalAt_ev hok, evalAt_ev h]
  dsimp only
  rw [ev_filter_icc hs ⟨_, hma, rfl⟩ ⟨_, hmb, rfl⟩ hab.le h1 h2, ev_setPt hs1 (by rw [ev_setPt h.sorted ha]; exact hb), ev_setPt h.sorted ha]

/-- truncation is refused only when the interval is not a non-degenerate part of the temporal domain -/
theorem truncate_some {x : Traj K} (h : TrajOk x) {a b : K} (hab : a < b) (hd : Itv.icc a b ≤ x.dom) : ∃ x', x.truncate a b = some x' := by
  obtain ⟨ha, hb⟩ := (icc_le_iff hab.le).mp hd
  obtain ⟨va, ha⟩ := evalAt_some h ha
  obtain ⟨vb, hb⟩ := evalAt_some h hb
  unfold Traj.truncate
  rw [if_pos ⟨hab, hd⟩, ha, hb]
  exact ⟨_, rfl⟩

/-! #### shift -/

theorem trajOk_shift {x : Traj K} (h : TrajOk x) (d : K) :
    TrajOk (x.shift d) ∧ (∀ t, t ∈ (x.shift d).dom ↔ t - d ∈ x.dom) ∧ ∀ t, (x.shift d).evalAt (t + d) = x.evalAt t := by
  have hok : TrajOk (x.shift d) := by
    refine ⟨h.sorted.shift d, ⟨?_, ?_⟩, isHull_hullOf _⟩
    · intro k hk
      simp only [Traj.shift, Traj.computeCodomain, List.map_map, List.mem_map] at hk
      obtain ⟨p, hp, rfl⟩ := hk
      change p.1 + d ∈ Traj.shiftItv d x.dom
      rw [mem_shiftItv, add_sub_cancel_right]
      exact h.dom.1 _ (List.mem_map_of_mem hp)
    · intro Y hY
      rw [Itv.le_iff]
      intro t ht
      have ht' : t - d ∈ x.dom := mem_shiftItv.mp ht
      have hle : x.dom ≤ Traj.shiftItv (-d) Y := by
        refine h.dom.2 _ fun k hk => ?_
        obtain ⟨p, hp, rfl⟩ := List.mem_map.mp hk
        rw [mem_shiftItv, sub_neg_eq_add]
        refine hY _ ?_
        simp only [Traj.shift, Traj.computeCodomain, List.map_map, List.mem_map]
        exact ⟨p, hp, rfl⟩
      have := mem_shiftItv.mp (Itv.mem_of_le hle ht')
      simpa using this
  refine ⟨hok, fun t => mem_shiftItv, fun t => ?_⟩
  rw [evalAt_ev hok, evalAt_ev h]
  exact ev_shift x.pts d t

/-! #### sampling -/

/-- what sampling keeps: the function, and the former points -/
structure SameFun (l m : List (K × K)) : Prop where
  sorted : SortedPts m
  same : ∀ u, ev u m = ev u l
  keeps : ∀ p ∈ l, p ∈ m

theorem SameFun.setPt {l m : List (K × K)} (h : SameFun l m) {t v : K} (hv : ev t l = some v) : SameFun l (setPt t v m) := by
  have hv' : ev t m = some v := by rw [h.same]; exact hv
  exact ⟨h.sorted.setPt t v, fun u => by rw [ev_setPt h.sorted hv', h.same], fun p hp => mem_of_mem_setPt_ev h.sorted hv' (h.keeps p hp)⟩

theorem SameFun.key {l m : List (K × K)} (h : SameFun l m) {t v : K} (hv : ev t l = some v) {u : K} (hu : ∃ p ∈ m, p.1 = u) : ∃ p ∈ Codac.setPt t v m, p.1 = u := by
  obtain ⟨p, hp, rfl⟩ := hu
  have hv' : ev t m = some v := by rw [h.same]; exact hv
  exact ⟨p, mem_of_mem_setPt_ev h.sorted hv' hp, rfl⟩

theorem sampleLoop_spec {x : Traj K} (h : TrajOk x) {ts : List K} {m m' : List (K × K)} (hm : SameFun x.pts m) (he : x.sampleLoop ts m = some m') :
    SameFun x.pts m' ∧ (∀ u, (∃ p ∈ m, p.1 = u) → ∃ p ∈ m', p.1 = u) ∧ (∀ t ∈ ts, ∃ p ∈ m', p.1 = t) ∧
      ∀ p ∈ m', p ∈ m ∨ p.1 ∈ ts := by
  induction ts generalizing m with
  | nil =>
    simp only [Traj.sampleLoop, Option.some.injEq] at he
    subst he
    exact ⟨hm, fun _ h => h, by simp, fun p hp => .inl hp⟩
  | cons t ts ih =>
    rw [Traj.sampleLoop] at he
    split at he
    · rename_i v hv
      obtain ⟨h1, h2, h3, h4⟩ := ih hm he
      refine ⟨h1, h2, fun u hu => ?_, fun p hp => (h4 p hp).imp_right (List.mem_cons_of_mem _)⟩
      rcases List.mem_cons.mp hu with rfl | hu
      · exact h2 _ ⟨(u, v), (lookupPt_eq_some hm.sorted).mp hv, rfl⟩
      · exact h3 u hu
    · rw [Option.bind_eq_some_iff] at he
      obtain ⟨v, hv, he⟩ := he
      rw [evalAt_ev h] at hv
      obtain ⟨h1, h2, h3, h4⟩ := ih (hm.setPt hv) he
      refine ⟨h1, fun u hu => h2 u (hm.key hv hu), fun u hu => ?_, fun p hp => ?_⟩
      · rcases List.mem_cons.mp hu with rfl | hu
        · exact h2 _ ⟨(u, v), (mem_setPt hm.sorted).mpr (.inl rfl), rfl⟩
        · exact h3 u hu
      · rcases h4 p hp with h5 | h5
        · rcases (mem_setPt hm.sorted).mp h5 with rfl | h5
          · exact .inr (by simp)
          · exact .inl h5.1
        · exact .inr (List.mem_cons_of_mem _ h5)

theorem trajOk_of_sameFun {x : Traj K} (h : TrajOk x) {m : List (K × K)} (hm : SameFun x.pts m) :
    TrajOk ({ x with pts := m } : Traj K) ∧ ∀ t, ({ x with pts := m } : Traj K).evalAt t = x.evalAt t := by
  have hint : ∀ p ∈ m, x.evalAt p.1 = some p.2 := by
    intro p hp
    rw [evalAt_ev h, ← hm.same]
    exact (ev_iff hm.sorted).mpr (.inl hp)
  have hok : TrajOk ({ x with pts := m } : Traj K) := by
    refine ⟨hm.sorted, ⟨?_, ?_⟩, ⟨?_, ?_⟩⟩
    · intro k hk
      obtain ⟨p, hp, rfl⟩ := List.mem_map.mp hk
      refine mem_dom_of_ev h (v := p.2) ?_
      rw [← evalAt_ev h]; exact hint p hp
    · intro Y hY
      refine h.dom.2 Y fun k hk => ?_
      obtain ⟨p, hp, rfl⟩ := List.mem_map.mp hk
      exact hY _ (List.mem_map_of_mem (hm.keeps p hp))
    · intro k hk
      obtain ⟨p, hp, rfl⟩ := List.mem_map.mp hk
      exact evalAt_mem_cod h (hint p hp)
    · intro Y hY
      refine h.cod.2 Y fun k hk => ?_
      obtain ⟨p, hp, rfl⟩ := List.mem_map.mp hk
      exact hY _ (List.mem_map_of_mem (hm.keeps p hp))
  refine ⟨hok, fun t => ?_⟩
  rw [evalAt_ev hok, evalAt_ev h]
  exact hm.same t

theorem SameFun.refl {l : List (K × K)} (h : SortedPts l) : SameFun l l := ⟨h, fun _ => rfl, fun _ hp => hp⟩

theorem sample_spec {x x' : Traj K} {fuel : Nat} {dt : K} (he : x.sample fuel dt = some x') :
    ∃ lb ub hlu ts m v, x.dom = .mk (some lb) (some ub) hlu ∧ 0 < dt ∧ Traj.sampleTimes ub dt fuel lb = some ts ∧
      x.sampleLoop ts x.pts = some m ∧ x.evalAt ub = some v ∧ x' = { x with pts := setPt ub v m } := by
  unfold Traj.sample at he
  split at he
  · rename_i lb ub hlu hd
    split at he
    · rename_i hdt
      rw [Option.bind_eq_some_iff] at he
      obtain ⟨ts, hts, he⟩ := he
      rw [Option.bind_eq_some_iff] at he
      obtain ⟨m, hm, he⟩ := he
      rw [Option.map_eq_some_iff] at he
      obtain ⟨v, hv, he⟩ := he
      exact ⟨lb, ub, hlu, ts, m, v, hd, hdt, hts, hm, hv, he.symm⟩
    · cases he
  · cases he

theorem sample_sameFun {x x' : Traj K} (h : TrajOk x) {fuel : Nat} {dt : K} (he : x.sample fuel dt = some x') :
    ∃ m, SameFun x.pts m ∧ x' = { x with pts := m } := by
  obtain ⟨lb, ub, hlu, ts, m, v, hd, hdt, hts, hm, hv, rfl⟩ := sample_spec he
  rw [evalAt_ev h] at hv
  exact ⟨_, (sampleLoop_spec h (.refl h.sorted) hm).1.setPt hv, rfl⟩

theorem sampleLike_sameFun {x x' y : Traj K} (h : TrajOk x) (he : x.sampleLike y = some x') :
    ∃ m, SameFun x.pts m ∧ x' = { x with pts := m } ∧ ∀ p ∈ y.pts, ∃ q ∈ m, q.1 = p.1 := by
  unfold Traj.sampleLike at he
  split at he
  · rw [Option.map_eq_some_iff] at he
    obtain ⟨m, hm, rfl⟩ := he
    obtain ⟨h1, _, h3, _⟩ := sampleLoop_spec h (.refl h.sorted) hm
    exact ⟨m, h1, rfl, fun p hp => h3 p.1 (List.mem_map_of_mem hp)⟩
  · cases he

/-! #### make_continuous -/

theorem continuousLoop_keys (d lim : K) (prev : Option K) (m : K) (l : List (K × K)) :
    (Traj.continuousLoop d lim prev m l).map Prod.fst = l.map Prod.fst := by
  induction l generalizing prev m with
  | nil => rfl
  | cons p l ih => simp only [Traj.continuousLoop, List.map_cons, ih]

theorem sortedPts_iff {l : List (K × K)} : SortedPts l ↔ (l.map Prod.fst).Pairwise (· < ·) := by
  rw [List.pairwise_map]; exact Iff.rfl

theorem trajOk_makeContinuous {x : Traj K} (h : TrajOk x) : TrajOk x.makeContinuous := by
  refine ⟨?_, ?_, isHull_hullOf _⟩
  · rw [sortedPts_iff]
    simp only [Traj.makeContinuous]
    rw [continuousLoop_keys, ← sortedPts_iff]
    exact h.sorted
  · simp only [Traj.makeContinuous]
    rw [continuousLoop_keys]
    exact h.dom

/-! #### histories -/

/-- the updates of a trajectory -/
inductive TrajOp (K : Type*) [LinearOrder K]
  | set (y t : K)
  | truncate (a b : K)
  | shift (d : K)
  | sample (fuel : Nat) (dt : K)
  | sampleLike (y : Traj K)
  | makeContinuous

/-- the effect of an update; `none`: an assert fails -/
def TrajOp.apply (x : Traj K) : TrajOp K → Option (Traj K)
  | .set y t => some (x.set y t)
  | .truncate a b => x.truncate a b
  | .shift d => some (x.shift d)
  | .sample fuel dt => x.sample fuel dt
  | .sampleLike y => x.sampleLike y
  | .makeContinuous => some x.makeContinuous

/-- a history of updates -/
def Traj.run : Traj K → List (TrajOp K) → Option (Traj K)
  | x, [] => some x
  | x, o :: os => (o.apply x).bind fun x' => x'.run os

theorem TrajOp.apply_ok {x x' : Traj K} (h : TrajOk x) {o : TrajOp K} (he : o.apply x = some x') : TrajOk x' := by
  cases o with
  | set y t => simp only [apply, Option.some.injEq] at he; rw [← he]; exact h.set y t
  | truncate a b => exact (trajOk_truncate h he).1
  | shift d => simp only [apply, Option.some.injEq] at he; rw [← he]; exact (trajOk_shift h d).1
  | sample fuel dt => obtain ⟨m, hm, rfl⟩ := sample_sameFun h he; exact (trajOk_of_sameFun h hm).1
  | sampleLike y => obtain ⟨m, hm, rfl, _⟩ := sampleLike_sameFun h he; exact (trajOk_of_sameFun h hm).1
  | makeContinuous => simp only [apply, Option.some.injEq] at he; rw [← he]; exact trajOk_makeContinuous h

theorem Traj.run_ok {x x' : Traj K} (h : TrajOk x) {os : List (TrajOp K)} (he : x.run os = some x') : TrajOk x' := by
  induction os generalizing x with
  | nil => simp only [run, Option.some.injEq] at he; rw [← he]; exact h
  | cons o os ih =>
    rw [run, Option.bind_eq_some_iff] at he
    obtain ⟨x1, h1, h2⟩ := he
    exact ih (o.apply_ok h h1) h2

end Codac
