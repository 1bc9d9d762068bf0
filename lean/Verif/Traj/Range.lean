import Verif.Traj.History
import Mathlib.Data.List.Perm.Basic
import Mathlib.Data.List.Nodup

/-! # Interval evaluation of a trajectory is the exact range; equality of trajectories -/

set_option linter.unusedSectionVars false

namespace Codac

variable {K : Type*} [Field K] [LinearOrder K] [IsStrictOrderedRing K]

theorem mem_dropWhile_sorted {l : List (K × K)} (hs : SortedPts l) {a : K} {p : K × K} :
    p ∈ l.dropWhile (fun p => decide (p.1 < a)) ↔ p ∈ l ∧ a ≤ p.1 := by
  induction l with
  | nil => simp
  | cons q l ih =>
    by_cases hq : q.1 < a
    · rw [List.dropWhile_cons_of_pos (by simpa using hq), ih hs.tail, List.mem_cons]
      constructor
      · rintro ⟨h1, h2⟩; exact ⟨.inr h1, h2⟩
      · rintro ⟨rfl | h1, h2⟩
        · exact absurd hq (not_lt.mpr h2)
        · exact ⟨h1, h2⟩
    · rw [List.dropWhile_cons_of_neg (by simpa using hq)]
      refine ⟨fun h => ⟨h, ?_⟩, fun h => h.1⟩
      rcases List.mem_cons.mp h with rfl | h
      · exact not_lt.mp hq
      · exact (not_lt.mp hq).trans (hs.head _ h).le

theorem mem_takeWhile_sorted {l : List (K × K)} (hs : SortedPts l) {b : K} {p : K × K} :
    p ∈ l.takeWhile (fun p => decide (p.1 ≤ b)) ↔ p ∈ l ∧ p.1 ≤ b := by
  induction l with
  | nil => simp
  | cons q l ih =>
    by_cases hq : q.1 ≤ b
    · rw [List.takeWhile_cons_of_pos (by simpa using hq), List.mem_cons, ih hs.tail, List.mem_cons]
      constructor
      · rintro (rfl | h1)
        · exact ⟨.inl rfl, hq⟩
        · exact ⟨.inr h1.1, h1.2⟩
      · rintro ⟨rfl | h1, h2⟩
        · exact .inl rfl
        · exact .inr ⟨h1, h2⟩
    · rw [List.takeWhile_cons_of_neg (by simpa using hq)]
      simp only [List.not_mem_nil, false_iff, not_and, not_le]
      intro h
      rcases List.mem_cons.mp h with rfl | h
      · exact not_le.mp hq
      · exact lt_trans (not_le.mp hq) (hs.head _ h)

theorem SortedPts.dropWhile {l : List (K × K)} (hs : SortedPts l) (P : K × K → Bool) : SortedPts (l.dropWhile P) :=
  List.Pairwise.sublist (List.dropWhile_sublist P) hs

theorem foldl_hull (l : List (K × K)) (acc : Itv K) :
    l.foldl (fun acc p => acc ⊔ Itv.point p.2) acc = (l.map Prod.snd).foldl (fun acc v => acc ⊔ Itv.point v) acc := by
  rw [List.foldl_map]

/-- the result of the evaluation over an interval which is not the whole temporal domain -/
theorem evalItv_mk {x : Traj K} (h : TrajOk x) {a b : K} (hab : a ≤ b) (hd : Itv.icc a b ≤ x.dom) (hne : x.dom ≠ Itv.icc a b) :
    ∃ va vb X l, x.evalAt a = some va ∧ x.evalAt b = some vb ∧ x.evalItv (Itv.icc a b) = some X ∧ IsHull X l ∧
      ∀ v, v ∈ l ↔ v = va ∨ v = vb ∨ ∃ p ∈ x.pts, p.2 = v ∧ a ≤ p.1 ∧ p.1 ≤ b := by
  obtain ⟨ha, hb⟩ := (icc_le_iff hab).mp hd
  obtain ⟨va, ha⟩ := evalAt_some h ha
  obtain ⟨vb, hb⟩ := evalAt_some h hb
  refine ⟨va, vb, hullOf (va :: vb :: (((x.pts.dropWhile fun p => decide (p.1 < a)).takeWhile fun p => decide (p.1 ≤ b)).map Prod.snd)), va :: vb :: (((x.pts.dropWhile fun p => decide (p.1 < a)).takeWhile fun p => decide (p.1 ≤ b)).map Prod.snd), ha, hb, ?_, ?_, ?_⟩
  · unfold Traj.evalItv
    rw [if_pos hd, if_neg hne, Itv.icc_eq_mk hab]
    dsimp only
    rw [ha, hb]
    dsimp only
    rw [foldl_hull]
    rfl
  · exact isHull_hullOf _
  · intro v
    rw [List.mem_cons, List.mem_cons, List.mem_map]
    refine or_congr_right (or_congr_right ⟨?_, ?_⟩)
    · rintro ⟨p, hp, rfl⟩
      rw [mem_takeWhile_sorted (h.sorted.dropWhile _), mem_dropWhile_sorted h.sorted] at hp
      exact ⟨p, hp.1.1, rfl, hp.1.2, hp.2⟩
    · rintro ⟨p, hp, rfl, h1, h2⟩
      refine ⟨p, ?_, rfl⟩
      rw [mem_takeWhile_sorted (h.sorted.dropWhile _), mem_dropWhile_sorted h.sorted]
      exact ⟨⟨hp, h1⟩, h2⟩

/-- the interpolation formula holds between two consecutive points, ends included -/
theorem seg_formula {l1 l2 : List (K × K)} {p q : K × K} (hs : SortedPts (l1 ++ p :: q :: l2)) {t v : K} (hv : Interp (l1 ++ p :: q :: l2) t v)
    (h1 : p.1 ≤ t) (h2 : t ≤ q.1) : (v - p.2) * (q.1 - p.1) = (t - p.1) * (q.2 - p.2) := by
  have hu : ∀ w, Interp (l1 ++ p :: q :: l2) t w → v = w := by
    intro w hw
    have e1 := (ev_iff hs).mpr hv
    have e2 := (ev_iff hs).mpr hw
    rw [e1, Option.some.injEq] at e2
    exact e2
  have hpq : p.1 < q.1 := by
    have := (List.pairwise_append.mp hs).2.1
    exact SortedPts.head this q (by simp)
  rcases eq_or_lt_of_le h1 with h1 | h1
  · rw [hu p.2 (.inl (by rw [← h1]; simp)), ← h1]; ring
  · rcases eq_or_lt_of_le h2 with h2 | h2
    · rw [hu q.2 (.inl (by rw [h2]; simp)), h2]; ring
    · exact (lin_spec hpq).mp (hu _ (.inr ⟨l1, p, q, l2, rfl, h1, h2, (lin_spec hpq).mp rfl⟩))

/-- evaluation over a sub-interval of the temporal domain: it is defined, contains all the values and its bounds are values -/
theorem evalItv_range {x : Traj K} (h : TrajOk x) {a b : K} (hab : a ≤ b) (hd : Itv.icc a b ≤ x.dom) :
    ∃ X m M, x.evalItv (Itv.icc a b) = some X ∧ X = Itv.icc m M ∧ (∀ t v, a ≤ t → t ≤ b → x.evalAt t = some v → v ∈ X) ∧
      (∃ t, a ≤ t ∧ t ≤ b ∧ x.evalAt t = some m) ∧ ∃ t, a ≤ t ∧ t ≤ b ∧ x.evalAt t = some M := by
  by_cases hne : x.dom = Itv.icc a b
  · have hl : x.pts.map Prod.snd ≠ [] := by
      intro hc
      have hp : x.pts = [] := List.map_eq_nil_iff.mp hc
      have : a ∈ x.dom := (icc_le_iff hab).mp hd |>.1
      obtain ⟨k, hk, _⟩ := h.dom.between this
      rw [hp] at hk; simp at hk
    obtain ⟨m, hm, M, hM, _, hX⟩ := h.cod.eq_icc hl
    have key : ∀ v ∈ x.pts.map Prod.snd, ∃ t, a ≤ t ∧ t ≤ b ∧ x.evalAt t = some v := by
      intro v hv
      obtain ⟨p, hp, rfl⟩ := List.mem_map.mp hv
      have := h.dom.1 p.1 (List.mem_map_of_mem hp)
      rw [hne, Itv.mem_icc] at this
      exact ⟨p.1, this.1, this.2, (evalAt_iff h).mpr (.inl hp)⟩
    refine ⟨x.cod, m, M, ?_, hX, fun t v _ _ hv => evalAt_mem_cod h hv, key m hm, key M hM⟩
    unfold Traj.evalItv
    rw [if_pos hd, if_pos hne]
  · obtain ⟨va, vb, X, l, ha, hb, hX, hh, hl⟩ := evalItv_mk h hab hd hne
    have hva : va ∈ X := hh.1 va ((hl va).mpr (.inl rfl))
    have hvb : vb ∈ X := hh.1 vb ((hl vb).mpr (.inr (.inl rfl)))
    have hpt : ∀ p ∈ x.pts, a ≤ p.1 → p.1 ≤ b → p.2 ∈ X := fun p hp h1 h2 => hh.1 p.2 ((hl p.2).mpr (.inr (.inr ⟨p, hp, rfl, h1, h2⟩)))
    have key : ∀ v ∈ l, ∃ t, a ≤ t ∧ t ≤ b ∧ x.evalAt t = some v := by
      intro v hv
      rcases (hl v).mp hv with rfl | rfl | ⟨p, hp, rfl, h1, h2⟩
      · exact ⟨a, le_rfl, hab, ha⟩
      · exact ⟨b, hab, le_rfl, hb⟩
      · exact ⟨p.1, h1, h2, (evalAt_iff h).mpr (.inl hp)⟩
    have hln : l ≠ [] := by
      rintro rfl
      have := (hl va).mpr (.inl rfl)
      simp at this
    obtain ⟨m, hm, M, hM, _, hXe⟩ := hh.eq_icc hln
    refine ⟨X, m, M, hX, hXe, fun t v h1 h2 hv => ?_, key m hm, key M hM⟩
    have hsorted := h.sorted
    rw [evalAt_iff h] at ha hb
    rcases (evalAt_iff h).mp hv with hv | ⟨l1, p, q, l2, he, hp, hq, hf⟩
    · exact hpt _ hv h1 h2
    · rw [he] at hsorted ha hb
      have hpm : p ∈ x.pts := by rw [he]; simp
      have hqm : q ∈ x.pts := by rw [he]; simp
      have hL : ∃ lo vl, lo ≤ t ∧ (vl - p.2) * (q.1 - p.1) = (lo - p.1) * (q.2 - p.2) ∧ vl ∈ X := by
        rcases le_total p.1 a with hpa | hpa
        · exact ⟨a, va, h1, seg_formula hsorted ha hpa (h1.trans hq.le), hva⟩
        · exact ⟨p.1, p.2, hp.le, by ring, hpt p hpm hpa (hp.le.trans h2)⟩
      have hR : ∃ hi vr, t ≤ hi ∧ (vr - p.2) * (q.1 - p.1) = (hi - p.1) * (q.2 - p.2) ∧ vr ∈ X := by
        rcases le_total b q.1 with hqb | hqb
        · exact ⟨b, vb, h2, seg_formula hsorted hb (hp.le.trans h2) hqb, hvb⟩
        · exact ⟨q.1, q.2, hq.le, by ring, hpt q hqm (h1.trans hq.le) hqb⟩
      obtain ⟨lo, vl, k1, k2, k3⟩ := hL
      obtain ⟨hi, vr, k4, k5, k6⟩ := hR
      exact mem_of_seg (lt_trans hp hq) k1 k4 hf k2 k5 k3 k6

/-! ### Equality -/

theorem beq_iff {x y : Traj K} (hy : SortedPts y.pts) : x.beq y = true ↔ x.dom = y.dom ∧ x.cod = y.cod ∧ ∀ p ∈ x.pts, p ∈ y.pts := by
  unfold Traj.beq
  rw [Bool.and_eq_true, Bool.and_eq_true, decide_eq_true_iff, decide_eq_true_iff, List.all_eq_true, and_assoc]
  refine and_congr_right fun _ => and_congr_right fun _ => forall_congr' fun p => imp_congr_right fun _ => ?_
  cases hl : lookupPt p.1 y.pts with
  | none =>
    simp only [Bool.false_eq_true, false_iff]
    exact fun hc => lookupPt_eq_none.mp hl p hc rfl
  | some v =>
    simp only [decide_eq_true_iff]
    constructor
    · intro e; subst e; exact (lookupPt_eq_some hy).mp hl
    · intro hc
      have := (lookupPt_eq_some hy).mpr (show (p.1, p.2) ∈ y.pts from hc)
      rw [hl, Option.some.injEq] at this
      exact this.symm

theorem SortedPts.nodup {l : List (K × K)} (h : SortedPts l) : l.Nodup := by
  refine List.Pairwise.imp ?_ h
  intro p q hlt e
  rw [e] at hlt; exact lt_irrefl _ hlt

theorem eq_of_subset {l m : List (K × K)} (hl : SortedPts l) (hm : SortedPts m) (h : ∀ p ∈ l, p ∈ m) (hlen : m.length ≤ l.length) : l = m := by
  have hp : l.Perm m := (List.subperm_of_subset hl.nodup h).perm_of_length_le hlen
  exact List.Perm.eq_of_pairwise (fun a b _ _ h1 h2 => absurd (lt_trans h1 h2) (lt_irrefl _)) hl hm hp

end Codac
