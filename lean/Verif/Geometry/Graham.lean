import Mathlib.Analysis.Convex.Hull
import Mathlib.Analysis.Convex.Combination
import Mathlib.Data.List.Sort
import Mathlib.Tactic.Linarith
import Mathlib.Tactic.LinearCombination
import Mathlib.Tactic.Ring

/-!
# `GrahamScan::convex_hull`

Models `/repo/src/core/geometry/codac_GrahamScan.cpp:23-166` and `ThickPoint::remove_identical_pts`, `ThickPoint::aligned`
(codac_ThickPoint.cpp:157-161, 220-238). The products and sums of coordinates are exact: the intervals of the code are then degenerate.
-/

set_option linter.unusedSectionVars false

namespace Codac.Graham

variable {K : Type*} [Field K] [LinearOrder K] [IsStrictOrderedRing K]

/-- a point of the plane -/
abbrev Pt (K : Type*) := K × K

/-- the cross product of `GrahamScan::orientation(o, a, b)` (codac_GrahamScan.cpp:137-144) and `ThickPoint::aligned(o, a, b)`
(codac_ThickPoint.cpp:157-161): positive for `COUNTERCLOCKWISE`, negative for `CLOCKWISE`, null for `UNDEFINED` and `YES` -/
def cr (o a b : Pt K) : K := (a.1 - o.1) * (b.2 - o.2) - (a.2 - o.2) * (b.1 - o.1)

/-- `GrahamScan::dist`, codac_GrahamScan.cpp:132-135 -/
def dist2 (a b : Pt K) : K := (a.1 - b.1) ^ 2 + (a.2 - b.2) ^ 2

/-- `ThickPoint::remove_identical_pts`, codac_ThickPoint.cpp:220-238 -/
def removeIdentical (l : List (Pt K)) : List (Pt K) := l.foldl (fun acc p => if p ∈ acc then acc else acc ++ [p]) []

/-- the search of the bottommost, then leftmost, point, codac_GrahamScan.cpp:38-52: index `i` of the head of the list, current index
`j` and current point `m` -/
def lowest : List (Pt K) → Nat → Nat → Pt K → Nat × Pt K
  | [], _, j, m => (j, m)
  | p :: l, i, j, m => if p.2 < m.2 ∨ (m.2 = p.2 ∧ p.1 < m.1) then lowest l (i + 1) i p else lowest l (i + 1) j m

/-- `swap(v_pts[0], v_pts[id_min])`, codac_GrahamScan.cpp:56 -/
def swapFirst (l : List (Pt K)) (j : Nat) (m : Pt K) : List (Pt K) :=
  match l with
  | [] => []
  | p :: _ => (l.set j p).set 0 m

/-- `ThickPointsSorter(p0)`, codac_GrahamScan.cpp:153-165 -/
def before (p0 a b : Pt K) : Prop := 0 < cr p0 a b ∨ (cr p0 a b = 0 ∧ dist2 p0 a ≤ dist2 p0 b)

instance (p0 a b : Pt K) : Decidable (before p0 a b) := by unfold before; infer_instance

/-- the removal of the aligned points on the sorted points after the first one, codac_GrahamScan.cpp:75-83 -/
def runs (p0 : Pt K) : List (Pt K) → List (Pt K)
  | [] => []
  | [x] => [x]
  | x :: y :: l => if cr p0 x y = 0 then runs p0 (y :: l) else x :: runs p0 (y :: l)

/-- the `while` loop popping the points, codac_GrahamScan.cpp:100-101; the head of the list is the top of the stack -/
def popLoop (p : Pt K) : List (Pt K) → List (Pt K)
  | a :: b :: s => if cr b a p < 0 then popLoop p (b :: s) else a :: b :: s
  | s => s

/-- one iteration of the loop of codac_GrahamScan.cpp:95-103 -/
def push (s : List (Pt K)) (p : Pt K) : List (Pt K) := p :: popLoop p s

/-- codac_GrahamScan.cpp:70-112, for the sorted points `p0 :: l`: the array once the aligned points are removed is `arr`, its `m` first
elements are meaningful, the others are those of the sorted array -/
def scan (p0 : Pt K) (l : List (Pt K)) : List (Pt K) :=
  let kept := p0 :: runs p0 l
  let m := kept.length
  let arr := kept ++ (p0 :: l).drop m
  (((kept.drop 3).foldl push (arr.take 3).reverse)).reverse

/-- `GrahamScan::convex_hull`, codac_GrahamScan.cpp:23-113; `std::sort` is an insertion sort (the sorted list is unique, `sort_unique`) -/
def convexHullPts (pts : List (Pt K)) : List (Pt K) :=
  let v := removeIdentical pts
  if v.length ≤ 3 then v
  else match v with
    | [] => []
    | p :: l =>
      let r := lowest l 1 0 p
      match (swapFirst v r.1 r.2).insertionSort (before r.2) with
      | [] => []
      | q :: l' => scan q l'

/-! ### Removal of identical points, first point -/

theorem removeIdentical_aux (l acc : List (Pt K)) (h : acc.Nodup) :
    (l.foldl (fun acc p => if p ∈ acc then acc else acc ++ [p]) acc).Nodup ∧
      ∀ p, p ∈ l.foldl (fun acc p => if p ∈ acc then acc else acc ++ [p]) acc ↔ p ∈ acc ∨ p ∈ l := by
  induction l generalizing acc with
  | nil => simpa using h
  | cons q l ih =>
    rw [List.foldl_cons]
    by_cases hq : q ∈ acc
    · rw [if_pos hq]
      obtain ⟨h1, h2⟩ := ih acc h
      refine ⟨h1, fun p => (h2 p).trans ?_⟩
      rw [List.mem_cons]
      constructor
      · rintro (h | h)
        exacts [.inl h, .inr (.inr h)]
      · rintro (h | rfl | h)
        exacts [.inl h, .inl hq, .inr h]
    · rw [if_neg hq]
      obtain ⟨h1, h2⟩ := ih (acc ++ [q]) (by
        rw [List.nodup_append]
        refine ⟨h, by simp, ?_⟩
        rintro a ha b hb rfl
        rw [List.mem_singleton] at hb
        exact hq (hb ▸ ha))
      refine ⟨h1, fun p => (h2 p).trans ?_⟩
      simp only [List.mem_append, List.mem_cons]
      tauto

theorem removeIdentical_nodup (l : List (Pt K)) : (removeIdentical l).Nodup := (removeIdentical_aux l [] .nil).1

theorem mem_removeIdentical {l : List (Pt K)} {p : Pt K} : p ∈ removeIdentical l ↔ p ∈ l := by
  unfold removeIdentical
  simpa using (removeIdentical_aux l [] .nil).2 p

/-- `q` is above `p`, or on its right -/
def Above (p q : Pt K) : Prop := p.2 < q.2 ∨ (p.2 = q.2 ∧ p.1 ≤ q.1)

theorem Above.refl (p : Pt K) : Above p p := .inr ⟨rfl, le_rfl⟩

theorem Above.trans {p q r : Pt K} (h1 : Above p q) (h2 : Above q r) : Above p r := by
  rcases h1 with h1 | ⟨h1, h1'⟩ <;> rcases h2 with h2 | ⟨h2, h2'⟩
  · exact .inl (h1.trans h2)
  · exact .inl (h2 ▸ h1)
  · exact .inl (h1 ▸ h2)
  · exact .inr ⟨h1.trans h2, h1'.trans h2'⟩

theorem lowest_spec (v : List (Pt K)) : ∀ (l pre : List (Pt K)) (j : Nat) (m : Pt K), v = pre ++ l → v[j]? = some m → j < pre.length →
    (∀ q ∈ pre, Above m q) →
    v[(lowest l pre.length j m).1]? = some (lowest l pre.length j m).2 ∧ ∀ q ∈ v, Above (lowest l pre.length j m).2 q := by
  intro l
  induction l with
  | nil =>
    intro pre j m hv hj _ hm
    rw [List.append_nil] at hv
    subst hv
    exact ⟨hj, hm⟩
  | cons p l ih =>
    intro pre j m hv hj hlt hm
    have hv' : v = (pre ++ [p]) ++ l := by rw [hv]; simp
    rw [lowest]
    have hlen : (pre ++ [p]).length = pre.length + 1 := by simp
    split
    · rename_i hc
      have := ih (pre ++ [p]) pre.length p hv' (by rw [hv]; simp) (by simp) (by
        have hpm : Above p m := by
          rcases hc with h | ⟨h, h'⟩
          · exact .inl h
          · exact .inr ⟨h.symm, h'.le⟩
        intro q hq
        rcases List.mem_append.mp hq with hq | hq
        · exact hpm.trans (hm q hq)
        · rw [List.mem_singleton.mp hq]; exact Above.refl p)
      rw [hlen] at this
      exact this
    · rename_i hc
      have := ih (pre ++ [p]) j m hv' hj (by rw [hlen]; omega) (by
        intro q hq
        rcases List.mem_append.mp hq with hq | hq
        · exact hm q hq
        · rw [List.mem_singleton.mp hq]
          rw [not_or, not_and, not_lt, not_lt] at hc
          rcases lt_or_eq_of_le hc.1 with h | h
          · exact .inl h
          · exact .inr ⟨h, hc.2 h⟩)
      rw [hlen] at this
      exact this

theorem swapFirst_perm {l : List (Pt K)} {j : Nat} {m : Pt K} (hj : l[j]? = some m) : (swapFirst l j m).Perm l := by
  cases l with
  | nil => simp at hj
  | cons p l =>
    unfold swapFirst
    cases j with
    | zero =>
      simp only [List.getElem?_cons_zero, Option.some.injEq] at hj
      subst hj; simp
    | succ j =>
      simp only [List.getElem?_cons_succ] at hj
      simp only [List.set_cons_succ, List.set_cons_zero]
      obtain ⟨hlt, hj⟩ := List.getElem?_eq_some_iff.mp hj
      subst hj
      have : l.set j p = l.take j ++ p :: l.drop (j + 1) := by
        rw [List.set_eq_take_append_cons_drop, if_pos hlt]
      rw [this]
      have e : l = l.take j ++ l[j] :: l.drop (j + 1) := by
        conv_lhs => rw [← List.take_append_drop j l, List.drop_eq_getElem_cons hlt]
      generalize ht : l.take j = x at *
      generalize hd : l.drop (j + 1) = y at *
      rw [List.perm_iff_count]
      intro a
      conv_rhs => rw [e]
      simp only [List.count_cons, List.count_append]
      omega

/-! ### The order -/

theorem cr_self (o a : Pt K) : cr o a a = 0 := by unfold cr; ring
theorem cr_left (o a : Pt K) : cr o o a = 0 := by unfold cr; ring
theorem cr_swap (o a b : Pt K) : cr o b a = - cr o a b := by unfold cr; ring
theorem cr_cycle (o a b : Pt K) : cr a b o = cr o a b := by unfold cr; ring

/-- transitivity of the angles in the half plane -/
theorem cr_trans {o a b c : Pt K} (ha : Above o a) (hb : Above o b) (hc : Above o c) (hb0 : b ≠ o) (h1 : 0 ≤ cr o a b) (h2 : 0 ≤ cr o b c) :
    0 ≤ cr o a c := by
  have key : cr o a c * (b.2 - o.2) = cr o a b * (c.2 - o.2) + cr o b c * (a.2 - o.2) := by unfold cr; ring
  have pa : 0 ≤ a.2 - o.2 := by rcases ha with h | ⟨h, _⟩ <;> linarith
  have pc : 0 ≤ c.2 - o.2 := by rcases hc with h | ⟨h, _⟩ <;> linarith
  rcases hb with h | ⟨h, h'⟩
  · by_contra hn
    have := mul_neg_of_neg_of_pos (not_le.mp hn) (sub_pos.mpr h)
    have := mul_nonneg h1 pc
    have := mul_nonneg h2 pa
    linarith
  · have hx : 0 < b.1 - o.1 := by
      rcases lt_or_eq_of_le h' with h'' | h''
      · linarith
      · exact absurd (Prod.ext h''.symm h.symm) hb0
    have e1 : cr o a b = - ((a.2 - o.2) * (b.1 - o.1)) := by unfold cr; rw [← h]; ring
    have : a.2 - o.2 = 0 := by
      by_contra hne
      have := mul_pos (lt_of_le_of_ne pa (Ne.symm hne)) hx
      linarith
    have pa' : 0 ≤ a.1 - o.1 := by rcases ha with h | ⟨_, h⟩ <;> linarith
    unfold cr
    rw [this]
    nlinarith [mul_nonneg pa' pc]

theorem cr_trans_lt {o a b c : Pt K} (ha : Above o a) (hb : Above o b) (hc : Above o c) (hc0 : c ≠ o) (h1 : 0 < cr o a b)
    (h2 : 0 ≤ cr o b c) : 0 < cr o a c := by
  have hb0 : b ≠ o := by rintro rfl; rw [cr_swap, cr_left] at h1; simp at h1
  have ha0 : a ≠ o := by rintro rfl; rw [cr_left] at h1; simp at h1
  refine lt_of_le_of_ne (cr_trans ha hb hc hb0 h1.le h2) fun h => ?_
  -- a and c aligned: c before b
  have : 0 ≤ cr o c a := by rw [cr_swap, ← h]; simp
  have h3 := cr_trans hb hc ha hc0 h2 this
  rw [cr_swap] at h3
  linarith

/-- aligned points of the half plane, by increasing distance -/
theorem aligned_iff {o a b : Pt K} (ha : Above o a) (hb : Above o b) (h : cr o a b = 0) (hd : dist2 o a ≤ dist2 o b) :
    ∃ t : K, 0 ≤ t ∧ t ≤ 1 ∧ a.1 - o.1 = t * (b.1 - o.1) ∧ a.2 - o.2 = t * (b.2 - o.2) := by
  unfold cr at h
  unfold dist2 at hd
  obtain ⟨a1, ha1⟩ : ∃ x, x = a.1 - o.1 := ⟨_, rfl⟩
  obtain ⟨a2, ha2⟩ : ∃ x, x = a.2 - o.2 := ⟨_, rfl⟩
  obtain ⟨b1, hb1⟩ : ∃ x, x = b.1 - o.1 := ⟨_, rfl⟩
  obtain ⟨b2, hb2⟩ : ∃ x, x = b.2 - o.2 := ⟨_, rfl⟩
  have pa : 0 < a2 ∨ (a2 = 0 ∧ 0 ≤ a1) := by
    rcases ha with h | ⟨h, h'⟩
    · left; rw [ha2]; linarith
    · right; rw [ha1, ha2]; exact ⟨by linarith, by linarith⟩
  have pb : 0 < b2 ∨ (b2 = 0 ∧ 0 ≤ b1) := by
    rcases hb with h | ⟨h, h'⟩
    · left; rw [hb2]; linarith
    · right; rw [hb1, hb2]; exact ⟨by linarith, by linarith⟩
  have hd' : a1 ^ 2 + a2 ^ 2 ≤ b1 ^ 2 + b2 ^ 2 := by
    rw [ha1, ha2, hb1, hb2]; nlinarith
  rw [← ha1, ← ha2, ← hb1, ← hb2] at h ⊢
  clear ha hb hd ha1 ha2 hb1 hb2
  rcases pb with pb | ⟨rfl, pb⟩
  · have e1 : a1 = a2 / b2 * b1 := by field_simp; linear_combination h
    have e2 : a2 = a2 / b2 * b2 := by field_simp
    have h0 : 0 ≤ a2 / b2 := div_nonneg (by rcases pa with p | ⟨p, _⟩ <;> linarith) pb.le
    refine ⟨a2 / b2, h0, ?_, e1, e2⟩
    generalize a2 / b2 = t at *
    rw [e1, e2] at hd'
    by_contra hc
    have hc := not_le.mp hc
    have : 0 < b1 ^ 2 + b2 ^ 2 := by positivity
    nlinarith [mul_pos (sub_pos.mpr hc) this, mul_pos (by linarith : (0:K) < t + 1) (mul_pos (sub_pos.mpr hc) this)]
  · rcases pb.eq_or_lt with rfl | pb
    · have : a1 ^ 2 + a2 ^ 2 ≤ 0 := by simpa using hd'
      have h1 : a1 = 0 := by nlinarith [sq_nonneg a1, sq_nonneg a2]
      have h2 : a2 = 0 := by nlinarith [sq_nonneg a1, sq_nonneg a2]
      exact ⟨0, le_rfl, zero_le_one, by simp [h1], by simp [h2]⟩
    · have h2 : a2 = 0 := by
        have : a2 * b1 = 0 := by linarith
        exact (mul_eq_zero.mp this).resolve_right pb.ne'
      subst h2
      have pa : 0 ≤ a1 := by rcases pa with p | ⟨_, p⟩; exacts [absurd p (lt_irrefl _), p]
      have : a1 ≤ b1 := by nlinarith
      exact ⟨a1 / b1, div_nonneg pa pb.le, (div_le_one pb).mpr this, by field_simp, by simp⟩

theorem eq_of_aligned {o a b : Pt K} (ha : Above o a) (hb : Above o b) (h : cr o a b = 0) (hd : dist2 o a = dist2 o b) : a = b := by
  obtain ⟨t, t0, t1, e1, e2⟩ := aligned_iff ha hb h hd.le
  have hd' : (t * (b.1 - o.1)) ^ 2 + (t * (b.2 - o.2)) ^ 2 = (b.1 - o.1) ^ 2 + (b.2 - o.2) ^ 2 := by
    rw [← e1, ← e2]
    unfold dist2 at hd
    nlinarith
  by_cases h0 : (b.1 - o.1) ^ 2 + (b.2 - o.2) ^ 2 = 0
  · have k1 : b.1 - o.1 = 0 := by nlinarith [sq_nonneg (b.1 - o.1), sq_nonneg (b.2 - o.2)]
    have k2 : b.2 - o.2 = 0 := by nlinarith [sq_nonneg (b.1 - o.1), sq_nonneg (b.2 - o.2)]
    rw [k1] at e1
    rw [k2] at e2
    exact Prod.ext (by linarith) (by linarith)
  · have ht : t ^ 2 = 1 := by
      have : (t ^ 2 - 1) * ((b.1 - o.1) ^ 2 + (b.2 - o.2) ^ 2) = 0 := by linear_combination hd'
      rcases mul_eq_zero.mp this with h | h
      · linarith
      · exact absurd h h0
    have : t = 1 := by nlinarith
    subst this
    exact Prod.ext (by linarith) (by linarith)

theorem before_total (o a b : Pt K) : before o a b ∨ before o b a := by
  rcases lt_trichotomy (cr o a b) 0 with h | h | h
  · exact .inr (.inl (by rw [cr_swap]; linarith))
  · rcases le_total (dist2 o a) (dist2 o b) with h' | h'
    · exact .inl (.inr ⟨h, h'⟩)
    · exact .inr (.inr ⟨by rw [cr_swap, h]; simp, h'⟩)
  · exact .inl (.inl h)

theorem before_antisymm {o a b : Pt K} (ha : Above o a) (hb : Above o b) (h1 : before o a b) (h2 : before o b a) : a = b := by
  rcases h1 with h1 | ⟨h1, h1'⟩ <;> rcases h2 with h2 | ⟨h2, h2'⟩
  · rw [cr_swap] at h2; linarith
  · rw [cr_swap] at h2; linarith
  · rw [cr_swap] at h2; linarith
  · exact eq_of_aligned ha hb h1 (le_antisymm h1' h2')

theorem before_nonneg {o a b : Pt K} (h : before o a b) : 0 ≤ cr o a b := by
  rcases h with h | h
  exacts [h.le, h.1.ge]

theorem dist2_self (o : Pt K) : dist2 o o = 0 := by unfold dist2; ring
theorem dist2_nonneg (o a : Pt K) : 0 ≤ dist2 o a := by unfold dist2; positivity

theorem dist2_eq_zero {o a : Pt K} (h : dist2 o a ≤ 0) : a = o := by
  unfold dist2 at h
  have h1 : o.1 - a.1 = 0 := by nlinarith [sq_nonneg (o.1 - a.1), sq_nonneg (o.2 - a.2)]
  have h2 : o.2 - a.2 = 0 := by nlinarith [sq_nonneg (o.1 - a.1), sq_nonneg (o.2 - a.2)]
  exact Prod.ext (by linarith) (by linarith)

theorem before_trans {o a b c : Pt K} (ha : Above o a) (hb : Above o b) (hc : Above o c) (h1 : before o a b) (h2 : before o b c) :
    before o a c := by
  by_cases hb0 : b = o
  · subst hb0
    have ha0 : a = b := by
      rcases h1 with h1 | ⟨_, h1⟩
      · rw [cr_swap, cr_left] at h1; simp at h1
      · rw [dist2_self] at h1; exact dist2_eq_zero h1
    rw [ha0]; exact h2
  by_cases hc0 : c = o
  · subst hc0
    exfalso
    rcases h2 with h2 | ⟨_, h2⟩
    · rw [cr_swap, cr_left] at h2; simp at h2
    · rw [dist2_self] at h2; exact hb0 (dist2_eq_zero h2)
  have h := cr_trans ha hb hc hb0 (before_nonneg h1) (before_nonneg h2)
  rcases h.eq_or_lt with h | h
  · right
    refine ⟨h.symm, ?_⟩
    rcases h1 with h1 | ⟨h1, h1'⟩
    · have := cr_trans_lt ha hb hc hc0 h1 (before_nonneg h2)
      rw [← h] at this; exact absurd this (lt_irrefl _)
    · rcases h2 with h2 | ⟨h2, h2'⟩
      · by_cases ha0 : a = o
        · rw [ha0, dist2_self]; exact dist2_nonneg _ _
        · exfalso
          -- b, a aligned, b before c strictly
          have e : 0 ≤ cr o c a := by rw [cr_swap, ← h]; simp
          have := cr_trans_lt hb hc ha ha0 h2 e
          rw [cr_swap, h1] at this; simp at this
      · exact h1'.trans h2'
  · exact .inl h

/-! ### Sorting -/

theorem mem_insert {o a x : Pt K} {l : List (Pt K)} : x ∈ l.orderedInsert (before o) a ↔ x = a ∨ x ∈ l := by
  rw [(List.perm_orderedInsert (before o) a l).mem_iff, List.mem_cons]

theorem sort_insert {o a : Pt K} {l : List (Pt K)} (hl : ∀ x ∈ l, Above o x) (ha : Above o a) (h : l.Pairwise (before o)) :
    (l.orderedInsert (before o) a).Pairwise (before o) := by
  induction l with
  | nil => simp
  | cons b l ih =>
    obtain ⟨h1, h2⟩ := List.pairwise_cons.mp h
    have hb := hl b (by simp)
    have hl' : ∀ x ∈ l, Above o x := fun x hx => hl x (by simp [hx])
    rw [List.orderedInsert]
    split
    · rename_i hab
      refine List.pairwise_cons.mpr ⟨fun x hx => ?_, h⟩
      rcases List.mem_cons.mp hx with rfl | hx
      · exact hab
      · exact before_trans ha hb (hl' x hx) hab (h1 x hx)
    · rename_i hab
      refine List.pairwise_cons.mpr ⟨fun x hx => ?_, ih hl' h2⟩
      rcases mem_insert.mp hx with rfl | hx
      · exact (before_total o _ _).resolve_left hab
      · exact h1 x hx

theorem sort_sorted {o : Pt K} {l : List (Pt K)} (hl : ∀ x ∈ l, Above o x) : (l.insertionSort (before o)).Pairwise (before o) := by
  induction l with
  | nil => simp
  | cons b l ih =>
    rw [List.insertionSort_cons]
    exact sort_insert (fun x hx => hl x (by simp [(List.perm_insertionSort _ l).mem_iff.mp hx])) (hl b (by simp))
      (ih fun x hx => hl x (by simp [hx]))

/-- the result of `std::sort` does not depend on its algorithm -/
theorem sort_unique {o : Pt K} {l s : List (Pt K)} (hl : ∀ x ∈ l, Above o x) (hp : s.Perm l) (hs : s.Pairwise (before o)) :
    s = l.insertionSort (before o) := by
  have hp' := hp.trans (List.perm_insertionSort (before o) l).symm
  refine hp'.eq_of_pairwise (fun a b ha hb h1 h2 => ?_) hs (sort_sorted hl)
  exact before_antisymm (hl a (hp.mem_iff.mp ha)) (hl b (hp.mem_iff.mp (hp'.mem_iff.mpr hb))) h1 h2

/-! ### Aligned points -/

/-- the convex hull of a list of points -/
def Hull (l : List (Pt K)) : Set (Pt K) := convexHull K {p | p ∈ l}

theorem Hull.mem {l : List (Pt K)} {p : Pt K} (h : p ∈ l) : p ∈ Hull l := subset_convexHull K _ h

theorem Hull.mono {l l' : List (Pt K)} (h : ∀ p ∈ l, p ∈ Hull l') : Hull l ⊆ Hull l' :=
  convexHull_min (fun p hp => h p hp) (convex_convexHull K _)

theorem Hull.segment {l : List (Pt K)} {o a b : Pt K} (ho : o ∈ Hull l) (hb : b ∈ Hull l) {t : K} (t0 : 0 ≤ t) (t1 : t ≤ 1)
    (e1 : a.1 - o.1 = t * (b.1 - o.1)) (e2 : a.2 - o.2 = t * (b.2 - o.2)) : a ∈ Hull l := by
  have h := (convex_convexHull K {p | p ∈ l}) ho hb (sub_nonneg.mpr t1) t0 (by ring)
  have : a = (1 - t) • o + t • b := by
    refine Prod.ext ?_ ?_
    · simp only [Prod.fst_add, Prod.smul_fst, smul_eq_mul]; linear_combination e1
    · simp only [Prod.snd_add, Prod.smul_snd, smul_eq_mul]; linear_combination e2
  rw [this]; exact h

theorem runs_sublist (o : Pt K) (l : List (Pt K)) : (runs o l).Sublist l := by
  induction l using runs.induct o with
  | case1 => exact .slnil
  | case2 x => exact List.Sublist.refl _
  | case3 x y l h ih => rw [runs, if_pos h]; exact ih.cons _
  | case4 x y l h ih => rw [runs, if_neg h]; exact ih.cons_cons _

theorem runs_ne {o : Pt K} {l : List (Pt K)} (h : l ≠ []) : runs o l ≠ [] := by
  induction l using runs.induct o with
  | case1 => exact absurd rfl h
  | case2 x => simp [runs]
  | case3 x y l hc ih => rw [runs, if_pos hc]; exact ih (by simp)
  | case4 x y l hc ih => rw [runs, if_neg hc]; simp

theorem runs_strict {o : Pt K} {l : List (Pt K)} (ha : ∀ x ∈ l, Above o x) (h0 : ∀ x ∈ l, x ≠ o) (h : l.Pairwise (before o)) :
    (runs o l).Pairwise fun a b => 0 < cr o a b := by
  induction l using runs.induct o with
  | case1 => simp [runs]
  | case2 x => simp [runs]
  | case3 x y l hc ih =>
    rw [runs, if_pos hc]
    exact ih (fun x hx => ha x (List.mem_cons_of_mem _ hx)) (fun x hx => h0 x (List.mem_cons_of_mem _ hx)) (List.pairwise_cons.mp h).2
  | case4 x y l hc ih =>
    rw [runs, if_neg hc]
    obtain ⟨h1, h2⟩ := List.pairwise_cons.mp h
    refine List.pairwise_cons.mpr ⟨fun z hz => ?_,
      ih (fun x hx => ha x (List.mem_cons_of_mem _ hx)) (fun x hx => h0 x (List.mem_cons_of_mem _ hx)) h2⟩
    have hz := (runs_sublist o _).subset hz
    have hxy : 0 < cr o x y := lt_of_le_of_ne (before_nonneg (h1 y (by simp))) (Ne.symm hc)
    rcases List.mem_cons.mp hz with rfl | hz'
    · exact hxy
    · exact cr_trans_lt (ha x (by simp)) (ha y (by simp)) (ha z (List.mem_cons_of_mem _ hz)) (h0 z (List.mem_cons_of_mem _ hz)) hxy
        (before_nonneg ((List.pairwise_cons.mp h2).1 z hz'))

theorem runs_hull {o : Pt K} {l : List (Pt K)} (ha : ∀ x ∈ l, Above o x) (h : l.Pairwise (before o)) :
    ∀ x ∈ l, x ∈ Hull (o :: runs o l) := by
  induction l using runs.induct o with
  | case1 => simp
  | case2 x =>
    intro y hy
    rw [List.mem_singleton] at hy
    subst hy
    exact Hull.mem (by simp [runs])
  | case3 x y l hc ih =>
    rw [runs, if_pos hc]
    obtain ⟨h1, h2⟩ := List.pairwise_cons.mp h
    have ih := ih (fun x hx => ha x (List.mem_cons_of_mem _ hx)) h2
    intro z hz
    rcases List.mem_cons.mp hz with rfl | hz
    · have hd : dist2 o z ≤ dist2 o y := by
        rcases h1 y (by simp) with h | h
        · rw [hc] at h; exact absurd h (lt_irrefl _)
        · exact h.2
      obtain ⟨t, t0, t1, e1, e2⟩ := aligned_iff (ha z (by simp)) (ha y (by simp)) hc hd
      exact Hull.segment (Hull.mem (by simp)) (ih y (by simp)) t0 t1 e1 e2
    · exact ih z hz
  | case4 x y l hc ih =>
    rw [runs, if_neg hc]
    have ih := ih (fun x hx => ha x (List.mem_cons_of_mem _ hx)) (List.pairwise_cons.mp h).2
    intro z hz
    rcases List.mem_cons.mp hz with rfl | hz
    · exact Hull.mem (by simp)
    · refine Hull.mono (fun p hp => Hull.mem ?_) (ih z hz)
      simp only [List.mem_cons] at hp ⊢
      tauto

/-! ### The stack -/

theorem cr_first {p a b c d : Pt K} (h1 : 0 < cr p b c) (h2 : 0 ≤ cr p b d) (h3 : 0 ≤ cr p a b) (h4 : 0 ≤ cr a b c) (h5 : 0 ≤ cr b c d) :
    0 ≤ cr a b d := by
  have key : cr a b d * cr p b c = cr b c d * cr p a b + cr p b d * cr a b c := by unfold cr; ring
  by_contra hn
  have := mul_neg_of_neg_of_pos (not_le.mp hn) h1
  have := mul_nonneg h5 h3
  have := mul_nonneg h2 h4
  linarith

theorem cr_second {p a b c d : Pt K} (h1 : 0 < cr p b c) (h2 : 0 ≤ cr p c d) (h3 : 0 ≤ cr p a c) (h4 : 0 ≤ cr a b c) (h5 : 0 ≤ cr b c d) :
    0 ≤ cr a c d := by
  have key : cr a c d * cr p b c = cr b c d * cr p a c + cr p c d * cr a b c := by unfold cr; ring
  by_contra hn
  have := mul_neg_of_neg_of_pos (not_le.mp hn) h1
  have := mul_nonneg h5 h3
  have := mul_nonneg h2 h4
  linarith

/-- a popped point is in the triangle of the first point, the previous one and the new one -/
theorem Hull.triangle {l : List (Pt K)} {p a b c : Pt K} (hp : p ∈ Hull l) (hb : b ∈ Hull l) (hc : c ∈ Hull l)
    (h1 : 0 ≤ cr p b a) (h2 : 0 ≤ cr p a c) (h3 : cr b a c < 0) : a ∈ Hull l := by
  have hD : cr p b c = cr p b a + cr p a c - cr b a c := by unfold cr; ring
  have hpos : 0 < cr p b c := by linarith
  have hS : 0 ≤ (cr p a c + cr p b a) := add_nonneg h2 h1
  -- in the segment from p to a point of [b,c]
  by_cases h0 : cr p a c + cr p b a = 0
  · have e1 : cr p a c = 0 := by linarith
    have e2 : cr p b a = 0 := by linarith
    have k1 : (a.1 - p.1) * cr p b c = cr p a c * (b.1 - p.1) + cr p b a * (c.1 - p.1) := by unfold cr; ring
    have k2 : (a.2 - p.2) * cr p b c = cr p a c * (b.2 - p.2) + cr p b a * (c.2 - p.2) := by unfold cr; ring
    rw [e1, e2] at k1 k2
    have : a = p := by
      refine Prod.ext ?_ ?_
      · have : (a.1 - p.1) = 0 := by
          have : (a.1 - p.1) * cr p b c = 0 := by linarith
          exact (mul_eq_zero.mp this).resolve_right hpos.ne'
        linarith
      · have : (a.2 - p.2) = 0 := by
          have : (a.2 - p.2) * cr p b c = 0 := by linarith
          exact (mul_eq_zero.mp this).resolve_right hpos.ne'
        linarith
    rw [this]; exact hp
  · have hS' : 0 < cr p a c + cr p b a := lt_of_le_of_ne hS (Ne.symm h0)
    obtain ⟨S, hSdef⟩ : ∃ S, S = cr p a c + cr p b a := ⟨_, rfl⟩
    rw [← hSdef] at hS hS' h0
    let r : Pt K := (cr p a c / S) • b + (cr p b a / S) • c
    have hr : r ∈ Hull l := convex_convexHull K _ hb hc (div_nonneg h2 hS) (div_nonneg h1 hS) (by
      rw [← add_div, ← hSdef]; exact div_self hS'.ne')
    have r1 : r.1 = cr p a c / S * b.1 + cr p b a / S * c.1 := rfl
    have r2 : r.2 = cr p a c / S * b.2 + cr p b a / S * c.2 := rfl
    refine Hull.segment (t := S / cr p b c) hp hr (div_nonneg hS hpos.le) ((div_le_one hpos).mpr (by rw [hSdef]; linarith)) ?_ ?_
    · rw [r1]
      have k1 : (a.1 - p.1) * cr p b c = cr p a c * (b.1 - p.1) + cr p b a * (c.1 - p.1) := by unfold cr; ring
      have : cr p a c / S * b.1 + cr p b a / S * c.1 - p.1 = (cr p a c * (b.1 - p.1) + cr p b a * (c.1 - p.1)) / S := by
        field_simp; rw [hSdef]; ring
      rw [this]
      field_simp
      exact k1
    · rw [r2]
      have k1 : (a.2 - p.2) * cr p b c = cr p a c * (b.2 - p.2) + cr p b a * (c.2 - p.2) := by unfold cr; ring
      have : cr p a c / S * b.2 + cr p b a / S * c.2 - p.2 = (cr p a c * (b.2 - p.2) + cr p b a * (c.2 - p.2)) / S := by
        field_simp; rw [hSdef]; ring
      rw [this]
      field_simp
      exact k1

/-- invariant of the stack (the top first), above the first point `p`: strictly increasing angles, no turn to the right between any three
points -/
structure StackInv (p : Pt K) (s : List (Pt K)) : Prop where
  angles : s.Pairwise fun b a => 0 < cr p a b
  turns : ∀ a b c : Pt K, [c, b, a].Sublist s → 0 ≤ cr a b c

theorem StackInv.suffix {p : Pt K} {s s' : List (Pt K)} (h : StackInv p s) (hs : s' <:+ s) : StackInv p s' :=
  ⟨h.angles.sublist hs.sublist, fun a b c hc => h.turns a b c (hc.trans hs.sublist)⟩

theorem popLoop_spec {p pt : Pt K} : ∀ {s : List (Pt K)}, s ≠ [] → StackInv p s → (∀ q ∈ s, 0 < cr p q pt) →
    ∃ s', popLoop pt (s ++ [p]) = s' ++ [p] ∧ s' <:+ s ∧ s' ≠ [] ∧ (∀ a b r, s' = a :: b :: r → 0 ≤ cr b a pt) ∧
      ∀ q ∈ s, q ∈ Hull (pt :: (s' ++ [p]))
  | [], h, _, _ => absurd rfl h
  | [a], _, _, hp => by
    have : ¬ cr p a pt < 0 := not_lt.mpr (hp a (by simp)).le
    refine ⟨[a], ?_, List.suffix_refl _, by simp, ?_, ?_⟩
    · show popLoop pt [a, p] = _
      rw [popLoop, if_neg this]; rfl
    · intro a b r h; simp at h
    · intro q hq; exact Hull.mem (by simp only [List.mem_singleton] at hq; simp [hq])
  | a :: b :: s, _, hI, hp => by
    by_cases hc : cr b a pt < 0
    · obtain ⟨s', e, hs, hne, hl, hh⟩ := popLoop_spec (s := b :: s) (by simp) (hI.suffix (List.suffix_cons a _))
        (fun q hq => hp q (List.mem_cons_of_mem _ hq))
      refine ⟨s', ?_, hs.trans (List.suffix_cons a _), hne, hl, ?_⟩
      · show popLoop pt (a :: b :: (s ++ [p])) = _
        rw [popLoop, if_pos hc]; exact e
      · intro q hq
        rcases List.mem_cons.mp hq with rfl | hq
        · exact Hull.triangle (p := p) (b := b) (c := pt) (Hull.mem (by simp)) (hh b (by simp)) (Hull.mem (by simp))
            ((List.pairwise_cons.mp hI.angles).1 b (by simp)).le (hp q (by simp)).le hc
        · exact hh q hq
    · refine ⟨a :: b :: s, ?_, List.suffix_refl _, by simp, ?_, ?_⟩
      · show popLoop pt (a :: b :: (s ++ [p])) = _
        rw [popLoop, if_neg hc]; rfl
      · intro a' b' r h
        injection h with h1 h2
        injection h2 with h2 h3
        subst h1 h2
        exact not_lt.mp hc
      · intro q hq
        refine Hull.mem ?_
        simp only [List.mem_cons, List.mem_append] at hq ⊢
        tauto

theorem StackInv.push {p pt : Pt K} {s : List (Pt K)} (h : StackInv p s) (hp : ∀ q ∈ s, 0 < cr p q pt)
    (hl : ∀ a b r, s = a :: b :: r → 0 ≤ cr b a pt) : StackInv p (pt :: s) := by
  refine ⟨List.pairwise_cons.mpr ⟨hp, h.angles⟩, ?_⟩
  -- a triple whose last point is the new one
  have top : ∀ t r a, s = t :: r → a ∈ r → 0 ≤ cr a t pt := by
    intro t r a e ha
    cases r with
    | nil => simp at ha
    | cons b r =>
      subst e
      have hb := hl t b r rfl
      rcases List.mem_cons.mp ha with rfl | ha
      · exact hb
      · have A := List.pairwise_cons.mp h.angles
        exact cr_second (p := p) (b := b) (A.1 b (by simp)) (hp t (by simp)).le (A.1 a (List.mem_cons_of_mem _ ha)).le
          (h.turns a b t (by
            refine List.Sublist.cons_cons _ (List.Sublist.cons_cons _ ?_)
            exact List.singleton_sublist.mpr ha)) hb
  intro a b c hc
  rcases List.sublist_cons_iff.mp hc with hc | ⟨r, e, hr⟩
  · exact h.turns a b c hc
  · injection e with e1 e2
    subst e1 e2
    cases s with
    | nil => simp at hr
    | cons t r =>
      rcases List.sublist_cons_iff.mp hr with hr | ⟨r', e, hr'⟩
      · have hbr : b ∈ r := hr.subset (by simp)
        have A := List.pairwise_cons.mp h.angles
        have hab : 0 < cr p a b := by
          have := A.2.sublist hr
          exact (List.pairwise_cons.mp this).1 a (by simp)
        exact cr_first (p := p) (c := t) (A.1 b hbr) (hp b (List.mem_cons_of_mem _ hbr)).le hab.le
          (h.turns a b t (List.Sublist.cons_cons _ hr)) (top t r b rfl hbr)
      · injection e with e1 e2
        subst e1 e2
        exact top b r a rfl (hr'.subset (by simp))

theorem fold_push {p : Pt K} : ∀ (l : List (Pt K)) (s done : List (Pt K)), s ≠ [] → StackInv p s →
    s.Sublist done.reverse → (done ++ l).Pairwise (fun a b => 0 < cr p a b) → (∀ q ∈ done, q ∈ Hull (s ++ [p])) →
    ∃ s', l.foldl Codac.Graham.push (s ++ [p]) = s' ++ [p] ∧ s' ≠ [] ∧ StackInv p s' ∧ s'.Sublist (done ++ l).reverse ∧
      ∀ q ∈ done ++ l, q ∈ Hull (s' ++ [p])
  | [], s, done, hne, hI, hs, _, hh => ⟨s, rfl, hne, hI, by simpa using hs, by simpa using hh⟩
  | pt :: l, s, done, hne, hI, hs, hA, hh => by
    have hp : ∀ q ∈ s, 0 < cr p q pt := fun q hq =>
      (List.pairwise_append.mp hA).2.2 q (List.mem_reverse.mp (hs.subset hq)) pt (by simp)
    obtain ⟨s', e, hsuf, hne', hl, hh'⟩ := popLoop_spec hne hI hp
    have hI' : StackInv p (pt :: s') := (hI.suffix hsuf).push (fun q hq => hp q (hsuf.subset hq)) hl
    obtain ⟨s2, e2, r1, r2, r3, r4⟩ := fold_push l (pt :: s') (done ++ [pt]) (by simp) hI' (by
        rw [List.reverse_append]
        exact List.Sublist.cons_cons _ (hsuf.sublist.trans hs)) (by simpa using hA) (by
        intro q hq
        rcases List.mem_append.mp hq with hq | hq
        · refine Hull.mono (fun x hx => ?_) (hh q hq)
          rcases List.mem_append.mp hx with hx | hx
          · exact hh' x hx
          · refine Hull.mem ?_
            simp only [List.mem_singleton] at hx
            simp [hx]
        · refine Hull.mem ?_
          simp only [List.mem_singleton] at hq
          simp [hq])
    refine ⟨s2, ?_, r1, r2, by simpa using r3, by simpa using r4⟩
    rw [List.foldl_cons, Codac.Graham.push, e]
    exact e2

theorem cr_zero_trans {o a b c : Pt K} (hb : b ≠ o) (h1 : cr o a b = 0) (h2 : cr o b c = 0) : cr o a c = 0 := by
  have k1 : cr o a c * (b.1 - o.1) = cr o a b * (c.1 - o.1) + cr o b c * (a.1 - o.1) := by unfold cr; ring
  have k2 : cr o a c * (b.2 - o.2) = cr o a b * (c.2 - o.2) + cr o b c * (a.2 - o.2) := by unfold cr; ring
  rw [h1, h2, zero_mul, zero_mul, add_zero] at k1 k2
  by_contra hne
  have e1 := (mul_eq_zero.mp k1).resolve_left hne
  have e2 := (mul_eq_zero.mp k2).resolve_left hne
  exact hb (Prod.ext (by linarith) (by linarith))

theorem runs_last {o : Pt K} (l : List (Pt K)) : (runs o l).getLast? = l.getLast? := by
  induction l using runs.induct o with
  | case1 => rfl
  | case2 x => rfl
  | case3 x y l hc ih => rw [runs, if_pos hc, ih]; simp
  | case4 x y l hc ih =>
    rw [runs, if_neg hc, List.getLast?_cons, ih, List.getLast?_cons_cons, List.getLast?_cons]; rfl

theorem runs_single {o x : Pt K} {l : List (Pt K)} (h0 : ∀ a ∈ l, a ≠ o) (hr : runs o l = [x]) : ∀ a ∈ l, cr o a x = 0 := by
  induction l using runs.induct o with
  | case1 => simp
  | case2 y =>
    rw [runs] at hr
    injection hr with hr
    intro a ha
    rw [List.mem_singleton.mp ha, hr, cr_self]
  | case3 y z l hc ih =>
    rw [runs, if_pos hc] at hr
    have ih := ih (fun x hx => h0 x (List.mem_cons_of_mem _ hx)) hr
    intro a ha
    rcases List.mem_cons.mp ha with rfl | ha
    · exact cr_zero_trans (h0 z (by simp)) hc (ih z (by simp))
    · exact ih a ha
  | case4 y z l hc ih =>
    rw [runs, if_neg hc] at hr
    injection hr with _ hr
    exact absurd hr (runs_ne (by simp))

/-- the scan: what it returns for sorted points -/
structure ScanSpec (p0 : Pt K) (l r : List (Pt K)) : Prop where
  sub : ∀ q ∈ r, q ∈ p0 :: l
  nodup : r.Nodup
  hull : ∀ q ∈ p0 :: l, q ∈ Hull r
  turns : ∀ a b c : Pt K, [a, b, c].Sublist r → 0 ≤ cr a b c

theorem scan_spec {p0 : Pt K} {l : List (Pt K)} (ha : ∀ x ∈ l, Above p0 x) (h0 : ∀ x ∈ l, x ≠ p0) (hn : l.Nodup)
    (h : l.Pairwise (before p0)) (hl3 : 3 ≤ l.length) : ScanSpec p0 l (scan p0 l) := by
  have hl : l ≠ [] := by rintro rfl; simp at hl3
  have hsub := runs_sublist p0 l
  have hstr := runs_strict ha h0 h
  have hhull := runs_hull ha h
  have hne := runs_ne (o := p0) hl
  unfold scan
  generalize hr : runs p0 l = R at *
  match R, hne with
  | [x], _ =>
    -- every point is aligned with the first one
    have hlen : ([p0, x] ++ (p0 :: l).drop [p0, x].length).take 3 = p0 :: x :: (l.drop 1).take 1 := by simp
    have e : ([p0, x].drop 3).foldl push (([p0, x] ++ (p0 :: l).drop [p0, x].length).take 3).reverse =
      (p0 :: x :: (l.drop 1).take 1).reverse := by rw [hlen]; rfl
    simp only [e, List.reverse_reverse]
    have hx := runs_single h0 hr
    have hxl : x ∈ l := hsub.subset (by simp)
    have hal : ∀ a ∈ p0 :: l, ∀ b ∈ p0 :: l, cr p0 a b = 0 := by
      intro a ha' b hb'
      rcases List.mem_cons.mp ha' with rfl | ha'
      · exact cr_left _ _
      rcases List.mem_cons.mp hb' with rfl | hb'
      · rw [cr_swap, cr_left, neg_zero]
      · exact cr_zero_trans (h0 x hxl) (hx a ha') (by rw [cr_swap, hx b hb', neg_zero])
    have hmem : ∀ q ∈ p0 :: x :: (l.drop 1).take 1, q ∈ p0 :: l := by
      intro q hq
      rcases List.mem_cons.mp hq with rfl | hq
      · simp
      rcases List.mem_cons.mp hq with rfl | hq
      · exact List.mem_cons_of_mem _ hxl
      · exact List.mem_cons_of_mem _ (List.mem_of_mem_drop (List.mem_of_mem_take hq))
    refine ⟨hmem, ?_, ?_, ?_⟩
    · have hlast := runs_last (o := p0) l
      rw [hr] at hlast
      match l, hl3, hn, h0, hlast with
      | a :: b :: c :: l, _, hn, h0, hlast =>
        have hxc : x ∈ c :: l := by
          have : (c :: l).getLast? = some x := by simpa using hlast.symm
          exact List.mem_of_getLast? this
        have hbx : x ≠ b := by
          rintro rfl
          exact (List.nodup_cons.mp (List.nodup_cons.mp hn).2).1 hxc
        have h1 := h0 b (by simp)
        have h2 := h0 x (by simp only [List.mem_cons] at hxc ⊢; tauto)
        simp [hbx, Ne.symm h1, Ne.symm h2]
    · intro q hq
      refine Hull.mono (l := [p0, x]) (fun z hz => Hull.mem ?_) ?_
      · simp only [List.mem_cons, List.not_mem_nil, or_false] at hz ⊢
        tauto
      · rcases List.mem_cons.mp hq with rfl | hq
        · exact Hull.mem (by simp)
        · exact hhull q hq
    · intro a b c hc
      have ha' := hmem a (hc.subset (by simp))
      have hb' := hmem b (hc.subset (by simp))
      have hc' := hmem c (hc.subset (by simp))
      have : cr a b c = cr p0 a b + cr p0 b c - cr p0 a c := by unfold cr; ring
      rw [this, hal a ha' b hb', hal b hb' c hc', hal a ha' c hc']
      simp
  | x :: y :: R, _ =>
    have hlen : (p0 :: x :: y :: R ++ (p0 :: l).drop (p0 :: x :: y :: R).length).take 3 = [p0, x, y] := by simp
    simp only [hlen]
    have hA := hstr
    obtain ⟨s, e, hs, hI, hss, hh⟩ := fold_push (p := p0) R [y, x] [x, y] (by simp)
      ⟨by
        simp only [List.pairwise_cons, List.mem_singleton, List.not_mem_nil, false_imp_iff, implies_true, List.Pairwise.nil, and_true,
          forall_eq]
        exact (List.pairwise_cons.mp hA).1 y (by simp), fun a b c hc => by have := hc.length_le; simp at this⟩
      (by simp) hA (by intro q hq; refine Hull.mem ?_; simp at hq ⊢; tauto)
    have e' : ((p0 :: x :: y :: R).drop 3).foldl push [p0, x, y].reverse = s ++ [p0] := e
    rw [e']
    have hsl : s.reverse.Sublist l := by
      have := hss.reverse
      rw [List.reverse_reverse] at this
      exact this.trans hsub
    have hres : (s ++ [p0]).reverse = p0 :: s.reverse := by simp
    have hHull : ∀ q, q ∈ Hull (s ++ [p0]) → q ∈ Hull (p0 :: s.reverse) := by
      intro q hq
      refine Hull.mono (fun x hx => Hull.mem ?_) hq
      simp only [List.mem_append, List.mem_cons, List.mem_reverse, List.not_mem_nil, or_false] at hx ⊢
      tauto
    rw [hres]
    refine ⟨?_, ?_, ?_, ?_⟩
    · intro q hq
      rcases List.mem_cons.mp hq with rfl | hq
      · simp
      · exact List.mem_cons_of_mem _ (hsl.subset hq)
    · refine List.nodup_cons.mpr ⟨fun hm => h0 p0 (hsl.subset hm) rfl, hsl.nodup hn⟩
    · intro q hq
      have : ∀ z ∈ p0 :: x :: y :: R, z ∈ Hull (p0 :: s.reverse) := by
        intro z hz
        rcases List.mem_cons.mp hz with rfl | hz
        · exact Hull.mem (by simp)
        · exact hHull z (hh z hz)
      rcases List.mem_cons.mp hq with rfl | hq
      · exact Hull.mem (by simp)
      · exact Hull.mono this (hhull q hq)
    · intro a b c hc
      rcases List.sublist_cons_iff.mp hc with hc | ⟨r', e2, hr'⟩
      · refine hI.turns a b c ?_
        have := hc.reverse
        simpa using this
      · injection e2 with e2 e3
        subst e2 e3
        have := hI.angles.sublist (l₁ := [c, b]) (by simpa using hr'.reverse)
        exact ((List.pairwise_cons.mp this).1 b (by simp)).le

/-- the hull of more than three distinct points -/
theorem convexHullPts_spec {pts : List (Pt K)} (h : 3 < (removeIdentical pts).length) :
    (∀ q ∈ convexHullPts pts, q ∈ pts) ∧ (convexHullPts pts).Nodup ∧ (∀ q ∈ pts, q ∈ Hull (convexHullPts pts)) ∧
      ∀ a b c : Pt K, [a, b, c].Sublist (convexHullPts pts) → 0 ≤ cr a b c := by
  have hnd := removeIdentical_nodup pts
  have hmem : ∀ q, q ∈ removeIdentical pts ↔ q ∈ pts := fun q => mem_removeIdentical
  unfold convexHullPts
  generalize removeIdentical pts = v at *
  simp only [if_neg (not_le.mpr h)]
  match v, h, hnd, hmem with
  | p :: l, h, hnd, hmem =>
    obtain ⟨hj, hab⟩ := lowest_spec (p :: l) l [p] 0 p rfl rfl (by simp) (by
      intro q hq; rw [List.mem_singleton.mp hq]; exact Above.refl p)
    simp only [List.length_singleton] at hj hab
    dsimp only
    generalize lowest l 1 0 p = r at *
    obtain ⟨j, m⟩ := r
    simp only at hj hab ⊢
    have hperm := swapFirst_perm hj
    have hperm' := (List.perm_insertionSort (before m) (swapFirst (p :: l) j m)).trans hperm
    have hsort := sort_sorted (o := m) (l := swapFirst (p :: l) j m) fun x hx => hab x (hperm.mem_iff.mp hx)
    generalize (swapFirst (p :: l) j m).insertionSort (before m) = S at *
    have hlenS := hperm'.length_eq
    match S, hperm', hsort, hlenS with
    | [], _, _, hlenS => simp at hlenS
    | q :: l', hperm', hsort, hlenS =>
      have hndS : (q :: l').Nodup := hperm'.nodup_iff.mpr hnd
      have habS : ∀ x ∈ q :: l', Above m x := fun x hx => hab x (hperm'.mem_iff.mp hx)
      have hm : m ∈ q :: l' := hperm'.mem_iff.mpr (List.mem_of_getElem? hj)
      have hq : q = m := by
        rcases List.mem_cons.mp hm with hm | hm
        · exact hm.symm
        · have := (List.pairwise_cons.mp hsort).1 m hm
          rcases this with h | ⟨_, h⟩
          · rw [cr_swap, cr_left] at h; simp at h
          · rw [dist2_self] at h; exact dist2_eq_zero h
      subst hq
      have hs := scan_spec (p0 := q) (l := l') (fun x hx => habS x (List.mem_cons_of_mem _ hx))
        (fun x hx e => (List.nodup_cons.mp hndS).1 (e ▸ hx)) (List.nodup_cons.mp hndS).2 (List.pairwise_cons.mp hsort).2 (by
          simp only [List.length_cons] at h hlenS; omega)
      refine ⟨fun x hx => (hmem x).mp (hperm'.mem_iff.mp (hs.sub x hx)), hs.nodup,
        fun x hx => hs.hull x (hperm'.mem_iff.mpr ((hmem x).mpr hx)), hs.turns⟩

/-- no turn to the right on the polygon: every point of the hull is on the left of each edge -/
theorem edges_of_turns {v : List (Pt K)} (h : ∀ a b c : Pt K, [a, b, c].Sublist v → 0 ≤ cr a b c) {a b : Pt K}
    (he : [a, b] <:+: v ++ v.take 1) : ∀ q ∈ Hull v, 0 ≤ cr a b q := by
  have hv : ∀ q ∈ v, 0 ≤ cr a b q := by
    intro q hq
    by_cases hqa : q = a
    · rw [hqa, cr_swap, cr_left, neg_zero]
    by_cases hqb : q = b
    · rw [hqb, cr_self]
    cases v with
    | nil => simp at hq
    | cons x v =>
      obtain ⟨u, w, e⟩ := he
      rcases w.eq_nil_or_concat with rfl | ⟨w, y, rfl⟩
      · -- the closing edge
        have e' : (u ++ [a]) ++ [b] = (x :: v) ++ [x] := by simpa using e
        obtain ⟨e1, e2⟩ := List.append_inj' e' rfl
        injection e2 with e2 _
        subst e2
        have : q ∈ u := by
          rw [← e1] at hq
          rcases List.mem_append.mp hq with hq | hq
          · exact hq
          · exact absurd (List.mem_singleton.mp hq) hqa
        cases u with
        | nil => simp at this
        | cons x' u =>
          injection e1 with e1 e3
          subst e1
          have hqu : q ∈ u := (List.mem_cons.mp this).resolve_left hqb
          have := h x' q a (by
            rw [← e3]
            refine List.Sublist.cons_cons _ ?_
            exact List.Sublist.append (List.singleton_sublist.mpr hqu) (List.Sublist.refl [a]))
          have k : cr a x' q = cr x' q a := by unfold cr; ring
          rw [k]; exact this
      · have e' : (u ++ [a, b] ++ w) ++ [y] = (x :: v) ++ [x] := by simpa using e
        obtain ⟨e1, _⟩ := List.append_inj' e' rfl
        rw [← e1] at hq h
        rcases List.mem_append.mp hq with hq | hq
        · rcases List.mem_append.mp hq with hq | hq
          · have := h q a b (by
              have : ([q] ++ [a, b] ++ []).Sublist (u ++ [a, b] ++ w) :=
                ((List.singleton_sublist.mpr hq).append (List.Sublist.refl _)).append (List.nil_sublist _)
              exact this)
            rwa [cr_cycle]
          · simp [hqa, hqb] at hq
        · refine h a b q ?_
          have : ([] ++ [a, b] ++ [q]).Sublist (u ++ [a, b] ++ w) :=
            ((List.nil_sublist u).append (List.Sublist.refl _)).append (List.singleton_sublist.mpr hq)
          exact this
  intro q hq
  have hconv : Convex K {q : Pt K | 0 ≤ cr a b q} := by
    intro x hx y hy s t hs ht hst
    have : cr a b (s • x + t • y) = s * cr a b x + t * cr a b y + (1 - s - t) * (cr a b 0) := by
      simp only [cr, Prod.fst_add, Prod.smul_fst, smul_eq_mul, Prod.snd_add, Prod.smul_snd, Prod.fst_zero, Prod.snd_zero]; ring
    have h0 : 1 - s - t = 0 := by linarith
    show 0 ≤ _
    rw [this, h0, zero_mul, add_zero]
    exact add_nonneg (mul_nonneg hs hx) (mul_nonneg ht hy)
  exact convexHull_min (s := {p | p ∈ v}) hv hconv hq

end Codac.Graham
