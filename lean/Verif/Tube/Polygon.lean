import Verif.Tube.PolyModel
import Verif.Geometry.Thicken

/-! # Polygons of slices: the vertices turn left, and the polygon contains the graphs of the trajectories -/

set_option linter.unusedSectionVars false

namespace Codac
open Codac.Graham Codac.Poly

variable {K : Type*} [Field K] [LinearOrder K] [IsStrictOrderedRing K]

/-- `l` is a list of points from `A` to `B`, below the segment `AB`, turning left -/
structure LowChain (t0 t1 : K) (A B : Pt K) (l : List (Pt K)) : Prop where
  x : ∀ X ∈ l, t0 ≤ X.1 ∧ X.1 ≤ t1
  below : ∀ X ∈ l, cr A B X ≤ 0
  pair : ∀ X Y : Pt K, [X, Y].Sublist l → X.1 ≤ Y.1 ∧ 0 ≤ cr X Y A ∧ 0 ≤ cr X Y B
  turns : Turns 1 l

theorem LowChain.sublist {t0 t1 : K} {A B : Pt K} {l l' : List (Pt K)} (h : LowChain t0 t1 A B l) (hl : l'.Sublist l) : LowChain t0 t1 A B l' :=
  ⟨fun X hX => h.x X (hl.subset hX), fun X hX => h.below X (hl.subset hX), fun X Y hXY => h.pair X Y (hXY.trans hl), fun a b c habc => h.turns a b c (habc.trans hl)⟩

theorem sublist_two {α : Type*} {a b : α} {l : List α} : [a, b].Sublist l ↔ ∃ l1 l2, l = l1 ++ a :: l2 ∧ b ∈ l2 := by
  constructor
  · intro h
    obtain ⟨r1, r2, rfl, h1, h2⟩ := List.cons_sublist_iff.mp h
    obtain ⟨s, t, rfl⟩ := List.append_of_mem h1
    exact ⟨s, t ++ r2, by simp, List.mem_append_right _ (List.singleton_sublist.mp h2)⟩
  · rintro ⟨l1, l2, rfl, h⟩
    exact ((List.singleton_sublist.mpr h).cons_cons a).trans (List.sublist_append_right _ _)

theorem quad_chain {t0 t1 : K} {A P Q B : Pt K} (hA : A.1 = t0) (hB : B.1 = t1) (h1 : t0 ≤ P.1) (h2 : P.1 ≤ Q.1) (h3 : Q.1 ≤ t1)
    (c1 : 0 ≤ cr A P Q) (c2 : 0 ≤ cr A P B) (c3 : 0 ≤ cr A Q B) (c4 : 0 ≤ cr P Q B) : LowChain t0 t1 A B [A, P, Q, B] := by
  have e1 : cr P Q A = cr A P Q := by unfold cr; ring
  have e2 : cr P B A = cr A P B := by unfold cr; ring
  have e3 : cr Q B A = cr A Q B := by unfold cr; ring
  have e4 : cr A B P = - cr A P B := by unfold cr; ring
  have e5 : cr A B Q = - cr A Q B := by unfold cr; ring
  have z1 : ∀ a b : Pt K, cr a b a = 0 := by intro a b; unfold cr; ring
  have z2 : ∀ a b : Pt K, cr a b b = 0 := by intro a b; unfold cr; ring
  constructor
  · intro X hX
    simp only [List.mem_cons, List.not_mem_nil, or_false] at hX
    rcases hX with rfl | rfl | rfl | rfl <;> constructor <;> linarith
  · intro X hX
    simp only [List.mem_cons, List.not_mem_nil, or_false] at hX
    rcases hX with rfl | rfl | rfl | rfl
    · rw [z1]
    · rw [e4]; linarith
    · rw [e5]; linarith
    · rw [z2]
  · intro X Y h
    have h' : (X = A ∧ Y = P) ∨ (X = A ∧ Y = Q) ∨ (X = A ∧ Y = B) ∨ (X = P ∧ Y = Q) ∨ (X = P ∧ Y = B) ∨ (X = Q ∧ Y = B) := by
      have := h
      simp only [List.sublist_cons_iff, List.sublist_nil, List.cons.injEq, reduceCtorEq] at this
      aesop
    rcases h' with ⟨rfl, rfl⟩ | ⟨rfl, rfl⟩ | ⟨rfl, rfl⟩ | ⟨rfl, rfl⟩ | ⟨rfl, rfl⟩ | ⟨rfl, rfl⟩
    · rw [z1]; exact ⟨by linarith, le_rfl, c2⟩
    · rw [z1]; exact ⟨by linarith, le_rfl, c3⟩
    · rw [z1, z2]; exact ⟨by linarith, le_rfl, le_rfl⟩
    · rw [e1]; exact ⟨h2, c1, c4⟩
    · rw [e2, z2]; exact ⟨by linarith, c2, le_rfl⟩
    · rw [e3, z2]; exact ⟨by linarith, c3, le_rfl⟩
  · intro a b c h
    have h' : (a = A ∧ b = P ∧ c = Q) ∨ (a = A ∧ b = P ∧ c = B) ∨ (a = A ∧ b = Q ∧ c = B) ∨ (a = P ∧ b = Q ∧ c = B) := by
      have := h
      simp only [List.sublist_cons_iff, List.sublist_nil, List.cons.injEq, reduceCtorEq] at this
      aesop
    rw [one_mul]
    rcases h' with ⟨rfl, rfl, rfl⟩ | ⟨rfl, rfl, rfl⟩ | ⟨rfl, rfl, rfl⟩ | ⟨rfl, rfl, rfl⟩
    exacts [c1, c2, c3, c4]

/-- opposite of a point -/
abbrev ngp (p : Pt K) : Pt K := (-p.1, -p.2)

/-- a lower chain and an upper chain make a polygon turning left -/
theorem turns_of_chains {t0 t1 : K} (ht : t0 < t1) {A B C D : Pt K} {l u : List (Pt K)} (hA : A.1 = t0) (hB : B.1 = t1) (hC : C.1 = t1) (hD : D.1 = t0)
    (h0 : A.2 ≤ D.2) (h1 : B.2 ≤ C.2) (hl : LowChain t0 t1 A B l) (hu : LowChain (-t1) (-t0) (ngp C) (ngp D) (u.map ngp)) : Turns 1 (l ++ u) := by
  have hw : 0 < t1 - t0 := sub_pos.mpr ht
  -- points of `u`
  have ux : ∀ Z ∈ u, t0 ≤ Z.1 ∧ Z.1 ≤ t1 := by
    intro Z hZ
    have := hu.x _ (List.mem_map_of_mem hZ)
    simp only [neg_le_neg_iff] at this
    exact ⟨this.2, this.1⟩
  have ub : ∀ Z ∈ u, 0 ≤ cr A B Z := by
    intro Z hZ
    have k1 := hu.below _ (List.mem_map_of_mem hZ)
    obtain ⟨k2, k3⟩ := ux Z hZ
    have e : cr A B Z = - cr (ngp C) (ngp D) (ngp Z) + ((t1 - Z.1) * (D.2 - A.2) + (Z.1 - t0) * (C.2 - B.2)) := by
      unfold cr ngp; simp only [hA, hB, hC, hD]; ring
    rw [e]
    have := mul_nonneg (sub_nonneg.mpr k3) (sub_nonneg.mpr h0)
    have := mul_nonneg (sub_nonneg.mpr k2) (sub_nonneg.mpr h1)
    linarith
  have lb : ∀ X ∈ l, 0 ≤ cr C D X := by
    intro X hX
    have k1 := hl.below _ hX
    obtain ⟨k2, k3⟩ := hl.x X hX
    have e : cr C D X = - cr A B X + ((t1 - X.1) * (D.2 - A.2) + (X.1 - t0) * (C.2 - B.2)) := by
      unfold cr; simp only [hA, hB, hC, hD]; ring
    rw [e]
    have := mul_nonneg (sub_nonneg.mpr k3) (sub_nonneg.mpr h0)
    have := mul_nonneg (sub_nonneg.mpr k2) (sub_nonneg.mpr h1)
    linarith
  intro a b c h
  rw [one_mul]
  obtain ⟨l1, l2, e, s1, s2⟩ := List.sublist_append_iff.mp h
  match l1, l2, e, s1, s2 with
  | [], _, e, s1, s2 =>
    rw [List.nil_append] at e
    subst e
    have := hu.turns (ngp a) (ngp b) (ngp c) (s2.map ngp)
    rw [one_mul] at this
    rwa [show cr a b c = cr (ngp a) (ngp b) (ngp c) by unfold cr ngp; ring]
  | [x], _, e, s1, s2 =>
    simp only [List.cons_append, List.nil_append, List.cons.injEq] at e
    obtain ⟨rfl, rfl⟩ := e
    have hx := List.singleton_sublist.mp s1
    obtain ⟨p1, p2, p3⟩ := hu.pair (ngp b) (ngp c) (s2.map ngp)
    obtain ⟨k2, k3⟩ := hl.x a hx
    have e : (t1 - t0) * cr a b c = (a.1 - t0) * cr (ngp b) (ngp c) (ngp C) + (t1 - a.1) * cr (ngp b) (ngp c) (ngp D) + (b.1 - c.1) * cr C D a := by
      unfold cr ngp; simp only [hC, hD]; ring
    have p1' : c.1 ≤ b.1 := by simpa using p1
    have : 0 ≤ (t1 - t0) * cr a b c := by
      rw [e]
      have := mul_nonneg (sub_nonneg.mpr k2) p2
      have := mul_nonneg (sub_nonneg.mpr k3) p3
      have := mul_nonneg (sub_nonneg.mpr p1') (lb a hx)
      linarith
    exact nonneg_of_mul_nonneg_right this hw
  | [x, y], _, e, s1, s2 =>
    simp only [List.cons_append, List.nil_append, List.cons.injEq] at e
    obtain ⟨rfl, rfl, rfl⟩ := e
    have hc := List.singleton_sublist.mp s2
    obtain ⟨p1, p2, p3⟩ := hl.pair a b s1
    obtain ⟨k2, k3⟩ := ux c hc
    have e : (t1 - t0) * cr a b c = (t1 - c.1) * cr a b A + (c.1 - t0) * cr a b B + (b.1 - a.1) * cr A B c := by
      unfold cr; simp only [hA, hB]; ring
    have : 0 ≤ (t1 - t0) * cr a b c := by
      rw [e]
      have := mul_nonneg (sub_nonneg.mpr k3) p2
      have := mul_nonneg (sub_nonneg.mpr k2) p3
      have := mul_nonneg (sub_nonneg.mpr p1) (ub c hc)
      linarith
    exact nonneg_of_mul_nonneg_right this hw
  | [x, y, z], _, e, s1, s2 =>
    simp only [List.cons_append, List.nil_append, List.cons.injEq] at e
    obtain ⟨rfl, rfl, rfl, rfl⟩ := e
    have := hl.turns a b c s1
    rwa [one_mul] at this
  | _ :: _ :: _ :: _ :: _, _, e, _, _ => simp at e

/-- the inner vertices of the lower boundary, with the two ends -/
theorem lowPts_chain {t0 t1 il ol cl vl vu : K} (ht : t0 < t1) (hv : vl ≤ vu) (hi : cl ≤ il) (ho : cl ≤ ol) :
    LowChain t0 t1 (t0, il) (t1, ol) ((t0, il) :: lowPts t0 t1 il ol cl vl vu ++ [(t1, ol)]) := by
  have triv : LowChain t0 t1 (t0, il) (t1, ol) [(t0, il), (t1, ol)] := by
    have := quad_chain (t0 := t0) (t1 := t1) (A := (t0, il)) (P := (t0, il)) (Q := (t0, il)) (B := (t1, ol)) rfl rfl le_rfl le_rfl ht.le
      (by unfold cr; simp) (by unfold cr; simp) (by unfold cr; simp) (by unfold cr; simp)
    exact this.sublist (by simp)
  unfold lowPts
  by_cases hd : vl = vu
  · rw [if_pos hd]; exact triv
  rw [if_neg hd]
  have hw : 0 < vu - vl := sub_pos.mpr (lt_of_le_of_ne hv hd)
  dsimp only
  set ti := (il - ol + vu * t1 - vl * t0) / (vu - vl) with hti
  have e : ti * (vu - vl) = il - ol + vu * t1 - vl * t0 := div_mul_cancel₀ _ (ne_of_gt hw)
  by_cases hin : t0 ≤ ti ∧ ti ≤ t1
  swap
  · rw [if_neg hin]; exact triv
  rw [if_pos hin]
  obtain ⟨g1, g2⟩ := hin
  -- ordinates of the ends
  have eil : il = ol + vu * (ti - t1) - vl * (ti - t0) := by linear_combination -e
  by_cases hcl : cl ≤ ol + vu * (ti - t1)
  · rw [if_pos hcl]
    have := quad_chain (t0 := t0) (t1 := t1) (A := (t0, il)) (P := (ti, ol + vu * (ti - t1))) (Q := (ti, ol + vu * (ti - t1))) (B := (t1, ol)) rfl rfl g1 le_rfl g2
      (by unfold cr; dsimp only; linarith)
      (by unfold cr; dsimp only; rw [eil]; nlinarith [mul_nonneg (mul_nonneg hw.le (sub_nonneg.mpr g1)) (sub_nonneg.mpr g2)])
      (by unfold cr; dsimp only; rw [eil]; nlinarith [mul_nonneg (mul_nonneg hw.le (sub_nonneg.mpr g1)) (sub_nonneg.mpr g2)])
      (by unfold cr; dsimp only; linarith)
    exact this.sublist (by simp)
  · rw [if_neg hcl]
    have hcl := not_le.mp hcl
    have hvu : 0 < vu := by
      by_contra h
      have := mul_nonneg_of_nonpos_of_nonpos (not_lt.mp h) (sub_nonpos.mpr g2)
      linarith
    have hvl : vl < 0 := by
      by_contra h
      have := mul_nonneg (not_lt.mp h) (sub_nonneg.mpr g1)
      linarith
    set p := (cl - il) / vl with hp
    set q := (cl - ol) / vu with hq
    have ep : p * vl = cl - il := div_mul_cancel₀ _ hvl.ne
    have eq : q * vu = cl - ol := div_mul_cancel₀ _ hvu.ne'
    have p0 : 0 ≤ p := div_nonneg_of_nonpos (by linarith) hvl.le
    have q0 : q ≤ 0 := div_nonpos_of_nonpos_of_nonneg (by linarith) hvu.le
    -- the two points are on each side of the crossing
    have p1 : p + t0 ≤ ti := by
      by_contra h
      have := mul_lt_mul_of_neg_right (not_le.mp h) hvl
      nlinarith
    have q1 : ti ≤ q + t1 := by
      by_contra h
      have := mul_lt_mul_of_pos_right (not_le.mp h) hvu
      nlinarith
    have := quad_chain (t0 := t0) (t1 := t1) (A := (t0, il)) (P := (p + t0, cl)) (Q := (q + t1, cl)) (B := (t1, ol)) rfl rfl (by linarith) (by dsimp only; linarith) (by linarith)
      (by unfold cr; dsimp only; nlinarith [mul_nonneg (sub_nonneg.mpr (p1.trans q1)) (sub_nonneg.mpr hi)])
      (by unfold cr; dsimp only; nlinarith [mul_nonneg p0 (sub_nonneg.mpr ho), mul_nonneg (sub_nonneg.mpr hi) (show 0 ≤ t1 - (p + t0) by linarith)])
      (by unfold cr; dsimp only; nlinarith [mul_nonneg (show 0 ≤ q + t1 - t0 by linarith) (sub_nonneg.mpr ho), mul_nonneg (sub_nonneg.mpr hi) (neg_nonneg.mpr q0)])
      (by unfold cr; dsimp only; nlinarith [mul_nonneg (sub_nonneg.mpr (p1.trans q1)) (sub_nonneg.mpr ho)])
    exact this

/-- the upper boundary is the opposite of a lower boundary -/
theorem upPts_neg (t0 t1 iu ou cu vl vu : K) : (upPts t0 t1 iu ou cu vl vu).map ngp = lowPts (-t1) (-t0) (-ou) (-iu) (-cu) vl vu := by
  unfold upPts lowPts
  by_cases hd : vl = vu
  · rw [if_pos hd, if_pos hd]; rfl
  rw [if_neg hd, if_neg hd]
  dsimp only
  have hw : vu - vl ≠ 0 := sub_ne_zero.mpr (Ne.symm hd)
  set ti := (ou - iu + vu * t0 - vl * t1) / (vu - vl) with hti
  have e : ti * (vu - vl) = ou - iu + vu * t0 - vl * t1 := div_mul_cancel₀ _ hw
  have e1 : (-ou - -iu + vu * -t0 - vl * -t1) / (vu - vl) = - ti := by
    rw [hti, ← neg_div]; congr 1; ring
  rw [e1]
  have e2 : -iu + vu * (-ti - -t0) = - (ou + vl * (ti - t1)) := by linear_combination -e
  rw [e2]
  by_cases hin : t0 ≤ ti ∧ ti ≤ t1
  · rw [if_pos hin, if_pos (show -t1 ≤ -ti ∧ -ti ≤ -t0 from ⟨neg_le_neg hin.2, neg_le_neg hin.1⟩)]
    by_cases hc : ou + vl * (ti - t1) ≤ cu
    · rw [if_pos hc, if_pos (neg_le_neg hc)]; rfl
    · rw [if_neg hc, if_neg (fun h => hc (neg_le_neg_iff.mp h))]
      simp only [List.map_cons, List.map_nil, ngp]
      congr 1
      · rw [Prod.mk.injEq]; exact ⟨by ring, rfl⟩
      · congr 1
        rw [Prod.mk.injEq]; exact ⟨by ring, rfl⟩
  · rw [if_neg hin, if_neg (fun h => hin ⟨neg_le_neg_iff.mp h.2, neg_le_neg_iff.mp h.1⟩)]; rfl

theorem removeIdentical_sublist (l : List (Pt K)) : (removeIdentical l).Sublist l := by
  unfold removeIdentical
  have : ∀ (l acc : List (Pt K)), (l.foldl (fun acc p => if p ∈ acc then acc else acc ++ [p]) acc).Sublist (acc ++ l) := by
    intro l
    induction l with
    | nil => intro acc; simp
    | cons p l ih =>
      intro acc
      rw [List.foldl_cons]
      by_cases hp : p ∈ acc
      · rw [if_pos hp]; exact (ih acc).trans ((List.sublist_cons_self p l).append_left acc)
      · rw [if_neg hp]; simpa using ih (acc ++ [p])
  simpa using this l []

/-- the vertices of the polygon of a slice turn left and are distinct -/
theorem slicePts_turns {t0 t1 il iu ol ou cl cu vl vu : K} (ht : t0 < t1) (hv : vl ≤ vu) (hil : cl ≤ il) (hol : cl ≤ ol) (hiu : iu ≤ cu) (hou : ou ≤ cu) (hi : il ≤ iu) (ho : ol ≤ ou) :
    Turns 1 (slicePts t0 t1 il iu ol ou cl cu vl vu) ∧ (slicePts t0 t1 il iu ol ou cl cu vl vu).Nodup := by
  refine ⟨?_, removeIdentical_nodup _⟩
  have h := turns_of_chains (C := (t1, ou)) (D := (t0, iu)) (u := (t1, ou) :: upPts t0 t1 iu ou cu vl vu ++ [(t0, iu)]) ht rfl rfl rfl rfl hi ho (lowPts_chain (cl := cl) ht hv hil hol) ?_
  · exact fun a b c habc => h a b c (habc.trans (removeIdentical_sublist _))
  · have := lowPts_chain (t0 := -t1) (t1 := -t0) (il := -ou) (ol := -iu) (cl := -cu) (neg_lt_neg ht) hv (neg_le_neg hou) (neg_le_neg hiu)
    rw [← upPts_neg] at this
    simpa [ngp] using this

theorem hull_onSeg {v : List (Pt K)} {a b q : Pt K} (ha : a ∈ Hull v) (hb : b ∈ Hull v) (h : OnSeg a b q) : q ∈ Hull v :=
  (convex_convexHull K _).segment_subset ha hb (onSeg_iff_segment.mp h)

theorem hull_of_mem {v : List (Pt K)} {p : Pt K} (h : p ∈ v) : p ∈ Hull v := subset_convexHull K _ h

theorem hull_mono {v w : List (Pt K)} (h : ∀ p ∈ v, p ∈ w) {q : Pt K} (hq : q ∈ Hull v) : q ∈ Hull w := convexHull_mono (fun p hp => h p hp) hq

/-- the point of abscissa `t` of a segment -/
theorem onSeg_at {a b : Pt K} {t : K} (h1 : a.1 ≤ t) (h2 : t ≤ b.1) : ∃ y, OnSeg a b (t, y) ∧ y * (b.1 - a.1) = a.2 * (b.1 - t) + b.2 * (t - a.1) := by
  rcases eq_or_lt_of_le (h1.trans h2) with e | hlt
  · have : t = a.1 := le_antisymm (e ▸ h2) h1
    exact ⟨a.2, ⟨0, le_rfl, zero_le_one, by simp [this], by simp⟩, by rw [this, ← e]; ring⟩
  · have hw : 0 < b.1 - a.1 := sub_pos.mpr hlt
    refine ⟨a.2 + (t - a.1) / (b.1 - a.1) * (b.2 - a.2), ⟨(t - a.1) / (b.1 - a.1), div_nonneg (sub_nonneg.mpr h1) hw.le, (div_le_one hw).mpr (by linarith), ?_, rfl⟩, ?_⟩
    · dsimp only; field_simp; ring
    · field_simp; ring

/-- the lower boundary is below any point above the two lower lines and the envelope -/
theorem lowPts_le {t0 t1 il ol cl vl vu t x : K} (ht : t0 < t1) (hv : vl ≤ vu) (hil : cl ≤ il) (hol : cl ≤ ol) (h0 : t0 ≤ t) (h1 : t ≤ t1)
    (hi : il + vl * (t - t0) ≤ x) (ho : ol + vu * (t - t1) ≤ x) (hc : cl ≤ x) :
    ∃ y ≤ x, (t, y) ∈ Hull ((t0, il) :: lowPts t0 t1 il ol cl vl vu ++ [(t1, ol)]) := by
  -- a vertex on the left and one on the right
  have key : ∀ a b : Pt K, a ∈ (t0, il) :: lowPts t0 t1 il ol cl vl vu ++ [(t1, ol)] → b ∈ (t0, il) :: lowPts t0 t1 il ol cl vl vu ++ [(t1, ol)] → a.1 ≤ t → t ≤ b.1 → a.1 < b.1 →
      a.2 * (b.1 - t) + b.2 * (t - a.1) ≤ x * (b.1 - a.1) → ∃ y ≤ x, (t, y) ∈ Hull ((t0, il) :: lowPts t0 t1 il ol cl vl vu ++ [(t1, ol)]) := by
    intro a b ha hb k1 k2 k3 k4
    obtain ⟨y, y1, y2⟩ := onSeg_at k1 k2
    exact ⟨y, le_of_mul_le_mul_right (y2.le.trans k4) (sub_pos.mpr k3), hull_onSeg (hull_of_mem ha) (hull_of_mem hb) y1⟩
  have key0 : ∀ a : Pt K, a ∈ (t0, il) :: lowPts t0 t1 il ol cl vl vu ++ [(t1, ol)] → a.1 = t → a.2 ≤ x →
      ∃ y ≤ x, (t, y) ∈ Hull ((t0, il) :: lowPts t0 t1 il ol cl vl vu ++ [(t1, ol)]) := by
    intro a ha k1 k2
    exact ⟨a.2, k2, by rw [← k1]; exact hull_of_mem ha⟩
  have mA : ((t0, il) : Pt K) ∈ (t0, il) :: lowPts t0 t1 il ol cl vl vu ++ [(t1, ol)] := by simp
  have mB : ((t1, ol) : Pt K) ∈ (t0, il) :: lowPts t0 t1 il ol cl vl vu ++ [(t1, ol)] := by simp
  have mP : ∀ p ∈ lowPts t0 t1 il ol cl vl vu, p ∈ (t0, il) :: lowPts t0 t1 il ol cl vl vu ++ [(t1, ol)] := fun p hp => by simp [hp]
  have hT := sub_nonneg.mpr h0
  have hU := sub_nonneg.mpr h1
  by_cases hd : vl = vu
  · refine key _ _ mA mB h0 h1 ht ?_
    subst hd
    dsimp only
    nlinarith [mul_le_mul_of_nonneg_right hi hU, mul_le_mul_of_nonneg_right ho hT]
  have hw : 0 < vu - vl := sub_pos.mpr (lt_of_le_of_ne hv hd)
  have hlow : lowPts t0 t1 il ol cl vl vu = if t0 ≤ (il - ol + vu * t1 - vl * t0) / (vu - vl) ∧ (il - ol + vu * t1 - vl * t0) / (vu - vl) ≤ t1 then
      if cl ≤ ol + vu * ((il - ol + vu * t1 - vl * t0) / (vu - vl) - t1) then [((il - ol + vu * t1 - vl * t0) / (vu - vl), ol + vu * ((il - ol + vu * t1 - vl * t0) / (vu - vl) - t1))]
      else [((cl - il) / vl + t0, cl), ((cl - ol) / vu + t1, cl)] else [] := by
    unfold lowPts; rw [if_neg hd]
  set ti := (il - ol + vu * t1 - vl * t0) / (vu - vl) with hti
  have e : ti * (vu - vl) = il - ol + vu * t1 - vl * t0 := div_mul_cancel₀ _ (ne_of_gt hw)
  have eil : il = ol + vu * (ti - t1) - vl * (ti - t0) := by linear_combination -e
  by_cases hin : t0 ≤ ti ∧ ti ≤ t1
  · obtain ⟨g1, g2⟩ := hin
    rw [if_pos ⟨g1, g2⟩] at hlow
    by_cases hcl : cl ≤ ol + vu * (ti - t1)
    · rw [if_pos hcl] at hlow
      have mQ := mP (ti, ol + vu * (ti - t1)) (by rw [hlow]; simp)
      rcases le_total t ti with h | h
      · rcases eq_or_lt_of_le (h0.trans h) with e' | hlt
        · exact key0 _ mA (le_antisymm h0 (e' ▸ h)) (by have : t = t0 := le_antisymm (e' ▸ h) h0; rw [this] at hi; dsimp only; linarith)
        · refine key _ _ mA mQ h0 h hlt ?_
          dsimp only
          have := mul_le_mul_of_nonneg_right hi (sub_nonneg.mpr (g1))
          rw [eil] at this ⊢
          nlinarith
      · rcases eq_or_lt_of_le (h.trans h1) with e' | hlt
        · exact key0 _ mB (le_antisymm (e' ▸ h) h1) (by have : t = t1 := le_antisymm h1 (e' ▸ h); rw [this] at ho; dsimp only; linarith)
        · refine key _ _ mQ mB h h1 hlt ?_
          dsimp only
          have := mul_le_mul_of_nonneg_right ho (sub_nonneg.mpr g2)
          nlinarith
    · rw [if_neg hcl] at hlow
      have hcl := not_le.mp hcl
      have hvu : 0 < vu := by
        by_contra h
        have := mul_nonneg_of_nonpos_of_nonpos (not_lt.mp h) (sub_nonpos.mpr g2)
        linarith
      have hvl : vl < 0 := by
        by_contra h
        have := mul_nonneg (not_lt.mp h) (sub_nonneg.mpr g1)
        linarith
      set p := (cl - il) / vl with hp
      set q := (cl - ol) / vu with hq
      have ep : p * vl = cl - il := div_mul_cancel₀ _ hvl.ne
      have eq : q * vu = cl - ol := div_mul_cancel₀ _ hvu.ne'
      have p0 : 0 ≤ p := div_nonneg_of_nonpos (by linarith) hvl.le
      have q0 : q ≤ 0 := div_nonpos_of_nonpos_of_nonneg (by linarith) hvu.le
      have mX := mP (p + t0, cl) (by rw [hlow]; simp)
      have mY := mP (q + t1, cl) (by rw [hlow]; simp)
      rcases le_total t (p + t0) with h | h
      · rcases eq_or_lt_of_le (h0.trans h) with e' | hlt
        · exact key0 _ mA (le_antisymm h0 (e' ▸ h)) (by have : t = t0 := le_antisymm (e' ▸ h) h0; rw [this] at hi; dsimp only; linarith)
        · refine key _ _ mA mX h0 h hlt ?_
          dsimp only
          have := mul_le_mul_of_nonneg_right hi p0
          nlinarith
      · rcases le_total t (q + t1) with h' | h'
        · rcases eq_or_lt_of_le (h.trans h') with e' | hlt
          · exact key0 _ mX (le_antisymm h (e' ▸ h')) hc
          · refine key _ _ mX mY h h' hlt ?_
            dsimp only
            have := mul_le_mul_of_nonneg_right hc (sub_nonneg.mpr hlt.le)
            nlinarith
        · rcases eq_or_lt_of_le (h'.trans h1) with e' | hlt
          · exact key0 _ mB (le_antisymm (e' ▸ h') h1) (by have : t = t1 := le_antisymm h1 (e' ▸ h'); rw [this] at ho; dsimp only; linarith)
          · refine key _ _ mY mB h' h1 hlt ?_
            dsimp only
            have := mul_le_mul_of_nonneg_right ho (neg_nonneg.mpr q0)
            nlinarith
  · refine key _ _ mA mB h0 h1 ht ?_
    dsimp only
    rcases not_and_or.mp hin with h | h
    · have h := not_le.mp h
      have : ti * (vu - vl) < t0 * (vu - vl) := mul_lt_mul_of_pos_right h hw
      have k := mul_le_mul_of_nonneg_right ho (sub_nonneg.mpr ht.le)
      have k2 : 0 ≤ (t1 - t) * (ol - il - vu * (t1 - t0)) := mul_nonneg hU (by linarith)
      linarith
    · have h := not_le.mp h
      have : t1 * (vu - vl) < ti * (vu - vl) := mul_lt_mul_of_pos_right h hw
      have k := mul_le_mul_of_nonneg_right hi (sub_nonneg.mpr ht.le)
      have k2 : 0 ≤ (t - t0) * (vl * (t1 - t0) - (ol - il)) := mul_nonneg hT (by linarith)
      linarith

/-- a point between the lines and in the envelope is in the polygon -/
theorem slicePts_mem {t0 t1 il iu ol ou cl cu vl vu t x : K} (ht : t0 < t1) (hv : vl ≤ vu) (hil : cl ≤ il) (hol : cl ≤ ol) (hiu : iu ≤ cu) (hou : ou ≤ cu) (h0 : t0 ≤ t) (h1 : t ≤ t1)
    (hi : il + vl * (t - t0) ≤ x) (ho : ol + vu * (t - t1) ≤ x) (hc : cl ≤ x) (hi' : x ≤ iu + vu * (t - t0)) (ho' : x ≤ ou + vl * (t - t1)) (hc' : x ≤ cu) :
    (t, x) ∈ Hull (slicePts t0 t1 il iu ol ou cl cu vl vu) := by
  obtain ⟨y, y1, y2⟩ := lowPts_le ht hv hil hol h0 h1 hi ho hc
  obtain ⟨z, z1, z2⟩ := lowPts_le (t0 := -t1) (t1 := -t0) (il := -ou) (ol := -iu) (cl := -cu) (t := -t) (x := -x) (neg_lt_neg ht) hv (neg_le_neg hou) (neg_le_neg hiu) (neg_le_neg h1) (neg_le_neg h0)
    (by nlinarith) (by nlinarith) (neg_le_neg hc')
  have hl : (t, y) ∈ Hull (slicePts t0 t1 il iu ol ou cl cu vl vu) := by
    refine hull_mono (fun p hp => ?_) y2
    unfold slicePts
    rw [mem_removeIdentical]
    exact List.mem_append_left _ hp
  have hu : (t, -z) ∈ Hull (slicePts t0 t1 il iu ol ou cl cu vl vu) := by
    have k : ((-t1, -ou) :: lowPts (-t1) (-t0) (-ou) (-iu) (-cu) vl vu ++ [(-t0, -iu)] : List (Pt K)) = Poly.neg ((t1, ou) :: upPts t0 t1 iu ou cu vl vu ++ [(t0, iu)]) := by
      rw [← upPts_neg]; simp [Poly.neg]
    rw [k, hull_neg] at z2
    simp only [neg_neg] at z2
    refine hull_mono (fun p hp => ?_) z2
    unfold slicePts
    rw [mem_removeIdentical]
    exact List.mem_append_right _ hp
  refine hull_onSeg hl hu ?_
  have hyz : y ≤ -z := y1.trans (by linarith)
  rcases eq_or_lt_of_le hyz with e | hlt
  · exact ⟨0, le_rfl, zero_le_one, by simp, by dsimp only; linarith⟩
  · have hw : 0 < -z - y := sub_pos.mpr hlt
    exact ⟨(x - y) / (-z - y), div_nonneg (sub_nonneg.mpr y1) hw.le, (div_le_one hw).mpr (by linarith), by simp, by dsimp only; field_simp; ring⟩

/-- when each bound of a gate can be joined to the other gate, all the points of the polygon are between the lines and in the envelope -/
theorem slicePts_sub {t0 t1 il iu ol ou cl cu vl vu : K} (ht : t0 < t1) (hv : vl ≤ vu) (hil : cl ≤ il) (hol : cl ≤ ol) (hiu : iu ≤ cu) (hou : ou ≤ cu) (hi : il ≤ iu) (ho : ol ≤ ou)
    (g1 : ol - vu * (t1 - t0) ≤ il) (g2 : iu ≤ ou - vl * (t1 - t0)) (g3 : il + vl * (t1 - t0) ≤ ol) (g4 : ou ≤ iu + vu * (t1 - t0)) {q : Pt K}
    (hq : q ∈ Hull (slicePts t0 t1 il iu ol ou cl cu vl vu)) : (t0 ≤ q.1 ∧ q.1 ≤ t1) ∧ (il + vl * (q.1 - t0) ≤ q.2 ∧ ol + vu * (q.1 - t1) ≤ q.2 ∧ cl ≤ q.2) ∧
      q.2 ≤ iu + vu * (q.1 - t0) ∧ q.2 ≤ ou + vl * (q.1 - t1) ∧ q.2 ≤ cu := by
  have hT : 0 < t1 - t0 := sub_pos.mpr ht
  -- the inner vertices of a lower boundary
  have low : ∀ {t0 t1 il iu ol ou cl cu : K}, t0 < t1 → cl ≤ il → cl ≤ ol → iu ≤ cu → ou ≤ cu → il ≤ iu → ol ≤ ou → ∀ q ∈ lowPts t0 t1 il ol cl vl vu, (t0 ≤ q.1 ∧ q.1 ≤ t1) ∧
      (il + vl * (q.1 - t0) ≤ q.2 ∧ ol + vu * (q.1 - t1) ≤ q.2 ∧ cl ≤ q.2) ∧ q.2 ≤ iu + vu * (q.1 - t0) ∧ q.2 ≤ ou + vl * (q.1 - t1) ∧ q.2 ≤ cu := by
    intro t0 t1 il iu ol ou cl cu ht hil hol hiu hou hi ho q hq
    unfold lowPts at hq
    by_cases hd : vl = vu
    · rw [if_pos hd] at hq; simp at hq
    rw [if_neg hd] at hq
    have hw : 0 < vu - vl := sub_pos.mpr (lt_of_le_of_ne hv hd)
    dsimp only at hq
    set ti := (il - ol + vu * t1 - vl * t0) / (vu - vl) with hti
    have e : ti * (vu - vl) = il - ol + vu * t1 - vl * t0 := div_mul_cancel₀ _ (ne_of_gt hw)
    by_cases hin : t0 ≤ ti ∧ ti ≤ t1
    swap
    · rw [if_neg hin] at hq; simp at hq
    rw [if_pos hin] at hq
    obtain ⟨k1, k2⟩ := hin
    have a1 := mul_nonneg hw.le (sub_nonneg.mpr k1)
    have a2 := mul_nonneg hw.le (sub_nonneg.mpr k2)
    by_cases hcl : cl ≤ ol + vu * (ti - t1)
    · rw [if_pos hcl, List.mem_singleton] at hq
      subst hq
      dsimp only
      refine ⟨⟨k1, k2⟩, ⟨by linarith, le_rfl, hcl⟩, by linarith, by linarith, ?_⟩
      rcases le_total 0 vu with h | h
      · have := mul_nonneg h (sub_nonneg.mpr k2); linarith
      · have := mul_nonneg_of_nonpos_of_nonpos (hv.trans h) (sub_nonpos.mpr k1); linarith
    · rw [if_neg hcl] at hq
      have hcl := not_le.mp hcl
      have hvu : 0 < vu := by
        by_contra h
        have := mul_nonneg_of_nonpos_of_nonpos (not_lt.mp h) (sub_nonpos.mpr k2)
        linarith
      have hvl : vl < 0 := by
        by_contra h
        have := mul_nonneg (not_lt.mp h) (sub_nonneg.mpr k1)
        linarith
      set p := (cl - il) / vl with hp
      set r := (cl - ol) / vu with hr
      have ep : p * vl = cl - il := div_mul_cancel₀ _ hvl.ne
      have er : r * vu = cl - ol := div_mul_cancel₀ _ hvu.ne'
      have p0 : 0 ≤ p := div_nonneg_of_nonpos (by linarith) hvl.le
      have r0 : r ≤ 0 := div_nonpos_of_nonpos_of_nonneg (by linarith) hvu.le
      have p1 : p + t0 ≤ ti := by
        by_contra h
        have := mul_lt_mul_of_neg_right (not_le.mp h) hvl
        nlinarith
      have r1 : ti ≤ r + t1 := by
        by_contra h
        have := mul_lt_mul_of_pos_right (not_le.mp h) hvu
        nlinarith
      have b1 := mul_nonneg hvu.le (sub_nonneg.mpr p1)
      have b2 := mul_nonneg_of_nonpos_of_nonpos hvl.le (show t0 - (r + t1) ≤ 0 by linarith)
      have b3 := mul_nonneg_of_nonpos_of_nonpos hvl.le (sub_nonpos.mpr r1)
      have b4 := mul_nonneg hvu.le p0
      have b5 := mul_nonneg_of_nonpos_of_nonpos hvl.le (show p + t0 - t1 ≤ 0 by linarith)
      have b6 := mul_nonneg hvu.le (show 0 ≤ r + t1 - t0 by linarith)
      have b7 := mul_nonneg_of_nonpos_of_nonpos hvl.le r0
      simp only [List.mem_cons, List.not_mem_nil, or_false] at hq
      rcases hq with rfl | rfl <;> dsimp only
      · refine ⟨⟨by linarith, by linarith⟩, ⟨by linarith, by linarith, le_rfl⟩, by linarith, by linarith, by linarith⟩
      · refine ⟨⟨by linarith, by linarith⟩, ⟨by linarith, by linarith, le_rfl⟩, by linarith, by linarith, by linarith⟩
  have conv : Convex K {q : Pt K | (t0 ≤ q.1 ∧ q.1 ≤ t1) ∧ (il + vl * (q.1 - t0) ≤ q.2 ∧ ol + vu * (q.1 - t1) ≤ q.2 ∧ cl ≤ q.2) ∧
      q.2 ≤ iu + vu * (q.1 - t0) ∧ q.2 ≤ ou + vl * (q.1 - t1) ∧ q.2 ≤ cu} := by
    rintro x ⟨⟨x1, x2⟩, ⟨x3, x4, x5⟩, x6, x7, x8⟩ y ⟨⟨y1, y2⟩, ⟨y3, y4, y5⟩, y6, y7, y8⟩ a b ha hb hab
    have hb' : b = 1 - a := by linarith
    subst hb'
    simp only [Set.mem_ofPred_eq, Prod.fst_add, Prod.snd_add, Prod.smul_fst, Prod.smul_snd, smul_eq_mul]
    have c1 := mul_le_mul_of_nonneg_left x1 ha
    have c2 := mul_le_mul_of_nonneg_left x2 ha
    have c3 := mul_le_mul_of_nonneg_left x3 ha
    have c4 := mul_le_mul_of_nonneg_left x4 ha
    have c5 := mul_le_mul_of_nonneg_left x5 ha
    have c6 := mul_le_mul_of_nonneg_left x6 ha
    have c7 := mul_le_mul_of_nonneg_left x7 ha
    have c8 := mul_le_mul_of_nonneg_left x8 ha
    have d1 := mul_le_mul_of_nonneg_left y1 hb
    have d2 := mul_le_mul_of_nonneg_left y2 hb
    have d3 := mul_le_mul_of_nonneg_left y3 hb
    have d4 := mul_le_mul_of_nonneg_left y4 hb
    have d5 := mul_le_mul_of_nonneg_left y5 hb
    have d6 := mul_le_mul_of_nonneg_left y6 hb
    have d7 := mul_le_mul_of_nonneg_left y7 hb
    have d8 := mul_le_mul_of_nonneg_left y8 hb
    refine ⟨⟨by linarith, by linarith⟩, ⟨by linarith, by linarith, by linarith⟩, by linarith, by linarith, by linarith⟩
  refine convexHull_min (s := {p | p ∈ slicePts t0 t1 il iu ol ou cl cu vl vu}) ?_ conv hq
  intro p hp
  have hp : p ∈ slicePts t0 t1 il iu ol ou cl cu vl vu := hp
  unfold slicePts at hp
  rw [mem_removeIdentical] at hp
  simp only [List.mem_append, List.mem_cons, List.not_mem_nil, or_false] at hp
  rcases hp with ((rfl | hp) | rfl) | (rfl | hp) | rfl
  · exact ⟨⟨le_rfl, ht.le⟩, ⟨by dsimp only; linarith, by dsimp only; linarith, hil⟩, by dsimp only; linarith, by dsimp only; linarith, hi.trans hiu⟩
  · exact low ht hil hol hiu hou hi ho p hp
  · exact ⟨⟨ht.le, le_rfl⟩, ⟨by dsimp only; linarith, by dsimp only; linarith, hol⟩, by dsimp only; linarith, by dsimp only; linarith, ho.trans hou⟩
  · exact ⟨⟨ht.le, le_rfl⟩, ⟨by dsimp only; linarith, by dsimp only; linarith, hol.trans ho⟩, by dsimp only; linarith, by dsimp only; linarith, hou⟩
  · have hm : ngp p ∈ lowPts (-t1) (-t0) (-ou) (-iu) (-cu) vl vu := by rw [← upPts_neg]; exact List.mem_map_of_mem hp
    obtain ⟨⟨k1, k2⟩, ⟨k3, k4, k5⟩, k6, k7, k8⟩ := low (iu := -ol) (ou := -il) (cu := -cl) (neg_lt_neg ht) (neg_le_neg hou) (neg_le_neg hiu) (neg_le_neg hol) (neg_le_neg hil) (neg_le_neg ho) (neg_le_neg hi) _ hm
    dsimp only at k1 k2 k3 k4 k5 k6 k7 k8
    exact ⟨⟨by linarith, by linarith⟩, ⟨by linarith, by linarith, by linarith⟩, by linarith, by linarith, by linarith⟩
  · exact ⟨⟨le_rfl, ht.le⟩, ⟨by dsimp only; linarith, by dsimp only; linarith, hil.trans hi⟩, by dsimp only; linarith, by dsimp only; linarith, hiu⟩

/-! ### polygons of slices -/

theorem Itv.bounds?_spec {X : Itv K} {a b : K} (h : X.bounds? = some (a, b)) : a ≤ b ∧ ∀ x, x ∈ X ↔ a ≤ x ∧ x ≤ b := by
  match X, h with
  | .mk (some c) (some d) hcd, h =>
    simp only [Itv.bounds?, Option.some.injEq, Prod.mk.injEq] at h
    obtain ⟨rfl, rfl⟩ := h
    exact ⟨hcd, fun x => Iff.rfl⟩

theorem Itv.bounds?_le {X Y : Itv K} {a b c d : K} (hX : X.bounds? = some (a, b)) (hY : Y.bounds? = some (c, d)) (h : X ≤ Y) : c ≤ a ∧ b ≤ d := by
  obtain ⟨h1, h2⟩ := Itv.bounds?_spec hX
  obtain ⟨h3, h4⟩ := Itv.bounds?_spec hY
  have := Itv.le_iff.mp h
  exact ⟨((h4 a).mp (this a ((h2 a).mpr ⟨le_rfl, h1⟩))).1, ((h4 b).mp (this b ((h2 b).mpr ⟨h1, le_rfl⟩))).2⟩

/-- the three forms of the polygon of a slice -/
theorem Slice.polygon_cases {s : Slice K} {V : Itv K} {v : List (Pt K)} (h : s.polygon V = some v) :
    (s.cod = ⊥ ∧ v = ofBox (-9999) 9999 (-9999) 9999) ∨ (∃ cl cu, s.cod.bounds? = some (cl, cu) ∧ V = ⊤ ∧ v = ofBox s.lb s.ub cl cu) ∨
      ∃ cl cu il iu ol ou vl vu, s.cod.bounds? = some (cl, cu) ∧ s.inG.bounds? = some (il, iu) ∧ s.outG.bounds? = some (ol, ou) ∧ V.bounds? = some (vl, vu) ∧
        v = slicePts s.lb s.ub il iu ol ou cl cu vl vu := by
  unfold Slice.polygon at h
  by_cases h0 : s.cod = ⊥
  · rw [if_pos h0, Option.some.injEq] at h
    exact Or.inl ⟨h0, h.symm⟩
  rw [if_neg h0] at h
  right
  cases hc : s.cod.bounds? with
  | none => rw [hc] at h; simp at h
  | some c =>
    obtain ⟨cl, cu⟩ := c
    rw [hc] at h
    dsimp only at h
    by_cases hV : V = ⊤
    · rw [if_pos hV, Option.some.injEq] at h
      exact Or.inl ⟨cl, cu, rfl, hV, h.symm⟩
    · rw [if_neg hV] at h
      right
      split at h
      · rename_i il iu ol ou vl vu h1 h2 h3
        exact ⟨cl, cu, il, iu, ol, ou, vl, vu, rfl, h1, h2, h3, (Option.some.inj h).symm⟩
      · cases h

/-- the polygon of a slice is convex -/
theorem Slice.polygon_poly {s : Slice K} {V : Itv K} {v : List (Pt K)} (hlt : s.lb < s.ub) (hi : s.inG ≤ s.cod) (ho : s.outG ≤ s.cod) (h : s.polygon V = some v) :
    (∃ σ : K, σ ≠ 0 ∧ Turns σ v) ∧ v.Nodup := by
  rcases Slice.polygon_cases h with ⟨-, rfl⟩ | ⟨cl, cu, -, -, rfl⟩ | ⟨cl, cu, il, iu, ol, ou, vl, vu, hc, h1, h2, h3, rfl⟩
  · have := convexHullPts_poly (K := K) [(-9999, -9999), (9999, -9999), (9999, 9999), (-9999, 9999)]
    exact ⟨this.1, this.2.1⟩
  · have := convexHullPts_poly (K := K) [(s.lb, cl), (s.ub, cl), (s.ub, cu), (s.lb, cu)]
    exact ⟨this.1, this.2.1⟩
  · have k1 := Itv.bounds?_le h1 hc hi
    have k2 := Itv.bounds?_le h2 hc ho
    have := slicePts_turns (vl := vl) (vu := vu) hlt (Itv.bounds?_spec h3).1 k1.1 k2.1 k1.2 k2.2 (Itv.bounds?_spec h1).1 (Itv.bounds?_spec h2).1
    exact ⟨⟨1, one_ne_zero, this.1⟩, this.2⟩

/-- the polygon of a slice contains the trajectories that go through the slice with slopes in the derivative -/
theorem Slice.polygon_mem {s : Slice K} {V : Itv K} {v : List (Pt K)} {f : K → K} (hlt : s.lb < s.ub) (hgc : s.inG ≤ s.cod ∧ s.outG ≤ s.cod) (h : s.polygon V = some v)
    (hf : s.Encloses f) (hv : ∀ m t, s.lb ≤ m → m < t → t ≤ s.ub → ∃ y ∈ V, f t - f m = y * (t - m)) {t : K} (h0 : s.lb ≤ t) (h1 : t ≤ s.ub) : (t, f t) ∈ Hull v := by
  have hmem := hf.mem_cod hgc h0 h1
  rcases Slice.polygon_cases h with ⟨hb, -⟩ | ⟨cl, cu, hc, -, rfl⟩ | ⟨cl, cu, il, iu, ol, ou, vl, vu, hc, hi, ho, hV, rfl⟩
  · exact absurd hb (Itv.ne_bot_of_mem hmem)
  · have hcs := Itv.bounds?_spec hc
    rw [ofBox_spec hlt.le hcs.1]
    exact ⟨⟨h0, h1⟩, (hcs.2 _).mp hmem⟩
  · have k1 := Itv.bounds?_le hi hc hgc.1
    have k2 := Itv.bounds?_le ho hc hgc.2
    have e1 : ∀ m t, s.lb ≤ m → m ≤ t → t ≤ s.ub → vl * (t - m) ≤ f t - f m ∧ f t - f m ≤ vu * (t - m) := by
      intro m t hm hmt ht
      rcases eq_or_lt_of_le hmt with e | hlt
      · subst e; simp
      · obtain ⟨y, hy, e⟩ := hv m t hm hlt ht
        rw [e]
        have : 0 ≤ t - m := sub_nonneg.mpr hmt
        have hy := Itv.bounds?_mem hV hy
        exact ⟨mul_le_mul_of_nonneg_right hy.1 this, mul_le_mul_of_nonneg_right hy.2 this⟩
    have a1 := e1 s.lb t le_rfl h0 h1
    have a2 := e1 t s.ub h0 h1 le_rfl
    have b1 := Itv.bounds?_mem hi hf.1
    have b2 := Itv.bounds?_mem ho hf.2.1
    have b3 := Itv.bounds?_mem hc hmem
    exact slicePts_mem hlt (Itv.bounds?_spec hV).1 k1.1 k2.1 k1.2 k2.2 h0 h1 (by linarith) (by linarith) b3.1 (by linarith) (by linarith) b3.2

theorem Itv.bounds?_of_le {X Y : Itv K} (h : X ≤ Y) (hX : X ≠ ⊥) (hY : Y.bounds?.isSome) : X.bounds?.isSome := by
  match Y, hY with
  | .mk (some c) (some d) hcd, _ =>
    match X, h, hX with
    | .empty, _, hX => exact absurd rfl hX
    | .mk (some a) (some b) _, _, _ => rfl
    | .mk none none _, h, _ =>
      have := (Itv.le_iff.mp h (c - 1) ⟨trivial, trivial⟩).1
      exact absurd (show c ≤ c - 1 from this) (by linarith)
    | .mk none (some b) _, h, _ =>
      have := (Itv.le_iff.mp h (min b (c - 1)) ⟨trivial, min_le_left _ _⟩).1
      exact absurd (show c ≤ min b (c - 1) from this) (by have := min_le_right b (c - 1); linarith)
    | .mk (some a) none _, h, _ =>
      have := (Itv.le_iff.mp h (max a (d + 1)) ⟨le_max_left _ _, trivial⟩).2
      exact absurd (show max a (d + 1) ≤ d from this) (by have := le_max_right a (d + 1); linarith)

/-- the model gives a polygon when the envelope is bounded and the derivative is bounded or unknown -/
theorem Slice.polygon_isSome {s : Slice K} {V : Itv K} (hgc : s.inG ≤ s.cod ∧ s.outG ≤ s.cod) (hi : s.inG ≠ ⊥) (ho : s.outG ≠ ⊥) (hc : s.cod.bounds?.isSome)
    (hV : V = ⊤ ∨ V.bounds?.isSome) : ∃ v, s.polygon V = some v := by
  have h1 := Itv.bounds?_of_le hgc.1 hi hc
  have h2 := Itv.bounds?_of_le hgc.2 ho hc
  rw [Option.isSome_iff_exists] at h1 h2 hc
  obtain ⟨c, hc⟩ := hc
  obtain ⟨i, h1⟩ := h1
  obtain ⟨o, h2⟩ := h2
  unfold Slice.polygon
  by_cases h0 : s.cod = ⊥
  · rw [if_pos h0]; exact ⟨_, rfl⟩
  rw [if_neg h0, hc]
  by_cases hT : V = ⊤
  · dsimp only
    rw [if_pos hT]; exact ⟨_, rfl⟩
  · have hV := hV.resolve_left hT
    rw [Option.isSome_iff_exists] at hV
    obtain ⟨w, hV⟩ := hV
    dsimp only
    rw [if_neg hT, h1, h2, hV]
    exact ⟨_, rfl⟩

theorem Slice.interpolV_mem {A : IArith K} {s : Slice K} {V t I : Itv K} {f : K → K} (hlt : s.lb < s.ub) (hgc : s.inG ≤ s.cod ∧ s.outG ≤ s.cod) (hf : s.Encloses f)
    (hv : ∀ m t, s.lb ≤ m → m < t → t ≤ s.ub → ∃ y ∈ V, f t - f m = y * (t - m)) (h : s.interpolV A V t = some I) {u : K} (hu : u ∈ t) : f u ∈ I := by
  unfold Slice.interpolV at h
  by_cases h0 : exceeds t s.lb s.ub = true
  · rw [if_pos h0, Option.some.injEq] at h
    rw [← h]; exact Itv.mem_top _
  rw [if_neg h0] at h
  have hb := exceeds_top (Bool.eq_false_iff.mpr h0) u hu
  have hmem := hf.mem_cod hgc hb.1 hb.2
  by_cases h1 : Itv.icc s.lb s.ub ≤ t
  · rw [if_pos h1, Option.some.injEq] at h
    rw [← h]; exact hmem
  rw [if_neg h1] at h
  cases hbd : t.bounds? with
  | none => rw [hbd] at h; cases h
  | some ab =>
    obtain ⟨a, b⟩ := ab
    rw [hbd] at h
    dsimp only at h
    have hub := Itv.bounds?_mem hbd hu
    by_cases h2 : a = b
    · rw [if_pos h2, Option.some.injEq] at h
      have hua : u = a := le_antisymm (h2 ▸ hub.2) hub.1
      subst hua
      rw [← h]
      obtain ⟨y0, hy0, e0⟩ := hv s.lb s.ub le_rfl hlt le_rfl
      unfold Slice.interpolAt
      rw [Itv.mem_inf]
      constructor
      · rcases eq_or_lt_of_le hb.2 with e | l
        · have : f u = f s.ub - (s.ub - u) * y0 := by rw [e]; ring
          rw [this]; exact A.sub_mem hf.2.1 (A.mul_mem (by simp) hy0)
        · obtain ⟨y2, hy2, e2⟩ := hv u s.ub hb.1 l le_rfl
          have : f u = f s.ub - (s.ub - u) * y2 := by linear_combination -e2
          rw [this]; exact A.sub_mem hf.2.1 (A.mul_mem (by simp) hy2)
      · rcases eq_or_lt_of_le hb.1 with e | l
        · have : f u = f s.lb + (u - s.lb) * y0 := by rw [← e]; ring
          rw [this]; exact A.add_mem hf.1 (A.mul_mem (by simp) hy0)
        · obtain ⟨y2, hy2, e2⟩ := hv s.lb u le_rfl l hb.2
          have : f u = f s.lb + (u - s.lb) * y2 := by linear_combination e2
          rw [this]; exact A.add_mem hf.1 (A.mul_mem (by simp) hy2)
    · rw [if_neg h2, Option.map_eq_some_iff] at h
      obtain ⟨v, hp, rfl⟩ := h
      obtain ⟨⟨σ, hσ, ht⟩, hn⟩ := Slice.polygon_poly hlt hgc.1 hgc.2 hp
      have := fastInter_sound hσ (fun _ => (⊥ : Itv K)) ht hn (x := tpt (Itv.icc s.lb s.ub ⊓ t) s.cod) (Slice.polygon_mem hlt hgc hp hf hv hb.1 hb.2)
        (by rw [in_tpt, Itv.mem_inf, Itv.mem_icc]; exact ⟨⟨hb, hu⟩, hmem⟩)
      exact this.2

theorem Slice.invertV_mem {s : Slice K} {y V t I : Itv K} {f : K → K} (hlt : s.lb < s.ub) (hgc : s.inG ≤ s.cod ∧ s.outG ≤ s.cod) (hf : s.Encloses f)
    (hv : ∀ m t, s.lb ≤ m → m < t → t ≤ s.ub → ∃ y ∈ V, f t - f m = y * (t - m)) (h : s.invertV y V t = some I) {u : K} (hu : u ∈ t) (hy : f u ∈ y) : u ∈ I := by
  unfold Slice.invertV at h
  by_cases h1 : t.isEmpty = true
  · rw [Itv.isEmpty_iff] at h1; subst h1; exact absurd hu (by simp)
  rw [if_neg h1] at h
  by_cases h0 : exceeds t s.lb s.ub = true
  · rw [if_pos h0, Option.some.injEq] at h
    rw [← h]; exact Itv.mem_top _
  rw [if_neg h0] at h
  have hb := exceeds_top (Bool.eq_false_iff.mpr h0) u hu
  have hmem := hf.mem_cod hgc hb.1 hb.2
  by_cases h2 : Itv.icc s.lb s.ub ⊓ t = Itv.icc s.lb s.ub ∧ s.cod ≤ y
  · rw [if_pos h2, Option.some.injEq] at h
    rw [← h, Itv.mem_icc]; exact hb
  rw [if_neg h2] at h
  by_cases h3 : t = Itv.point s.lb
  · rw [if_pos h3, Option.some.injEq] at h
    subst h3
    have e : u = s.lb := by simpa using hu
    rw [if_pos (Itv.intersects_of_mem hy (e ▸ hf.1))] at h
    rw [← h]; exact hu
  rw [if_neg h3] at h
  by_cases h4 : t = Itv.point s.ub
  · rw [if_pos h4, Option.some.injEq] at h
    subst h4
    have e : u = s.ub := by simpa using hu
    rw [if_pos (Itv.intersects_of_mem hy (e ▸ hf.2.1))] at h
    rw [← h]; exact hu
  rw [if_neg h4] at h
  by_cases h5 : V = ⊤
  · rw [if_pos h5, Option.some.injEq, if_pos (Itv.intersects_of_mem hy hmem)] at h
    rw [← h, Itv.mem_inf, Itv.mem_icc]; exact ⟨hu, hb⟩
  · rw [if_neg h5, Option.map_eq_some_iff] at h
    obtain ⟨v, hp, rfl⟩ := h
    obtain ⟨⟨σ, hσ, ht⟩, hn⟩ := Slice.polygon_poly hlt hgc.1 hgc.2 hp
    have := fastInter_sound hσ (fun _ => (⊥ : Itv K)) ht hn (x := tpt t y) (Slice.polygon_mem hlt hgc hp hf hv hb.1 hb.2) (by rw [in_tpt]; exact ⟨hu, hy⟩)
    exact this.1

/-- the slope between two instants of a function made of two lines is between the two slopes -/
theorem broken_slope {t x v1 v2 vl vu m u : K} (a1 : vl ≤ v1) (a2 : v1 ≤ vu) (b1 : vl ≤ v2) (b2 : v2 ≤ vu) (h : m < u) :
    ∃ y, (vl ≤ y ∧ y ≤ vu) ∧ (if u ≤ t then x + v1 * (u - t) else x + v2 * (u - t)) - (if m ≤ t then x + v1 * (m - t) else x + v2 * (m - t)) = y * (u - m) := by
  by_cases hu : u ≤ t
  · rw [if_pos hu, if_pos (h.le.trans hu)]
    exact ⟨v1, ⟨a1, a2⟩, by ring⟩
  rw [if_neg hu]
  have hu := not_le.mp hu
  by_cases hm : m ≤ t
  swap
  · rw [if_neg hm]
    exact ⟨v2, ⟨b1, b2⟩, by ring⟩
  rw [if_pos hm]
  have hw : 0 < u - m := sub_pos.mpr h
  refine ⟨(v1 * (t - m) + v2 * (u - t)) / (u - m), ⟨?_, ?_⟩, ?_⟩
  · rw [le_div_iff₀ hw]
    have c1 := mul_nonneg (sub_nonneg.mpr a1) (sub_nonneg.mpr hm)
    have c2 := mul_nonneg (sub_nonneg.mpr b1) (sub_nonneg.mpr hu.le)
    linarith
  · rw [div_le_iff₀ hw]
    have c1 := mul_nonneg (sub_nonneg.mpr a2) (sub_nonneg.mpr hm)
    have c2 := mul_nonneg (sub_nonneg.mpr b2) (sub_nonneg.mpr hu.le)
    linarith
  · rw [div_mul_cancel₀ _ hw.ne']; ring

/-- the slope that joins the point `(t, x)` to a gate at the distance `d` -/
theorem join_gate {vl vu d x gl gu : K} (hv : vl ≤ vu) (hd : 0 ≤ d) (hg : gl ≤ gu) (h1 : gl + vl * d ≤ x) (h2 : x ≤ gu + vu * d) : ∃ v, (vl ≤ v ∧ v ≤ vu) ∧ gl ≤ x - v * d ∧ x - v * d ≤ gu := by
  rcases eq_or_lt_of_le hd with e | hd
  · subst e
    simp only [mul_zero, add_zero, sub_zero] at h1 h2 ⊢
    exact ⟨vl, ⟨le_rfl, hv⟩, h1, h2⟩
  · rcases le_total (x - vu * d) gl with h | h
    · refine ⟨(x - gl) / d, ⟨?_, ?_⟩, ?_, ?_⟩
      · rw [le_div_iff₀ hd]; linarith
      · rw [div_le_iff₀ hd]; linarith
      · rw [div_mul_cancel₀ _ hd.ne']; linarith
      · rw [div_mul_cancel₀ _ hd.ne']; linarith
    · exact ⟨vu, ⟨hv, le_rfl⟩, h, by linarith⟩

/-- a value between two values of an interval -/
theorem line_mem {X : Itv K} {x y v d e : K} (hx : x ∈ X) (hy : y ∈ X) (hd : 0 ≤ d) (he : d ≤ e) (h : y = x - v * e) : x - v * d ∈ X := by
  rcases le_total 0 v with h0 | h0
  · have c1 := mul_nonneg h0 hd
    have c2 := mul_nonneg h0 (sub_nonneg.mpr he)
    exact Itv.mem_of_between hy hx (by linarith) (by linarith)
  · have c1 := mul_nonneg (neg_nonneg.mpr h0) hd
    have c2 := mul_nonneg (neg_nonneg.mpr h0) (sub_nonneg.mpr he)
    exact Itv.mem_of_between hx hy (by linarith) (by linarith)

/-- a point between the lines and in the envelope is on a trajectory of the slice -/
theorem Slice.reach {s : Slice K} {V : Itv K} {cl cu il iu ol ou vl vu : K} (hgc : s.inG ≤ s.cod ∧ s.outG ≤ s.cod) (hc : s.cod.bounds? = some (cl, cu))
    (hi : s.inG.bounds? = some (il, iu)) (ho : s.outG.bounds? = some (ol, ou)) (hV : V.bounds? = some (vl, vu)) {t x : K} (h0 : s.lb ≤ t) (h1 : t ≤ s.ub)
    (k1 : il + vl * (t - s.lb) ≤ x) (k2 : ol + vu * (t - s.ub) ≤ x) (k3 : cl ≤ x) (k4 : x ≤ iu + vu * (t - s.lb)) (k5 : x ≤ ou + vl * (t - s.ub)) (k6 : x ≤ cu) :
    ∃ f : K → K, s.Encloses f ∧ (∀ m t, s.lb ≤ m → m < t → t ≤ s.ub → ∃ y ∈ V, f t - f m = y * (t - m)) ∧ f t = x := by
  obtain ⟨hvv, hVm⟩ := Itv.bounds?_spec hV
  obtain ⟨hii, him⟩ := Itv.bounds?_spec hi
  obtain ⟨hoo, hom⟩ := Itv.bounds?_spec ho
  obtain ⟨-, hcm⟩ := Itv.bounds?_spec hc
  have hx : x ∈ s.cod := (hcm x).mpr ⟨k3, k6⟩
  obtain ⟨v1, ⟨a1, a2⟩, a3, a4⟩ := join_gate hvv (sub_nonneg.mpr h0) hii k1 k4
  obtain ⟨w, ⟨b1, b2⟩, b3, b4⟩ := join_gate (vl := -vu) (vu := -vl) (d := s.ub - t) (x := x) (neg_le_neg hvv) (sub_nonneg.mpr h1) hoo (by linarith) (by linarith)
  have hin : x - v1 * (t - s.lb) ∈ s.inG := (him _).mpr ⟨a3, a4⟩
  have hout : x - w * (s.ub - t) ∈ s.outG := (hom _).mpr ⟨b3, b4⟩
  refine ⟨fun u => if u ≤ t then x + v1 * (u - t) else x + -w * (u - t), ⟨?_, ?_, ?_⟩, ?_, ?_⟩
  · dsimp only
    rw [if_pos h0]
    have : x + v1 * (s.lb - t) = x - v1 * (t - s.lb) := by ring
    rw [this]; exact hin
  · dsimp only
    by_cases h : s.ub ≤ t
    · rw [if_pos h]
      have e : s.ub = t := le_antisymm h h1
      rw [e, sub_self, mul_zero, sub_zero] at hout
      rw [e, sub_self, mul_zero, add_zero]; exact hout
    · rw [if_neg h]
      have : x + -w * (s.ub - t) = x - w * (s.ub - t) := by ring
      rw [this]; exact hout
  · intro u hu hu'
    dsimp only
    by_cases h : u ≤ t
    · rw [if_pos h]
      have : x + v1 * (u - t) = x - v1 * (t - u) := by ring
      rw [this]
      exact line_mem hx (Itv.mem_of_le hgc.1 hin) (sub_nonneg.mpr h) (by linarith) rfl
    · rw [if_neg h]
      have : x + -w * (u - t) = x - w * (u - t) := by ring
      rw [this]
      exact line_mem hx (Itv.mem_of_le hgc.2 hout) (sub_nonneg.mpr (not_le.mp h).le) (by linarith) rfl
  · intro m u _ hmu _
    obtain ⟨y, hy, e⟩ := broken_slope (t := t) (x := x) a1 a2 (show vl ≤ -w by linarith) (show -w ≤ vu by linarith) hmu
    exact ⟨y, (hVm y).mpr hy, e⟩
  · dsimp only
    rw [if_pos le_rfl, sub_self, mul_zero, add_zero]

/-! ### tubes -/

/-- the first components are the slices met from the index `k` -/
theorem Tube.withDeriv_fst (x v : Tube K) (k : Nat) : (x.withDeriv v k).map Prod.fst = x.slices.drop k := by
  unfold Tube.withDeriv
  rw [List.map_map, List.map_drop]
  congr 1
  have : (Prod.fst ∘ fun p : Slice K × Nat => (p.1, v.codAt p.2)) = Prod.fst := rfl
  rw [this, List.zipIdx_map_fst]

theorem Tube.withDeriv_mem {x v : Tube K} {k : Nat} {p : Slice K × Itv K} (h : p ∈ x.withDeriv v k) : ∃ i, x.slices[i]? = some p.1 ∧ p.2 = v.codAt i := by
  unfold Tube.withDeriv at h
  rw [List.mem_map] at h
  obtain ⟨q, hq, rfl⟩ := h
  have := List.mem_of_mem_drop hq
  rw [List.mem_zipIdx_iff_getElem?] at this
  exact ⟨q.2, this, rfl⟩

theorem Tube.withDeriv_slope {x v : Tube K} (hs : SameB x v) {f : K → K} (hv : v.SlopeIn f) {k : Nat} {p : Slice K × Itv K} (h : p ∈ x.withDeriv v k) :
    ∀ m t, p.1.lb ≤ m → m < t → t ≤ p.1.ub → ∃ y ∈ p.2, f t - f m = y * (t - m) := by
  obtain ⟨i, h1, h2⟩ := Tube.withDeriv_mem h
  rw [h2]
  refine codAt_slope hv ?_
  rw [← hs, ← Tube.slices_bounds, List.getElem?_map, h1]
  rfl

theorem tiles_pairwise_lb {a b : K} {g : Itv K} {cs : List (Cell K)} (h : Tiles a cs b) : (slicesFrom g cs).Pairwise fun s t => s.lb ≤ t.lb := by
  induction cs generalizing a g with
  | nil => simp
  | cons c cs ih =>
    obtain ⟨rfl, h3, h4⟩ := h
    rw [slicesFrom_cons, List.pairwise_cons]
    exact ⟨fun s hs => h3.le.trans (h4.mem_bounds hs).1, ih h4⟩

theorem mem_interpolLoop {A : IArith K} {a b : K} {l : List (Slice K × Itv K)} (hl : (l.map Prod.fst).Pairwise fun s t => s.lb ≤ t.lb) {J : Itv K}
    (h : interpolLoop A a b l = some J) {p : Slice K × Itv K} (hp : p ∈ l) (hb : p.1.lb < b) :
    ∃ I, p.1.interpolV A p.2 (Itv.icc a b ⊓ Itv.icc p.1.lb p.1.ub) = some I ∧ I ≤ J := by
  induction l generalizing J with
  | nil => simp at hp
  | cons q l ih =>
    rw [List.map_cons, List.pairwise_cons] at hl
    have hq : q.1.lb < b := by
      rcases List.mem_cons.mp hp with rfl | hp
      · exact hb
      · exact lt_of_le_of_lt (hl.1 p.1 (List.mem_map_of_mem hp)) hb
    rw [interpolLoop, if_pos hq, Option.bind_eq_some_iff] at h
    obtain ⟨I, h1, h2⟩ := h
    rw [Option.map_eq_some_iff] at h2
    obtain ⟨J', h2, rfl⟩ := h2
    rcases List.mem_cons.mp hp with rfl | hp
    · exact ⟨I, h1, le_sup_left⟩
    · obtain ⟨I', h3, h4⟩ := ih hl.2 h2 hp
      exact ⟨I', h3, h4.trans le_sup_right⟩

theorem mem_invertVLoop {y : Itv K} {a b : K} {l : List (Slice K × Itv K)} (hl : (l.map Prod.fst).Pairwise fun s t => s.lb ≤ t.lb) {J : Itv K}
    (h : invertVLoop y a b l = some J) {p : Slice K × Itv K} (hp : p ∈ l) (hb : p.1.lb < b) :
    ∃ I, p.1.invertV y p.2 (Itv.icc a b ⊓ Itv.icc p.1.lb p.1.ub) = some I ∧ I ≤ J := by
  induction l generalizing J with
  | nil => simp at hp
  | cons q l ih =>
    rw [List.map_cons, List.pairwise_cons] at hl
    have hq : q.1.lb < b := by
      rcases List.mem_cons.mp hp with rfl | hp
      · exact hb
      · exact lt_of_le_of_lt (hl.1 p.1 (List.mem_map_of_mem hp)) hb
    rw [invertVLoop, if_pos hq, Option.bind_eq_some_iff] at h
    obtain ⟨I, h1, h2⟩ := h
    rw [Option.map_eq_some_iff] at h2
    obtain ⟨J', h2, rfl⟩ := h2
    rcases List.mem_cons.mp hp with rfl | hp
    · exact ⟨I, h1, le_sup_left⟩
    · obtain ⟨I', h3, h4⟩ := ih hl.2 h2 hp
      exact ⟨I', h3, h4.trans le_sup_right⟩

theorem mem_invertVListLoop_acc {y : Itv K} {a b t : K} {acc : Itv K} (h : t ∈ acc) {l : List (Slice K × Itv K)} {L : List (Itv K)}
    (hL : invertVListLoop y a b acc l = some L) : ∃ I ∈ L, t ∈ I := by
  have hne : acc.isEmpty = false := by rw [Itv.isEmpty_false_iff]; exact Itv.ne_bot_of_mem h
  induction l generalizing acc L with
  | nil =>
    simp only [invertVListLoop, hne, Bool.false_eq_true, if_false, Option.some.injEq] at hL
    subst hL
    exact ⟨acc, by simp, h⟩
  | cons p l ih =>
    rw [invertVListLoop] at hL
    by_cases h1 : p.1.lb ≤ b
    · rw [if_pos h1, Option.bind_eq_some_iff] at hL
      obtain ⟨loc, -, hL⟩ := hL
      split_ifs at hL with h2
      · rw [Option.map_eq_some_iff] at hL
        obtain ⟨L', -, rfl⟩ := hL
        exact ⟨acc, by simp, h⟩
      · have := Itv.mem_sup_left (Y := loc) h
        exact ih this hL (by rw [Itv.isEmpty_false_iff]; exact Itv.ne_bot_of_mem this)
    · rw [if_neg h1, hne] at hL
      simp only [Bool.false_eq_true, if_false, Option.some.injEq] at hL
      subst hL
      exact ⟨acc, by simp, h⟩

theorem mem_invertVListLoop {y : Itv K} {a b t : K} {acc : Itv K} {l : List (Slice K × Itv K)} (hl : (l.map Prod.fst).Pairwise fun s t => s.lb ≤ t.lb) {L : List (Itv K)}
    (hL : invertVListLoop y a b acc l = some L) {p : Slice K × Itv K} (hp : p ∈ l) (hb : p.1.lb ≤ b)
    (ht : ∀ I, p.1.invertV y p.2 (Itv.icc a b ⊓ Itv.icc p.1.lb p.1.ub) = some I → t ∈ I) : ∃ I ∈ L, t ∈ I := by
  induction l generalizing acc L with
  | nil => simp at hp
  | cons q l ih =>
    rw [List.map_cons, List.pairwise_cons] at hl
    have hq : q.1.lb ≤ b := by
      rcases List.mem_cons.mp hp with rfl | hp
      · exact hb
      · exact (hl.1 p.1 (List.mem_map_of_mem hp)).trans hb
    rw [invertVListLoop, if_pos hq, Option.bind_eq_some_iff] at hL
    obtain ⟨loc, h1, hL⟩ := hL
    rcases List.mem_cons.mp hp with rfl | hp
    · have ht := ht loc h1
      have : loc.isEmpty = false := by rw [Itv.isEmpty_false_iff]; exact Itv.ne_bot_of_mem ht
      rw [this] at hL
      simp only [Bool.false_and, Bool.false_eq_true, if_false] at hL
      exact mem_invertVListLoop_acc (Itv.mem_sup_right ht) hL
    · split_ifs at hL with h2
      · rw [Option.map_eq_some_iff] at hL
        obtain ⟨L', hL, rfl⟩ := hL
        obtain ⟨I, hI, h⟩ := ih hl.2 hL hp
        exact ⟨I, List.mem_cons_of_mem _ hI, h⟩
      · exact ih hl.2 hL hp

theorem invertVListLoop_nonempty {y : Itv K} {a b : K} {l : List (Slice K × Itv K)} {acc : Itv K} {L : List (Itv K)} (hL : invertVListLoop y a b acc l = some L) :
    ∀ I ∈ L, I ≠ ⊥ := by
  have fin : ∀ {acc : Itv K} {L : List (Itv K)}, some (if acc.isEmpty then [] else [acc]) = some L → ∀ I ∈ L, I ≠ ⊥ := by
    intro acc L h I hI
    rw [Option.some.injEq] at h
    subst h
    split_ifs at hI with h
    · simp at hI
    · rw [List.mem_singleton] at hI; subst hI
      exact Itv.isEmpty_false_iff.mp (Bool.eq_false_iff.mpr h)
  induction l generalizing acc L with
  | nil => rw [invertVListLoop] at hL; exact fin hL
  | cons p l ih =>
    rw [invertVListLoop] at hL
    by_cases h1 : p.1.lb ≤ b
    · rw [if_pos h1, Option.bind_eq_some_iff] at hL
      obtain ⟨loc, -, hL⟩ := hL
      split_ifs at hL with h2
      · rw [Option.map_eq_some_iff] at hL
        obtain ⟨L', hL, rfl⟩ := hL
        intro I hI
        rcases List.mem_cons.mp hI with rfl | hI
        · simp only [Bool.and_eq_true, Bool.not_eq_true'] at h2
          exact Itv.isEmpty_false_iff.mp h2.2
        · exact ih hL I hI
      · exact ih hL
    · rw [if_neg h1] at hL; exact fin hL

/-- the slice that contains `t ∈ [a,b]` is met by a loop from the slice of `a` as long as the slices start before `b`, unless `[a,b]` is the start of a slice -/
theorem Tube.withDeriv_covers {x : Tube K} (h : x.WF) (v : Tube K) {a b t : K} (h0 : x.t0 ≤ a) (h1 : b ≤ x.tf) (ha : a ≤ t) (hb : t ≤ b)
    (hdeg : a = b → ∀ s ∈ x.slices, s.lb ≠ a) :
    ∃ p ∈ x.withDeriv v (timeToIndex a x.slices), p.1 ∈ x.slices ∧ p.1.lb < b ∧ p.1.lb ≤ t ∧ t ≤ p.1.ub := by
  have conv : ∀ s ∈ seek a x.slices, ∃ p ∈ x.withDeriv v (timeToIndex a x.slices), p.1 = s := by
    intro s hs
    rw [seek_eq_drop, ← Tube.withDeriv_fst x v, List.mem_map] at hs
    exact hs
  obtain ⟨a', g', cs', e1, e2, e3, e4, e5, e6, e7, e8, e9, e10⟩ := seek_suffix (g := x.g0) h.tiles h.ne h0
  have : ∃ s ∈ slicesFrom g' cs', s.lb < b ∧ s.lb ≤ t ∧ t ≤ s.ub := by
    rcases eq_or_lt_of_le (ha.trans hb) with e | hlt
    · have hta : t = a := le_antisymm (e ▸ hb) ha
      rcases lt_or_eq_of_le (show a ≤ x.tf from e ▸ h1) with hlt | heq
      · obtain ⟨s, hs, hs1, hs2⟩ := h.tiles.exists_slice (g := x.g0) h0 hlt
        exact ⟨s, e8 s hs hs2, e ▸ lt_of_le_of_ne hs1 (hdeg e s hs), hta ▸ hs1, hta ▸ hs2.le⟩
      · obtain ⟨s, hs, hs1, hs2⟩ := e3.exists_slice' (g := g') (t := a) (by
          rcases lt_or_eq_of_le e5 with h' | h'
          · exact h'
          · exfalso; exact absurd (e3.lt e2) (by rw [h', heq]; exact lt_irrefl _)) (le_of_eq heq)
        exact ⟨s, hs, e ▸ hs1, hta ▸ hs1.le, hta ▸ hs2⟩
    · rcases lt_or_eq_of_le hb with h3 | h3
      · obtain ⟨s, hs, hs1, hs2⟩ := e3.exists_slice (g := g') (le_trans e5 ha) (lt_of_lt_of_le h3 h1)
        exact ⟨s, hs, lt_of_le_of_lt hs1 h3, hs1, hs2.le⟩
      · obtain ⟨s, hs, hs1, hs2⟩ := e3.exists_slice' (g := g') (lt_of_le_of_lt e5 (h3 ▸ hlt)) (h3 ▸ h1)
        exact ⟨s, hs, h3 ▸ hs1, hs1.le, hs2⟩
  obtain ⟨s, hs, k⟩ := this
  obtain ⟨p, hp, rfl⟩ := conv s (by rw [Tube.slices, e1]; exact hs)
  exact ⟨p, hp, e9 _ hs, k⟩

/-- the same for a loop that also visits a slice starting at `b` -/
theorem Tube.withDeriv_covers' {x : Tube K} (h : x.WF) (v : Tube K) {a b t : K} (h0 : x.t0 ≤ a) (h1 : b ≤ x.tf) (ha : a ≤ t) (hb : t ≤ b) :
    ∃ p ∈ x.withDeriv v (timeToIndex a x.slices), p.1 ∈ x.slices ∧ p.1.lb ≤ b ∧ p.1.lb ≤ t ∧ t ≤ p.1.ub := by
  have conv : ∀ s ∈ seek a x.slices, ∃ p ∈ x.withDeriv v (timeToIndex a x.slices), p.1 = s := by
    intro s hs
    rw [seek_eq_drop, ← Tube.withDeriv_fst x v, List.mem_map] at hs
    exact hs
  obtain ⟨a', g', cs', e1, e2, e3, e4, e5, e6, e7, e8, e9, e10⟩ := seek_suffix (g := x.g0) h.tiles h.ne h0
  have : ∃ s ∈ slicesFrom g' cs', s.lb ≤ t ∧ t ≤ s.ub := by
    rcases lt_or_eq_of_le (le_trans hb h1) with h3 | h3
    · obtain ⟨s, hs, hs1, hs2⟩ := e3.exists_slice (g := g') (le_trans e5 ha) h3
      exact ⟨s, hs, hs1, hs2.le⟩
    · obtain ⟨s, hs, hs1, hs2⟩ := e3.exists_slice' (g := g') (t := t) (by rw [h3]; exact e3.lt e2) (le_of_eq h3)
      exact ⟨s, hs, hs1.le, hs2⟩
  obtain ⟨s, hs, k1, k2⟩ := this
  obtain ⟨p, hp, rfl⟩ := conv s (by rw [Tube.slices, e1]; exact hs)
  exact ⟨p, hp, e9 _ hs, k1.trans hb, k1, k2⟩

theorem Tube.withDeriv_sorted {x : Tube K} (h : x.WF) (v : Tube K) (k : Nat) : ((x.withDeriv v k).map Prod.fst).Pairwise fun s t => s.lb ≤ t.lb := by
  rw [Tube.withDeriv_fst]
  exact (tiles_pairwise_lb (g := x.g0) h.tiles).sublist (List.drop_sublist _ _)

theorem Tube.slice_lt {x : Tube K} (h : x.WF) {s : Slice K} (hs : s ∈ x.slices) : s.lb < s.ub := (h.tiles.mem_bounds hs).2.1

end Codac
