import Verif.Geometry.Thicken

/-!
# `ConvexPolygon::simplify`

Source: `/repo/src/core/geometry/codac_ConvexPolygon.cpp:186-257`. Coordinates are exact: the intersection of two lines is a point.
-/

set_option linter.unusedSectionVars false

namespace Codac.Poly
open Codac.Graham

variable {K : Type*} [Field K] [LinearOrder K] [IsStrictOrderedRing K]

/-- `surface`, codac_ConvexPolygon.cpp:186-190 -/
def surface (p q r : Pt K) : K :=
  1 / 2 * |p.1 * q.2 + q.1 * r.2 + r.1 * p.2 - q.1 * p.2 - r.1 * q.2 - p.1 * r.2|

/-- the vertex `k` modulo the number of vertices -/
def vtx (v : List (Pt K)) (k : Nat) : Pt K := v.getD (k % v.length) (0, 0)

/-- `box_limit`, codac_ConvexPolygon.cpp:195-196: the box around the polygon, inflated by twice its largest diameter -/
def simpLimit (v : List (Pt K)) : TPt K :=
  match (pbox v).1.bounds?, (pbox v).2.bounds? with
  | some (a, b), some (c, d) =>
    let r := max (b - a) (d - c) * 2
    (.icc (a - r) (b + r), .icc (c - r) (d + r))
  | _, _ => (⊥, ⊥)

/-- the loop over the edges, codac_ConvexPolygon.cpp:207-244: indices left, `min_surf`, `min_i`, `min_inter` (`none`: it does not exist). The
result is `none` when an intersection does not exist. The intersection is a point in exact arithmetic, tested through its middle. -/
def simpLoop (lim : TPt K) (v : List (Pt K)) : List Nat → K → Nat → Option (Pt K) → Option (Nat × Option (Pt K))
  | [], _, mi, mp => some (mi, mp)
  | i :: is, ms, mi, mp =>
    let e1 : Edge K := (vtx v (i + v.length - 1), vtx v i)
    let e2 : Edge K := (vtx v (i + 1), vtx v (i + 2))
    if parallel (fun _ => ⊥) e1 e2 then simpLoop lim v is ms mi mp
    else
      let I := proj (fun _ => ⊥) e1 e2
      if I.1.isEmpty || I.2.isEmpty then none
      else
        let p : Pt K := (itvMid I.1, itvMid I.2)
        if ¬ (p.1 ∈ lim.1 ∧ p.2 ∈ lim.2) then simpLoop lim v is ms mi mp
        else if cr (vtx v i) p (vtx v (i + 1)) < 0 then simpLoop lim v is ms mi mp
        else
          let surf := surface (vtx v i) p (vtx v (i + 1))
          if mi = 0 ∨ surf < ms then simpLoop lim v is surf i (some p) else simpLoop lim v is ms mi mp

/-- `simplify`, codac_ConvexPolygon.cpp:192-257: the loop `while`, with the number of vertices as fuel (each iteration removes a vertex); the
box `box_limit` is returned when an intersection does not exist -/
def simpWhile (lim : TPt K) (n : Nat) : Nat → List (Pt K) → List (Pt K)
  | 0, v => v
  | k + 1, v =>
    if n < v.length then
      match simpLoop lim v (List.range v.length) 0 0 none with
      | none =>
        match lim.1.bounds?, lim.2.bounds? with
        | some (a, b), some (c, d) => ofBox a b c d
        | _, _ => []
      | some (_, none) => v
      | some (i, some p) => simpWhile lim n k ((v.set i p).eraseIdx ((i + 1) % v.length))
    else v

/-- `ConvexPolygon::simplify(max_edges)`, codac_ConvexPolygon.cpp:192-257 -/
def simplify (n : Nat) (v : List (Pt K)) : List (Pt K) := simpWhile (simpLimit v) n v.length v

/-! ### Proofs -/

/-- the point `P` where the lines `m v0` and `v1 v2` meet, beyond `v0` and beyond `v1`, is on the left of `a b` -/
theorem tip_left {m v0 v1 v2 P a b : Pt K} {s t : K} (hs : 0 ≤ s) (ht : 0 ≤ t)
    (s1 : P.1 = v0.1 + s * (v0.1 - m.1)) (s2 : P.2 = v0.2 + s * (v0.2 - m.2))
    (t1 : P.1 = v1.1 + t * (v1.1 - v2.1)) (t2 : P.2 = v1.2 + t * (v1.2 - v2.2))
    (h01 : v0 ≠ v1) (h0a : v0 ≠ a) (hD : 0 < cr P v2 m)
    (c12a : 0 ≤ cr v1 v2 a) (c0am : 0 ≤ cr v0 a m) (c01a : 0 ≤ cr v0 v1 a) (c02a : 0 ≤ cr v0 v2 a) (c012 : 0 ≤ cr v0 v1 v2)
    (c0ab : 0 ≤ cr v0 a b) (c1ab : 0 ≤ cr v1 a b) : 0 ≤ cr P a b := by
  by_contra hneg
  push Not at hneg
  have e1 : (1 + t) * cr v1 a b = cr P a b + t * cr v2 a b := by
    unfold cr; rw [t1, t2]; ring
  have e0 : (1 + s) * cr v0 a b = cr P a b + s * cr m a b := by
    unfold cr; rw [s1, s2]; ring
  have htp : 0 < t := by
    rcases ht.lt_or_eq with h | h
    · exact h
    · exfalso; rw [← h] at e1; linarith [mul_nonneg (show (0 : K) ≤ 1 + 0 by norm_num) c1ab]
  have hsp : 0 < s := by
    rcases hs.lt_or_eq with h | h
    · exact h
    · exfalso; rw [← h] at e0; linarith [mul_nonneg (show (0 : K) ≤ 1 + 0 by norm_num) c0ab]
  have α0 : 0 ≤ cr P a m := by
    have : cr P a m = (1 + s) * cr v0 a m := by unfold cr; rw [s1, s2]; ring
    rw [this]; exact mul_nonneg (by linarith) c0am
  have β0 : 0 ≤ cr P v2 a := by
    have : cr P v2 a = (1 + t) * cr v1 v2 a := by unfold cr; rw [t1, t2]; ring
    rw [this]; exact mul_nonneg (by linarith) c12a
  have g2 : cr v0 v1 P + t * cr v0 v1 v2 = 0 := by
    have : cr v0 v1 P = - t * cr v0 v1 v2 := by unfold cr; rw [t1, t2]; ring
    rw [this]; ring
  have gm : cr v0 v1 P + s * cr v0 v1 m = 0 := by
    have : cr v0 v1 P = - s * cr v0 v1 m := by unfold cr; rw [s1, s2]; ring
    rw [this]; ring
  -- the point a in the frame of P
  have fa : (cr P v2 m - cr P a m - cr P v2 a) * cr P a b + cr P a m * cr v2 a b + cr P v2 a * cr m a b = 0 := by
    unfold cr; ring
  have ga : (cr P v2 m - cr P a m - cr P v2 a) * cr v0 v1 P + cr P a m * cr v0 v1 v2 + cr P v2 a * cr v0 v1 m = cr P v2 m * cr v0 v1 a := by
    unfold cr; ring
  rcases c012.lt_or_eq with hg | hg
  · have gP : cr v0 v1 P < 0 := by nlinarith [mul_pos htp hg]
    have hQ : s * t * cr P v2 m - cr P a m * s * (1 + t) - cr P v2 a * t * (1 + s) ≤ 0 := by
      have : cr v0 v1 P * (s * t * cr P v2 m - cr P a m * s * (1 + t) - cr P v2 a * t * (1 + s)) = s * t * (cr P v2 m * cr v0 v1 a) := by
        linear_combination s * t * ga - cr P a m * s * g2 - cr P v2 a * t * gm
      have h' : 0 ≤ s * t * (cr P v2 m * cr v0 v1 a) := mul_nonneg (mul_pos hsp htp).le (mul_nonneg hD.le c01a)
      by_contra hc
      push Not at hc
      have := mul_neg_of_neg_of_pos gP hc
      linarith
    have hsum : cr P a b * (s * t * cr P v2 m - cr P a m * s * (1 + t) - cr P v2 a * t * (1 + s)) +
        cr P a m * s * ((1 + t) * cr v1 a b) + cr P v2 a * t * ((1 + s) * cr v0 a b) = 0 := by
      linear_combination s * t * fa + cr P a m * s * e1 + cr P v2 a * t * e0
    have k1 : 0 ≤ cr P a m * s * ((1 + t) * cr v1 a b) := mul_nonneg (mul_nonneg α0 hs) (mul_nonneg (by linarith) c1ab)
    have k0 : 0 ≤ cr P v2 a * t * ((1 + s) * cr v0 a b) := mul_nonneg (mul_nonneg β0 ht) (mul_nonneg (by linarith) c0ab)
    have kQ : s * t * cr P v2 m - cr P a m * s * (1 + t) - cr P v2 a * t * (1 + s) = 0 := by
      rcases hQ.lt_or_eq with h | h
      · have := mul_pos_of_neg_of_neg hneg h; linarith
      · exact h
    -- a is between v0 and v1
    have w2 : s * t * cr P v2 m * cr v0 v2 a = - (cr P a m * s * (1 + t)) * cr v0 v1 v2 := by
      have hv0 : cr v0 v2 P = (1 + t) * cr v0 v2 v1 := by unfold cr; rw [t1, t2]; ring
      have hm : s * cr v0 v2 m = - cr v0 v2 P := by
        have : cr v0 v2 P = - s * cr v0 v2 m := by unfold cr; rw [s1, s2]; ring
        rw [this]; ring
      have e : cr P v2 m * cr v0 v2 a = (cr P v2 m - cr P a m - cr P v2 a) * cr v0 v2 P + cr P v2 a * cr v0 v2 m := by
        unfold cr; ring
      have h12 : cr v0 v2 v1 = - cr v0 v1 v2 := by unfold cr; ring
      have : s * t * (cr P v2 m * cr v0 v2 a) = (s * t * cr P v2 m - s * t * cr P a m - s * t * cr P v2 a - t * cr P v2 a) * cr v0 v2 P := by
        rw [e]; linear_combination t * cr P v2 a * hm
      have h3 : s * t * cr P v2 m - s * t * cr P a m - s * t * cr P v2 a - t * cr P v2 a = s * cr P a m := by linear_combination kQ
      rw [h3, hv0, h12] at this
      linear_combination this
    have hw1 : cr P a m = 0 := by
      have h1 : 0 ≤ s * t * cr P v2 m * cr v0 v2 a := mul_nonneg (mul_pos (mul_pos hsp htp) hD).le c02a
      rw [w2] at h1
      rcases α0.lt_or_eq with h | h
      · have := mul_pos (mul_pos (mul_pos h hsp) (show 0 < 1 + t by linarith)) hg
        linarith
      · exact h.symm
    rw [hw1] at kQ
    -- then a is v0
    have hβ : (1 + s) * cr P v2 a = s * cr P v2 m := by
      have := htp.ne'
      have h2 : t * ((1 + s) * cr P v2 a - s * cr P v2 m) = 0 := by linear_combination - kQ
      have := (mul_eq_zero.mp h2).resolve_left this
      linarith
    have p1 : cr P v2 m * (a.1 - P.1) = cr P v2 a * (m.1 - P.1) := by
      have : cr P v2 m * (a.1 - P.1) = cr P v2 a * (m.1 - P.1) + cr P a m * (v2.1 - P.1) := by unfold cr; ring
      rw [this, hw1]; ring
    have p2 : cr P v2 m * (a.2 - P.2) = cr P v2 a * (m.2 - P.2) := by
      have : cr P v2 m * (a.2 - P.2) = cr P v2 a * (m.2 - P.2) + cr P a m * (v2.2 - P.2) := by unfold cr; ring
      rw [this, hw1]; ring
    have q1 : (1 + s) * (cr P v2 m * (a.1 - v0.1)) = 0 := by
      have : (1 + s) * (v0.1 - P.1) = s * (m.1 - P.1) := by rw [s1]; ring
      linear_combination (1 + s) * p1 + (m.1 - P.1) * hβ - cr P v2 m * this
    have q2 : (1 + s) * (cr P v2 m * (a.2 - v0.2)) = 0 := by
      have : (1 + s) * (v0.2 - P.2) = s * (m.2 - P.2) := by rw [s2]; ring
      linear_combination (1 + s) * p2 + (m.2 - P.2) * hβ - cr P v2 m * this
    have h1s : (1 + s) ≠ 0 := by linarith [hsp]
    refine h0a (Prod.ext ?_ ?_)
    · have := (mul_eq_zero.mp ((mul_eq_zero.mp q1).resolve_left h1s)).resolve_left hD.ne'; linarith
    · have := (mul_eq_zero.mp ((mul_eq_zero.mp q2).resolve_left h1s)).resolve_left hD.ne'; linarith
  · -- everything is on the line v0 v1
    rw [← hg, mul_zero, add_zero] at g2
    rw [g2, zero_add] at gm
    have hm := (mul_eq_zero.mp gm).resolve_left hsp.ne'
    exact hD.ne' (cr_of_line h01 g2 hg.symm hm)

/-- the intersection `P` of the lines `m v0` and `v1 v2`, on the right of `v0 v1`, is beyond `v0` and beyond `v1` -/
theorem tip_beyond {m v0 v1 v2 P : Pt K} (hm0 : m ≠ v0) (h12 : v1 ≠ v2) (hx : crossE (m, v0) (v1, v2) ≠ 0)
    (hP0 : cr m v0 P = 0) (hP1 : cr v1 v2 P = 0) (hP : 0 ≤ cr v0 P v1)
    (cm01 : 0 ≤ cr m v0 v1) (c012 : 0 ≤ cr v0 v1 v2) (cm02 : 0 ≤ cr m v0 v2) (cm12 : 0 ≤ cr m v1 v2) :
    ∃ s t : K, 0 ≤ s ∧ 0 ≤ t ∧ P.1 = v0.1 + s * (v0.1 - m.1) ∧ P.2 = v0.2 + s * (v0.2 - m.2) ∧
      P.1 = v1.1 + t * (v1.1 - v2.1) ∧ P.2 = v1.2 + t * (v1.2 - v2.2) ∧ 0 < cr P v2 m := by
  have par : ∀ {a b q : Pt K}, a ≠ b → cr a b q = 0 → ∃ s : K, q.1 = b.1 + s * (b.1 - a.1) ∧ q.2 = b.2 + s * (b.2 - a.2) := by
    intro a b q hab hq
    have hn := nsq_pos hab
    refine ⟨dot a b q / nsq a b - 1, ?_, ?_⟩
    · field_simp
      unfold nsq dot; unfold cr at hq
      linear_combination (- (b.2 - a.2)) * hq
    · field_simp
      unfold nsq dot; unfold cr at hq
      linear_combination (b.1 - a.1) * hq
  obtain ⟨s, s1, s2⟩ := par hm0 hP0
  obtain ⟨t, t1, t2⟩ := par h12.symm (show cr v2 v1 P = 0 by unfold cr at hP1 ⊢; linear_combination - hP1)
  -- the values of s and t
  have hs : s * (cr m v1 v2 - cr v0 v1 v2) = cr v0 v1 v2 := by
    have e : cr v1 v2 P = cr v0 v1 v2 + s * (cr v0 v1 v2 - cr m v1 v2) := by unfold cr; rw [s1, s2]; ring
    rw [e] at hP1; linear_combination - hP1
  have ht : t * (cr m v0 v2 - cr m v0 v1) = cr m v0 v1 := by
    have e : cr m v0 P = cr m v0 v1 + t * (cr m v0 v1 - cr m v0 v2) := by unfold cr; rw [t1, t2]; ring
    rw [e] at hP0; linear_combination - hP0
  have hX : crossE (m, v0) (v1, v2) = cr m v0 v2 - cr m v0 v1 := by unfold crossE cr; ring
  have hX' : crossE (m, v0) (v1, v2) = cr m v1 v2 - cr v0 v1 v2 := by unfold crossE cr; ring
  have hor : cr v0 P v1 = s * cr m v0 v1 := by unfold cr; rw [s1, s2]; ring
  have hor' : cr v0 P v1 = t * cr v0 v1 v2 := by unfold cr; rw [t1, t2]; ring
  rw [hX] at hx
  have hpos : 0 < cr m v0 v2 - cr m v0 v1 := by
    rcases lt_or_gt_of_ne hx with h | h
    · exfalso
      -- then s and t are not positive and the products with the turns vanish
      have e1 : cr m v1 v2 - cr v0 v1 v2 < 0 := by rw [← hX', hX]; exact h
      have z0 : cr v0 v1 v2 = 0 := by
        by_contra hc
        have hc' := lt_of_le_of_ne c012 (Ne.symm hc)
        have hsn : s < 0 := by
          by_contra hh; push Not at hh
          have := mul_nonpos_of_nonneg_of_nonpos hh e1.le
          linarith
        have hm : cr m v0 v1 = 0 := by
          rw [hor] at hP
          rcases cm01.lt_or_eq with k | k
          · have := mul_neg_of_neg_of_pos hsn k; linarith
          · exact k.symm
        rw [hm] at h; linarith
      rw [z0] at e1; linarith
    · exact h
  have hpos' : 0 < cr m v1 v2 - cr v0 v1 v2 := by rw [← hX', hX]; exact hpos
  have s0 : 0 ≤ s := by
    by_contra hc; push Not at hc
    have := mul_neg_of_neg_of_pos hc hpos'; linarith
  have t0 : 0 ≤ t := by
    by_contra hc; push Not at hc
    have := mul_neg_of_neg_of_pos hc hpos; linarith
  refine ⟨s, t, s0, t0, s1, s2, t1, t2, ?_⟩
  have e : cr P v2 m = (1 + t) * cr m v1 v2 := by unfold cr; rw [t1, t2]; ring
  rw [e]
  exact mul_pos (by linarith) (by linarith)

theorem turns_rotated {σ : K} {v w : List (Pt K)} (h : Turns σ v) (hr : v.IsRotated w) : Turns σ w := by
  obtain ⟨k, rfl⟩ := hr; exact h.rotate k

theorem hull_rotated {v w : List (Pt K)} (hr : v.IsRotated w) : Hull v = Hull w := hull_congr fun _ => hr.perm.mem_iff

/-- cutting the edge `v0 v1`: the polygon with the tip instead of `v0` and `v1` -/
theorem tip_spec {v0 v1 v2 m P : Pt K} {l : List (Pt K)} (ht : Turns 1 (v0 :: v1 :: v2 :: (l ++ [m]))) (hn : (v0 :: v1 :: v2 :: (l ++ [m])).Nodup)
    (hx : crossE (m, v0) (v1, v2) ≠ 0) (hP0 : cr m v0 P = 0) (hP1 : cr v1 v2 P = 0) (hP : 0 ≤ cr v0 P v1) :
    Turns 1 (P :: v2 :: (l ++ [m])) ∧ (P :: v2 :: (l ++ [m])).Nodup ∧ Hull (v0 :: v1 :: v2 :: (l ++ [m])) ⊆ Hull (P :: v2 :: (l ++ [m])) := by
  have hn' := hn
  simp only [List.nodup_cons, List.mem_cons, List.mem_append, not_or, List.not_mem_nil, or_false] at hn'
  obtain ⟨⟨n01, n02, n0l, n0m⟩, ⟨n12, n1l, n1m⟩, ⟨n2l, n2m⟩, -⟩ := hn'
  have tr : ∀ a b c : Pt K, [a, b, c].Sublist (v0 :: v1 :: v2 :: (l ++ [m])) → 0 ≤ cr a b c := fun a b c h => by have := ht a b c h; rwa [one_mul] at this
  have hcyc : ∀ a b c : Pt K, cr a b c = cr c a b := by intro a b c; unfold cr; ring
  have sm : ∀ x : List (Pt K), x.Sublist (l ++ [m]) → x.Sublist (l ++ [m]) := fun _ h => h
  have hm : ([m] : List (Pt K)).Sublist (l ++ [m]) := List.sublist_append_right _ _
  have c012 := tr v0 v1 v2 (by simp)
  have cm01 : 0 ≤ cr m v0 v1 := by
    rw [← hcyc]
    exact tr v0 v1 m (((hm.cons v2).cons_cons v1).cons_cons v0)
  have cm02 : 0 ≤ cr m v0 v2 := by
    rw [← hcyc]
    exact tr v0 v2 m (((hm.cons_cons v2).cons v1).cons_cons v0)
  have cm12 : 0 ≤ cr m v1 v2 := by
    rw [← hcyc]
    exact tr v1 v2 m (((hm.cons_cons v2).cons_cons v1).cons v0)
  obtain ⟨s, t, hs, ht0, s1, s2, t1, t2, hD⟩ := tip_beyond (Ne.symm n0m) n12 hx hP0 hP1 hP cm01 c012 cm02 cm12
  refine ⟨?_, ?_, ?_⟩
  · intro a b c hsub
    rw [one_mul]
    rcases List.sublist_cons_iff.mp hsub with hsub | ⟨r, e, hsub⟩
    · exact tr a b c ((hsub.cons v1).cons v0)
    · rw [List.cons.injEq] at e
      obtain ⟨rfl, rfl⟩ := e
      -- a = P, b and c in order in v2 .. m
      rcases List.sublist_cons_iff.mp hsub with hsub' | ⟨r, e, hsub'⟩
      · -- b after v2
        have hb2 : [b].Sublist (l ++ [m]) := (by simp : [b].Sublist [b, c]).trans hsub'
        by_cases hbm : b = m
        · -- impossible: c after m
          exfalso
          subst hbm
          have hnd : (l ++ [b]).Nodup := ((List.nodup_cons.mp ((List.nodup_cons.mp ((List.nodup_cons.mp hn).2)).2)).2)
          have : [b, c].Sublist (l ++ [b]) := hsub'
          rw [List.sublist_append_iff] at this
          obtain ⟨l1, l2, e, k1, k2⟩ := this
          cases l1 with
          | nil =>
            rw [List.nil_append] at e
            subst e
            have := k2.length_le
            simp at this
          | cons x l1 =>
            rw [List.cons_append, List.cons.injEq] at e
            obtain ⟨rfl, -⟩ := e
            have hbl : b ∈ l := k1.subset List.mem_cons_self
            exact (List.disjoint_of_nodup_append hnd) hbl (by simp)
        · have hbl : b ∈ l := by
            have : b ∈ l ++ [m] := hb2.subset (by simp)
            rcases List.mem_append.mp this with h | h
            · exact h
            · exact absurd (List.mem_singleton.mp h) hbm
          have hblm : [b, m].Sublist (l ++ [m]) := by
            have := (List.singleton_sublist.mpr hbl).append (List.Sublist.refl [m])
            simpa using this
          refine tip_left hs ht0 s1 s2 t1 t2 n01 (fun h => n0l (h ▸ hbl)) hD ?_ ?_ ?_ ?_ c012 ?_ ?_
          · exact tr v1 v2 b (((hb2.cons_cons v2).cons_cons v1).cons v0)
          · exact tr v0 b m (((hblm.cons v2).cons v1).cons_cons v0)
          · exact tr v0 v1 b (((hb2.cons v2).cons_cons v1).cons_cons v0)
          · exact tr v0 v2 b (((hb2.cons_cons v2).cons v1).cons_cons v0)
          · exact tr v0 b c (((hsub'.cons v2).cons v1).cons_cons v0)
          · exact tr v1 b c (((hsub'.cons v2).cons_cons v1).cons v0)
      · rw [List.cons.injEq] at e
        obtain ⟨rfl, rfl⟩ := e
        have e : cr a b c = (1 + t) * cr v1 b c := by unfold cr; rw [t1, t2]; ring
        rw [e]
        exact mul_nonneg (by linarith) (tr v1 b c (((hsub'.cons_cons b).cons_cons v1).cons v0))
  · rw [List.nodup_cons]
    refine ⟨?_, (List.nodup_cons.mp (List.nodup_cons.mp hn).2).2⟩
    intro hmem
    have hmx : cr v1 v2 m ≠ 0 := by
      intro h0
      have e : cr P v2 m = (1 + t) * cr v1 v2 m := by unfold cr; rw [t1, t2]; ring
      rw [e, h0, mul_zero] at hD
      exact lt_irrefl _ hD
    have hm12 : 0 < cr v1 v2 m := lt_of_le_of_ne (by rw [hcyc]; exact cm12) (Ne.symm hmx)
    rcases List.mem_cons.mp hmem with h | h
    · -- P = v2
      have h1 : (1 + t) * (v1.1 - v2.1) = 0 := by rw [h] at t1; linear_combination - t1
      have h2 : (1 + t) * (v1.2 - v2.2) = 0 := by rw [h] at t2; linear_combination - t2
      have h1t : (1 + t) ≠ 0 := by linarith
      exact n12 (Prod.ext (by have := (mul_eq_zero.mp h1).resolve_left h1t; linarith) (by have := (mul_eq_zero.mp h2).resolve_left h1t; linarith))
    · rcases List.mem_append.mp h with h | h
      · have : 0 ≤ cr v2 P m := tr v2 P m (((by
          have := (List.singleton_sublist.mpr h).append (List.Sublist.refl [m])
          exact (by simpa using this : [P, m].Sublist (l ++ [m])).cons_cons v2 : [v2, P, m].Sublist (v2 :: (l ++ [m]))).cons v1).cons v0)
        have e : cr v2 P m = - cr P v2 m := by unfold cr; ring
        rw [e] at this
        linarith
      · have := List.mem_singleton.mp h
        subst this
        have : cr P v2 P = 0 := by unfold cr; ring
        rw [this] at hD; exact lt_irrefl _ hD
  · refine Hull.mono fun p hp => ?_
    have hPm : P ∈ Hull (P :: v2 :: (l ++ [m])) := Hull.mem (by simp)
    have h1s : (0 : K) < 1 + s := by linarith
    have h1t : (0 : K) < 1 + t := by linarith
    rcases List.mem_cons.mp hp with rfl | hp
    · refine Hull.segment hPm (Hull.mem (by simp : m ∈ _)) (t := s / (1 + s)) (by positivity) (by rw [div_le_one h1s]; linarith) ?_ ?_
      · rw [s1]; field_simp; ring
      · rw [s2]; field_simp; ring
    · rcases List.mem_cons.mp hp with rfl | hp
      · refine Hull.segment hPm (Hull.mem (by simp : v2 ∈ _)) (t := t / (1 + t)) (by positivity) (by rw [div_le_one h1t]; linarith) ?_ ?_
        · rw [t1]; field_simp; ring
        · rw [t2]; field_simp; ring
      · exact Hull.mem (List.mem_cons_of_mem _ hp)

/-- the vertex `p` may replace the edge from the vertex `i` to the next one -/
structure GoodTip (lim : TPt K) (v : List (Pt K)) (i : Nat) (p : Pt K) : Prop where
  lt : i < v.length
  cross : crossE (vtx v (i + v.length - 1), vtx v i) (vtx v (i + 1), vtx v (i + 2)) ≠ 0
  on0 : cr (vtx v (i + v.length - 1)) (vtx v i) p = 0
  on1 : cr (vtx v (i + 1)) (vtx v (i + 2)) p = 0
  out : 0 ≤ cr (vtx v i) p (vtx v (i + 1))
  lim : p.1 ∈ lim.1 ∧ p.2 ∈ lim.2

theorem itvMid_point (a : K) : itvMid (Itv.point a) = a := by
  have : (Itv.point a).bounds? = some (a, a) := rfl
  unfold itvMid; rw [this]; ring

theorem simpLoop_spec (lim : TPt K) (v : List (Pt K)) : ∀ (is : List Nat) (ms : K) (mi : Nat) (mp : Option (Pt K)), (∀ i ∈ is, i < v.length) →
    (∀ p, mp = some p → GoodTip lim v mi p) → ∀ i p, simpLoop lim v is ms mi mp = some (i, some p) → GoodTip lim v i p := by
  intro is
  induction is with
  | nil =>
    intro ms mi mp _ hg i p h
    simp only [simpLoop, Option.some.injEq, Prod.mk.injEq] at h
    obtain ⟨rfl, h⟩ := h
    exact hg p h
  | cons j is ih =>
    intro ms mi mp hlt hg i p h
    have hlt' : ∀ i ∈ is, i < v.length := fun i hi => hlt i (List.mem_cons_of_mem _ hi)
    simp only [simpLoop] at h
    by_cases hpar : parallel (fun _ => ⊥) (vtx v (j + v.length - 1), vtx v j) (vtx v (j + 1), vtx v (j + 2)) = true
    · rw [if_pos hpar] at h
      exact ih ms mi mp hlt' hg i p h
    · rw [if_neg hpar] at h
      by_cases hemp : ((proj (fun _ => (⊥ : Itv K)) (vtx v (j + v.length - 1), vtx v j) (vtx v (j + 1), vtx v (j + 2))).1.isEmpty ||
          (proj (fun _ => (⊥ : Itv K)) (vtx v (j + v.length - 1), vtx v j) (vtx v (j + 1), vtx v (j + 2))).2.isEmpty) = true
      · rw [if_pos hemp] at h; cases h
      · rw [if_neg hemp] at h
        have hx : crossE (vtx v (j + v.length - 1), vtx v j) (vtx v (j + 1), vtx v (j + 2)) ≠ 0 := by
          intro h0
          apply hemp
          rw [proj_parallel h0 (by simpa using hpar), Bool.or_eq_true]
          exact .inl (Itv.isEmpty_iff.mpr rfl)
        obtain ⟨q, q1, q2⟩ := secant hx
        have hq : proj (fun _ => (⊥ : Itv K)) (vtx v (j + v.length - 1), vtx v j) (vtx v (j + 1), vtx v (j + 2)) = ofPt q := proj_eq _ hx q1 q2
        have hqm : (itvMid (ofPt q).1, itvMid (ofPt q).2) = q := by
          unfold ofPt; simp only [itvMid_point]
        rw [hq, hqm] at h
        split_ifs at h with k1 k2 k3
        · exact ih ms mi mp hlt' hg i p h
        · refine ih _ j (some q) hlt' (fun p' hp' => ?_) i p h
          obtain rfl := Option.some.inj hp'
          have e1 : itvMid (ofPt q).1 = q.1 := congrArg Prod.fst hqm
          have e2 : itvMid (ofPt q).2 = q.2 := congrArg Prod.snd hqm
          rw [e1, e2] at k1
          exact ⟨hlt j List.mem_cons_self, hx, q1, q2, not_lt.mp k2, k1⟩
        · exact ih ms mi mp hlt' hg i p h
        · exact ih ms mi mp hlt' hg i p h

/-- the list rotated to an edge -/
theorem split_at {v : List (Pt K)} (h4 : 4 ≤ v.length) {i : Nat} (hi : i < v.length) (p : Pt K) : ∃ l,
    v.IsRotated (vtx v i :: vtx v (i + 1) :: vtx v (i + 2) :: (l ++ [vtx v (i + v.length - 1)])) ∧
      ((v.set i p).eraseIdx ((i + 1) % v.length)).IsRotated (p :: vtx v (i + 2) :: (l ++ [vtx v (i + v.length - 1)])) := by
  -- the rotated list
  have hlen : (v.rotate i).length = v.length := List.length_rotate _ _
  have hget : ∀ k, k < v.length → (v.rotate i)[k]? = some (vtx v (i + k)) := by
    intro k hk
    rw [List.getElem?_rotate hk]
    unfold vtx
    rw [Nat.add_comm k i, List.getD_eq_getElem?_getD]
    have hm : (i + k) % v.length < v.length := Nat.mod_lt _ (by omega)
    rw [List.getElem?_eq_getElem hm]
    rfl
  obtain ⟨a, b, c, w, hw⟩ : ∃ a b c w, v.rotate i = a :: b :: c :: w := by
    match hv : v.rotate i, hlen with
    | [], h => simp at h; omega
    | [_], h => simp at h; omega
    | [_, _], h => simp at h; omega
    | a :: b :: c :: w, _ => exact ⟨a, b, c, w, rfl⟩
  have ea : a = vtx v i := by have := hget 0 (by omega); rw [hw] at this; simpa using this
  have eb : b = vtx v (i + 1) := by have := hget 1 (by omega); rw [hw] at this; simpa using this
  have ec : c = vtx v (i + 2) := by have := hget 2 (by omega); rw [hw] at this; simpa using this
  have hwl : w.length + 3 = v.length := by rw [← hlen, hw]; simp
  have hw0 : w ≠ [] := by rintro rfl; simp at hwl; omega
  have elast : w.getLast hw0 = vtx v (i + v.length - 1) := by
    have := hget (v.length - 1) (by omega)
    rw [hw, ← hwl] at this
    have e3 : w.length + 3 - 1 = (w.length - 1) + 1 + 1 + 1 := by have := List.length_pos_iff.mpr hw0; omega
    rw [e3, List.getElem?_cons_succ, List.getElem?_cons_succ, List.getElem?_cons_succ, ← List.getLast?_eq_getElem?, List.getLast?_eq_some_getLast hw0] at this
    have := Option.some.inj this
    rw [this]
    congr 1
    have := List.length_pos_iff.mpr hw0
    omega
  have hwd : w = w.dropLast ++ [vtx v (i + v.length - 1)] := by
    rw [← elast]; exact (List.dropLast_append_getLast hw0).symm
  refine ⟨w.dropLast, ⟨i, ?_⟩, ?_⟩
  · rw [hw, ← hwd, ea, eb, ec]
  · rw [← hwd, ← ec]
    -- the new list
    by_cases hlast : i + 1 < v.length
    · rw [Nat.mod_eq_of_lt hlast]
      have hdrop : v.drop i ++ v.take i = a :: b :: c :: w := by rw [← hw, List.rotate_eq_drop_append_take hi.le]
      have h1 : v.drop i = a :: b :: v.drop (i + 2) := by
        rw [List.drop_eq_getElem_cons hi, List.drop_eq_getElem_cons hlast] at hdrop ⊢
        simp only [List.cons_append, List.cons.injEq] at hdrop
        rw [hdrop.1, hdrop.2.1]
      have h2 : v.drop (i + 2) ++ v.take i = c :: w := by
        rw [h1] at hdrop
        simpa using hdrop
      have h3 : (v.set i p).eraseIdx (i + 1) = v.take i ++ p :: v.drop (i + 2) := by
        rw [List.eraseIdx_eq_take_drop_succ, List.set_eq_take_append_cons_drop, if_pos hi]
        have ht : (v.take i).length = i := by rw [List.length_take]; omega
        have t1 : (v.take i).take (i + 1) = v.take i := List.take_of_length_le (by rw [ht]; omega)
        have t2 : (v.take i).drop (i + 1 + 1) = [] := List.drop_eq_nil_of_le (by rw [ht]; omega)
        rw [List.take_append, List.drop_append, ht, t1, t2]
        have e1 : i + 1 - i = 1 := by omega
        have e2 : i + 1 + 1 - i = 2 := by omega
        rw [e1, e2]
        simp
      rw [h3]
      refine List.IsRotated.trans (List.isRotated_append) ?_
      rw [List.cons_append, h2]
    · have hin : i + 1 = v.length := by omega
      rw [hin, Nat.mod_self]
      obtain ⟨x, v', rfl⟩ : ∃ x v', v = x :: v' := by
        cases v with
        | nil => simp at hi
        | cons x v' => exact ⟨x, v', rfl⟩
      have hi0 : i = v'.length := by simpa using hin
      have hrot : (x :: v').rotate i = [a] ++ (b :: c :: w) := by rw [hw]; rfl
      have hv0 : v' ≠ [] := by rintro rfl; simp at h4
      have hdrop : (x :: v').drop i ++ (x :: v').take i = a :: b :: c :: w := by rw [← hw, List.rotate_eq_drop_append_take hi.le]
      obtain ⟨j, hj⟩ : ∃ j, i = j + 1 := ⟨i - 1, by have := List.length_pos_iff.mpr hv0; omega⟩
      have hd : (x :: v').drop i = [v'.getLast hv0] := by
        rw [hj, List.drop_succ_cons]
        have : j = v'.length - 1 := by omega
        rw [this, List.drop_length_sub_one hv0]
      have htk : (x :: v').take i = x :: v'.dropLast := by
        rw [hj, List.take_succ_cons, List.dropLast_eq_take]
        congr 2; omega
      rw [hd, htk] at hdrop
      simp only [List.cons_append, List.nil_append, List.cons.injEq] at hdrop
      have hset : ((x :: v').set i p).eraseIdx 0 = v'.dropLast ++ [p] := by
        rw [hj, List.set_cons_succ, List.eraseIdx_cons_zero]
        conv_lhs => rw [← List.dropLast_append_getLast hv0]
        rw [List.set_append_right _ _ (by rw [List.length_dropLast]; omega)]
        have : j - v'.dropLast.length = 0 := by rw [List.length_dropLast]; omega
        rw [this]; rfl
      rw [hset, hdrop.2.2]
      exact List.isRotated_append

theorem step_spec {lim : TPt K} {v : List (Pt K)} (ht : Turns 1 v) (hn : v.Nodup) (h4 : 4 ≤ v.length) {i : Nat} {p : Pt K} (hg : GoodTip lim v i p) :
    Turns 1 ((v.set i p).eraseIdx ((i + 1) % v.length)) ∧ ((v.set i p).eraseIdx ((i + 1) % v.length)).Nodup ∧
      Hull v ⊆ Hull ((v.set i p).eraseIdx ((i + 1) % v.length)) ∧
      ∀ q ∈ (v.set i p).eraseIdx ((i + 1) % v.length), q ∈ v ∨ q = p := by
  obtain ⟨l, r1, r2⟩ := split_at h4 hg.lt p
  obtain ⟨k1, k2, k3⟩ := tip_spec (turns_rotated ht r1) (r1.nodup_iff.mp hn) hg.cross hg.on0 hg.on1 hg.out
  refine ⟨turns_rotated k1 r2.symm, r2.nodup_iff.mpr k2, ?_, ?_⟩
  · rw [hull_rotated r1, hull_rotated r2]; exact k3
  · intro q hq
    rcases List.mem_cons.mp (r2.mem_iff.mp hq) with h | h
    · exact .inr h
    · exact .inl (r1.mem_iff.mpr (List.mem_cons_of_mem _ (List.mem_cons_of_mem _ h)))

theorem simpWhile_spec {lim : TPt K} {n : Nat} (hn3 : 3 ≤ n) {a b c d : K} (hab : a ≤ b) (hcd : c ≤ d) (hlim : lim = (.icc a b, .icc c d)) :
    ∀ (k : Nat) (v : List (Pt K)), Turns 1 v → v.Nodup → (∀ q ∈ v, q.1 ∈ lim.1 ∧ q.2 ∈ lim.2) →
      ((∃ σ : K, σ ≠ 0 ∧ Turns σ (simpWhile lim n k v)) ∧ (simpWhile lim n k v).Nodup ∧ Hull v ⊆ Hull (simpWhile lim n k v) ∧
        ∀ q ∈ simpWhile lim n k v, q.1 ∈ lim.1 ∧ q.2 ∈ lim.2) := by
  intro k
  induction k with
  | zero => intro v ht hn hl; exact ⟨⟨1, one_ne_zero, ht⟩, hn, subset_rfl, hl⟩
  | succ k ih =>
    intro v ht hn hl
    simp only [simpWhile]
    by_cases hlen : n < v.length
    · rw [if_pos hlen]
      cases hs : simpLoop lim v (List.range v.length) 0 0 none with
      | none =>
        rw [hlim]
        have hb1 : (Itv.icc a b).bounds? = some (a, b) := by rw [Itv.icc_eq_mk hab]; rfl
        have hb2 : (Itv.icc c d).bounds? = some (c, d) := by rw [Itv.icc_eq_mk hcd]; rfl
        simp only [hb1, hb2]
        obtain ⟨h1, h2, -⟩ := convexHullPts_poly [(a, c), (b, c), (b, d), (a, d)]
        refine ⟨h1, h2, ?_, fun q hq => ?_⟩
        · refine Hull.mono fun q hq => ?_
          have := hl q hq
          rw [hlim] at this
          exact (ofBox_spec hab hcd).mpr ⟨Itv.mem_icc.mp this.1, Itv.mem_icc.mp this.2⟩
        · have := (ofBox_spec hab hcd).mp (Hull.mem hq)
          exact ⟨Itv.mem_icc.mpr this.1, Itv.mem_icc.mpr this.2⟩
      | some r =>
        obtain ⟨i, mp⟩ := r
        cases mp with
        | none => exact ⟨⟨1, one_ne_zero, ht⟩, hn, subset_rfl, hl⟩
        | some p =>
          have hg := simpLoop_spec lim v _ 0 0 none (fun i hi => List.mem_range.mp hi) (by simp) i p hs
          obtain ⟨k1, k2, k3, k4⟩ := step_spec ht hn (by omega) hg
          obtain ⟨j1, j2, j3, j4⟩ := ih _ k1 k2 (fun q hq => by
            rcases k4 q hq with h | rfl
            · exact hl q h
            · exact hg.lim)
          exact ⟨j1, j2, k3.trans j3, j4⟩
    · rw [if_neg hlen]; exact ⟨⟨1, one_ne_zero, ht⟩, hn, subset_rfl, hl⟩

theorem simpLoop_some (lim : TPt K) (v : List (Pt K)) : ∀ (is : List Nat) (ms : K) (mi : Nat) (q : Pt K) (j : Nat),
    simpLoop lim v is ms mi (some q) ≠ some (j, none) := by
  intro is
  induction is with
  | nil => intro ms mi q j h; simp [simpLoop] at h
  | cons i is ih =>
    intro ms mi q j h
    simp only [simpLoop] at h
    split_ifs at h <;> exact ih _ _ _ _ h

/-- no vertex is found: no edge can be removed -/
theorem simpLoop_none (lim : TPt K) (v : List (Pt K)) : ∀ (is : List Nat) (ms : K) (mi j : Nat), simpLoop lim v is ms mi none = some (j, none) → mi = 0 →
    ∀ i ∈ is, ∀ p, ¬ GoodTip lim v i p := by
  intro is
  induction is with
  | nil => simp
  | cons k is ih =>
    intro ms mi j h h0 i hi p hg
    subst h0
    simp only [simpLoop] at h
    by_cases hpar : parallel (fun _ => ⊥) (vtx v (k + v.length - 1), vtx v k) (vtx v (k + 1), vtx v (k + 2)) = true
    · rw [if_pos hpar] at h
      rcases List.mem_cons.mp hi with rfl | hi
      · rw [parallel_secant _ hg.cross] at hpar; cases hpar
      · exact ih _ _ _ h rfl i hi p hg
    · rw [if_neg hpar] at h
      split_ifs at h with k1 k2 k3 k4
      · rcases List.mem_cons.mp hi with rfl | hi
        · have hq : proj (fun _ => (⊥ : Itv K)) (vtx v (i + v.length - 1), vtx v i) (vtx v (i + 1), vtx v (i + 2)) = ofPt p := proj_eq _ hg.cross hg.on0 hg.on1
          have hqm : (itvMid (ofPt p).1, itvMid (ofPt p).2) = p := by
            unfold ofPt; simp only [itvMid_point]
          rw [hq, hqm] at k3
          exact absurd hg.out (not_le.mpr k3)
        · exact ih _ _ _ h rfl i hi p hg
      · exact absurd h (simpLoop_some lim v _ _ _ _ _)
      · simp at k4
      · rcases List.mem_cons.mp hi with rfl | hi
        · have hq : proj (fun _ => (⊥ : Itv K)) (vtx v (i + v.length - 1), vtx v i) (vtx v (i + 1), vtx v (i + 2)) = ofPt p := proj_eq _ hg.cross hg.on0 hg.on1
          have e1 : itvMid (ofPt p).1 = p.1 := itvMid_point _
          have e2 : itvMid (ofPt p).2 = p.2 := itvMid_point _
          rw [hq, e1, e2] at k2
          exact absurd hg.lim k2
        · exact ih _ _ _ h rfl i hi p hg

theorem simpWhile_stops {lim : TPt K} {n : Nat} {a b c d : K} (hab : a ≤ b) (hcd : c ≤ d) (hlim : lim = (.icc a b, .icc c d)) : ∀ (k : Nat) (v : List (Pt K)), v.length ≤ k + n →
    ((simpWhile lim n k v).length ≤ n ∨ simpWhile lim n k v = ofBox a b c d ∨ ∀ i < (simpWhile lim n k v).length, ∀ p, ¬ GoodTip lim (simpWhile lim n k v) i p) := by
  intro k
  induction k with
  | zero => intro v h; left; simpa [simpWhile] using h
  | succ k ih =>
    intro v h
    simp only [simpWhile]
    by_cases hlen : n < v.length
    · rw [if_pos hlen]
      cases hs : simpLoop lim v (List.range v.length) 0 0 none with
      | none =>
        right; left
        rw [hlim]
        have hb1 : (Itv.icc a b).bounds? = some (a, b) := by rw [Itv.icc_eq_mk hab]; rfl
        have hb2 : (Itv.icc c d).bounds? = some (c, d) := by rw [Itv.icc_eq_mk hcd]; rfl
        simp only [hb1, hb2]
      | some r =>
        obtain ⟨i, mp⟩ := r
        cases mp with
        | none =>
          right; right
          intro i hi p
          exact simpLoop_none lim v _ 0 0 _ hs rfl i (List.mem_range.mpr hi) p
        | some p =>
          refine ih _ ?_
          rw [List.length_eraseIdx, if_pos (by rw [List.length_set]; exact Nat.mod_lt _ (by omega)), List.length_set]
          omega
    · rw [if_neg hlen]; left; omega

theorem simpLimit_eq {v : List (Pt K)} (hv : v ≠ []) : ∃ a b c d : K, ∃ (h1 : a ≤ b) (h2 : c ≤ d), pbox v = (Itv.mk (some a) (some b) h1, Itv.mk (some c) (some d) h2) ∧
    simpLimit v = (.icc (a - max (b - a) (d - c) * 2) (b + max (b - a) (d - c) * 2), .icc (c - max (b - a) (d - c) * 2) (d + max (b - a) (d - c) * 2)) ∧
    (a - max (b - a) (d - c) * 2 ≤ a ∧ b ≤ b + max (b - a) (d - c) * 2 ∧ c - max (b - a) (d - c) * 2 ≤ c ∧ d ≤ d + max (b - a) (d - c) * 2) ∧
    (∀ u ∈ v, a ≤ u.1 ∧ u.1 ≤ b ∧ c ≤ u.2 ∧ u.2 ≤ d) ∧ (∃ u ∈ v, u.1 = a) ∧ (∃ u ∈ v, u.1 = b) ∧ (∃ u ∈ v, u.2 = c) ∧ (∃ u ∈ v, u.2 = d) := by
  obtain ⟨a, b, c, d, h1, h2, hb, hall, e⟩ := pbox_spec hv
  have hr : 0 ≤ max (b - a) (d - c) := le_max_of_le_left (sub_nonneg.mpr h1)
  refine ⟨a, b, c, d, h1, h2, hb, ?_, ⟨by linarith, by linarith, by linarith, by linarith⟩, hall, e⟩
  unfold simpLimit
  rw [hb]
  rfl

theorem simplify_spec {n : Nat} (hn3 : 3 ≤ n) {v : List (Pt K)} (ht : Turns 1 v) (hn : v.Nodup) :
    (∃ σ : K, σ ≠ 0 ∧ Turns σ (simplify n v)) ∧ (simplify n v).Nodup ∧ Hull v ⊆ Hull (simplify n v) ∧
      ∀ q ∈ simplify n v, q.1 ∈ (simpLimit v).1 ∧ q.2 ∈ (simpLimit v).2 := by
  rcases eq_or_ne v [] with rfl | hv
  · exact ⟨⟨1, one_ne_zero, ht⟩, hn, subset_rfl, by simp [simplify, simpWhile]⟩
  · obtain ⟨a, b, c, d, h1, h2, -, hl, ⟨l1, l2, l3, l4⟩, hall, -⟩ := simpLimit_eq hv
    refine simpWhile_spec hn3 (by linarith) (by linarith) hl _ v ht hn fun q hq => ?_
    obtain ⟨k1, k2, k3, k4⟩ := hall q hq
    rw [hl]
    exact ⟨Itv.mem_icc.mpr ⟨by linarith, by linarith⟩, Itv.mem_icc.mpr ⟨by linarith, by linarith⟩⟩

/-! ### Rotation -/

/-- the thick point of a rotated vertex, codac_ConvexPolygon.cpp:280-287: `C` and `S` are the intervals `cos(theta)` and `sin(theta)`. The
products and sums by the constants 0 and 1 of the 3×3 matrices are done (they change nothing in exact arithmetic) -/
def rotPt (C S : Itv K) (z : TPt K) (p : Pt K) : TPt K :=
  tpt (.add (.add (.mul C (.point p.1)) (.mul S.neg (.point p.2))) (.add (.add (.mul C z.1.neg) (.mul S.neg z.2.neg)) z.1))
    (.add (.add (.mul S (.point p.1)) (.mul C (.point p.2))) (.add (.add (.mul S z.1.neg) (.mul C z.2.neg)) z.2))

/-- `ConvexPolygon::rotate(theta, center)`, codac_ConvexPolygon.cpp:259-292 -/
def rotate (eps : K) (C S : Itv K) (z : TPt K) (v : List (Pt K)) : Option (List (Pt K)) := ofThick eps (v.map (rotPt C S z))

theorem rotPt_mem {C S : Itv K} {z : TPt K} {c s : K} (hc : c ∈ C) (hs : s ∈ S) {x : Pt K} (h1 : x.1 ∈ z.1) (h2 : x.2 ∈ z.2) (p : Pt K) :
    In (x.1 + (c * (p.1 - x.1) - s * (p.2 - x.2)), x.2 + (s * (p.1 - x.1) + c * (p.2 - x.2))) (rotPt C S z p) := by
  unfold rotPt
  refine in_tpt.mpr ⟨?_, ?_⟩
  · have := Itv.mem_add (Itv.mem_add (Itv.mem_mul hc (Itv.mem_point.mpr (rfl : p.1 = p.1))) (Itv.mem_mul (Itv.mem_neg hs) (Itv.mem_point.mpr (rfl : p.2 = p.2))))
      (Itv.mem_add (Itv.mem_add (Itv.mem_mul hc (Itv.mem_neg h1)) (Itv.mem_mul (Itv.mem_neg hs) (Itv.mem_neg h2))) h1)
    have e : x.1 + (c * (p.1 - x.1) - s * (p.2 - x.2)) = c * p.1 + -s * p.2 + (c * -x.1 + -s * -x.2 + x.1) := by ring
    rw [e]; exact this
  · have := Itv.mem_add (Itv.mem_add (Itv.mem_mul hs (Itv.mem_point.mpr (rfl : p.1 = p.1))) (Itv.mem_mul hc (Itv.mem_point.mpr (rfl : p.2 = p.2))))
      (Itv.mem_add (Itv.mem_add (Itv.mem_mul hs (Itv.mem_neg h1)) (Itv.mem_mul hc (Itv.mem_neg h2))) h2)
    have e : x.2 + (s * (p.1 - x.1) + c * (p.2 - x.2)) = s * p.1 + c * p.2 + (s * -x.1 + c * -x.2 + x.2) := by ring
    rw [e]; exact this

theorem rotate_sound {eps : K} {C S : Itv K} {z : TPt K} {v r : List (Pt K)} (h : rotate eps C S z v = some r) (hw : ∀ p ∈ v, Wide eps (rotPt C S z p))
    {c s : K} (hc : c ∈ C) (hs : s ∈ S) {x : Pt K} (h1 : x.1 ∈ z.1) (h2 : x.2 ∈ z.2) {p : Pt K} (hp : p ∈ Hull v) :
    (x.1 + (c * (p.1 - x.1) - s * (p.2 - x.2)), x.2 + (s * (p.1 - x.1) + c * (p.2 - x.2))) ∈ Hull r := by
  unfold rotate at h
  rw [ofThick_spec h]
  · have := hull_map (f := fun p => (x.1 + (c * (p.1 - x.1) - s * (p.2 - x.2)), x.2 + (s * (p.1 - x.1) + c * (p.2 - x.2))))
      (fun p q s => Prod.ext (by dsimp only; ring) (by dsimp only; ring)) v hp
    refine convexHull_mono ?_ this
    intro y hy
    obtain ⟨p, hp, rfl⟩ := List.mem_map.mp hy
    exact ⟨_, List.mem_map_of_mem hp, rotPt_mem hc hs h1 h2 p⟩
  · intro X hX
    obtain ⟨p, hp, rfl⟩ := List.mem_map.mp hX
    exact hw p hp
  · intro X hX
    obtain ⟨p, hp, rfl⟩ := List.mem_map.mp hX
    exact ⟨Itv.ne_bot_of_mem (rotPt_mem hc hs h1 h2 p).1, Itv.ne_bot_of_mem (rotPt_mem hc hs h1 h2 p).2⟩

end Codac.Poly
