import Verif.Geometry.InPolygonEx

/-!
# C101: `PdcInPolygon` and `SepPolygon`

A polygon is a list of oriented segments. Seen from a point that is not on the segments, the sum of the oriented angles of the
segments is `2π` times the number of turns that they make around the point: the point is inside when this sum is not zero.
-/

namespace Codac.Props
open Codac.InPoly
open Complex (arg)

/-- sum of the angles, between `-π` and `π`, from the beginning to the end of each segment, seen from `z` -/
noncomputable def turn (segs : List Seg) (z : ℂ) : ℝ := (segs.map fun s => arg ((s.b - z) / (s.a - z))).sum

/-- `z` is on a segment of the polygon -/
def OnPolygon (segs : List Seg) (z : ℂ) : Prop := ∃ s ∈ segs, z ∈ segment ℝ s.a s.b

/-- the point is in the box -/
def PtIn (z : ℂ) (x : Itv ℝ × Itv ℝ) : Prop := z.re ∈ x.1 ∧ z.im ∈ x.2

/-- the segments are the edges of closed polygons (for instance a polygon and its holes), in any order -/
def ClosedPolygons (segs : List Seg) : Prop := ∃ vs : List (List ℂ), segs.Perm (vs.map segsOf).flatten

/-- the polygon makes at most one turn around each point, in the counter-clockwise order: what the documentation of `SepPolygon` asks -/
def CounterClockwiseOnce (segs : List Seg) : Prop := ∀ z, ¬ OnPolygon segs z → turn segs z = 0 ∨ turn segs z = 2 * Real.pi

/-- The edges of a list of vertices: one edge from each vertex to the next one, one edge from the last vertex to the first one. -/
theorem C101_edges (v : List ℂ) : (segsOf v).length = v.length ∧ ∀ i (h : i < v.length),
    (segsOf v)[i]? = some ⟨v[i], if h' : i + 1 < v.length then v[i + 1] else v[0]⟩ := by
  refine ⟨by simp [segsOf], fun i h => ?_⟩
  unfold segsOf
  rw [List.getElem?_map, List.getElem?_range h, Option.map_some, Nat.mod_eq_of_lt h]
  congr 2
  · rw [List.getD_eq_getElem?_getD, List.getElem?_eq_getElem h, Option.getD_some]
  · split
    · rename_i h'
      rw [Nat.mod_eq_of_lt h', List.getD_eq_getElem?_getD, List.getElem?_eq_getElem h', Option.getD_some]
    · rename_i h'
      have e : i + 1 = v.length := by omega
      rw [e, Nat.mod_self, List.getD_eq_getElem?_getD, List.getElem?_eq_getElem (by omega), Option.getD_some]

/-- Whatever the roundings, on a box that does not meet the segments, the answers of `PdcInPolygon::test` hold for every point of the
box, although only its middle is tested: all the points are inside if the answer is YES; none is inside if the answer is NO, for a
polygon given in the counter-clockwise order (for any polygon: the sum of the angles is not `2π`). -/
theorem C101_test (O : Ops) (segs : List Seg) (hc : ClosedPolygons segs) (x : Itv ℝ × Itv ℝ) (hx : ∀ z, PtIn z x → ¬ OnPolygon segs z) :
    (test O segs x = .yes → ∀ z, PtIn z x → turn segs z ≠ 0) ∧
    (test O segs x = .no → ∀ z, PtIn z x → turn segs z ≠ 2 * Real.pi) ∧
    (CounterClockwiseOnce segs → test O segs x = .no → ∀ z, PtIn z x → turn segs z = 0) := by
  have mid : ∀ z, PtIn z x → PtIn (midPt O x) x := fun z hz =>
    ⟨O.mid_mem (Itv.ne_bot_of_mem hz.1), O.mid_mem (Itv.ne_bot_of_mem hz.2)⟩
  have const : ∀ z, PtIn z x → turn segs z = turn segs (midPt O x) := fun z hz =>
    total_const hc fun w hw => hx w (in_segment (x := x) hz (mid z hz) hw)
  have hno : test O segs x = .no → ∀ z, PtIn z x → turn segs z ≠ 2 * Real.pi := fun h z hz => by
    rw [const z hz]
    exact test_no O h (hx _ (mid z hz))
  refine ⟨fun h z hz => ?_, hno, fun hcc h z hz => ?_⟩
  · rw [const z hz]
    exact test_yes O h (hx _ (mid z hz))
  · exact (hcc z (hx z hz)).resolve_right (hno h z hz)

/-- With exact operations the test always answers on a point that is not on the segments: YES inside, NO if the sum of the angles is zero. -/
theorem C101_exact (segs : List Seg) (x : Itv ℝ × Itv ℝ) (hx : ¬ OnPolygon segs (midPt hullOps x)) :
    test hullOps segs x = if turn segs (midPt hullOps x) = 0 then .no else .yes := by
  have hp := Real.pi_pos
  have e : test hullOps segs x = answer hullOps (Itv.point (turn segs (midPt hullOps x))) :=
    congrArg (answer hullOps) (theta_exact segs (midPt hullOps x) hx)
  rw [e]
  unfold answer
  by_cases h0 : turn segs (midPt hullOps x) = 0
  · have h1 : (0 : ℝ) ∈ Itv.point (turn segs (midPt hullOps x)) := Itv.mem_point.2 h0.symm
    rw [if_neg (not_not.2 h1), if_pos, if_pos h0]
    refine ⟨?_, h1⟩
    rw [Itv.isEmpty_iff, Itv.eq_bot_iff_mem]
    intro t ht
    obtain ⟨h2, h3⟩ := Itv.mem_inf.1 ht
    have hm : hullOps.S.A.mul (Itv.point 2) hullOps.pi ≤ Itv.point (2 * Real.pi) := by
      refine Itv.hullOf_le ?_
      rintro w ⟨a, b, ha, hb, rfl⟩
      rw [Itv.mem_point.1 ha, Itv.mem_point.1 hb]
      exact Itv.mem_point.2 rfl
    have h4 := Itv.mem_point.1 (Itv.mem_of_le hm h3)
    have h5 := Itv.mem_point.1 h2
    linarith
  · rw [if_pos fun h => h0 (Itv.mem_point.1 h).symm, if_neg h0]

/-- `SepPolygon` gives boxes inside the given box. -/
theorem C101_subset (O : Ops) {ctcF ctcG : Box ℝ → Box ℝ} (hF : IsCtc 6 SegSolF ctcF) (hG : IsCtc 6 SegSolG ctcG)
    {diff : Itv ℝ × Itv ℝ → Itv ℝ × Itv ℝ → List (Itv ℝ × Itv ℝ)} (hd : DiffSpec O diff) (segs : List Seg) (x : Itv ℝ × Itv ℝ) (z : ℂ) :
    (PtIn z (separate O ctcF ctcG diff segs x).1 → PtIn z x) ∧ (PtIn z (separate O ctcF ctcG diff segs x).2 → PtIn z x) := by
  have hb := border_le hF hG segs x
  obtain ⟨h1, h2⟩ := classify_le O segs (diff x (border ctcF ctcG segs x)) (fun b hb => hd.sub _ _ b hb) (border ctcF ctcG segs x, border ctcF ctcG segs x) hb hb
  exact ⟨fun h => ⟨Itv.mem_of_le h1.1 h.1, Itv.mem_of_le h1.2 h.2⟩, fun h => ⟨Itv.mem_of_le h2.1 h.1, Itv.mem_of_le h2.2 h.2⟩⟩

/-- The inner contraction of `SepPolygon` loses no point that is outside the polygon or on its border, for any closed polygons. -/
theorem C101_in (O : Ops) {ctcF ctcG : Box ℝ → Box ℝ} (hF : IsCtc 6 SegSolF ctcF) (hG : IsCtc 6 SegSolG ctcG)
    {diff : Itv ℝ × Itv ℝ → Itv ℝ × Itv ℝ → List (Itv ℝ × Itv ℝ)} (hd : DiffSpec O diff) {segs : List Seg} (hc : ClosedPolygons segs)
    {x : Itv ℝ × Itv ℝ} {z : ℂ} (hz : PtIn z x) (h : OnPolygon segs z ∨ turn segs z = 0) :
    PtIn z (separate O ctcF ctcG diff segs x).1 := by
  by_cases hy : In z (border ctcF ctcG segs x)
  · exact (classify_mono O segs _ _).1 hy
  have h0 : turn segs z = 0 := h.resolve_left fun h => hy (border_keeps hF hG hz h)
  obtain ⟨b, hb, hzb⟩ := (hd.cover x _ z hz).resolve_left hy
  obtain ⟨hm, he⟩ := removed_const O hF hG hd hc hb hzb hy
  refine classify_in O segs hzb (fun ht => ?_) _ hb _
  exact test_yes O ht hm (he.symm.trans h0)

/-- The outer contraction of `SepPolygon` loses no point that is inside the polygon or on its border, for closed polygons that turn at
most once, counter-clockwise, around each point. -/
theorem C101_out (O : Ops) {ctcF ctcG : Box ℝ → Box ℝ} (hF : IsCtc 6 SegSolF ctcF) (hG : IsCtc 6 SegSolG ctcG)
    {diff : Itv ℝ × Itv ℝ → Itv ℝ × Itv ℝ → List (Itv ℝ × Itv ℝ)} (hd : DiffSpec O diff) {segs : List Seg} (hc : ClosedPolygons segs)
    (hcc : CounterClockwiseOnce segs) {x : Itv ℝ × Itv ℝ} {z : ℂ} (hz : PtIn z x) (h : OnPolygon segs z ∨ turn segs z ≠ 0) :
    PtIn z (separate O ctcF ctcG diff segs x).2 := by
  by_cases hy : In z (border ctcF ctcG segs x)
  · exact (classify_mono O segs _ _).2 hy
  have hon : ¬ OnPolygon segs z := fun h => hy (border_keeps hF hG hz h)
  have h0 : turn segs z ≠ 0 := h.resolve_left hon
  obtain ⟨b, hb, hzb⟩ := (hd.cover x _ z hz).resolve_left hy
  obtain ⟨hm, he⟩ := removed_const O hF hG hd hc hb hzb hy
  refine classify_out O segs hzb (fun ht => ?_) _ hb _
  exact test_no O ht hm (he.symm.trans ((hcc z hon).resolve_left h0))

/-- A point from which all the vertices are strictly on the same side (in the direction `u`) is outside the polygon. -/
theorem C101_far (v : List ℂ) (z u : ℂ) (h : ∀ p ∈ v, 0 < ((p - z) * u).re) : turn (segsOf v) z = 0 := total_far v z u h

/-- The hypothesis on the order holds for every triangle whose vertices are in the counter-clockwise order. -/
theorem C101_triangle (a b c : ℂ) (h : 0 < (b.re - a.re) * (c.im - a.im) - (b.im - a.im) * (c.re - a.re)) :
    CounterClockwiseOnce (segsOf [a, b, c]) := by
  intro z hz
  obtain ⟨k, hk⟩ := total_int (segs := segsOf [a, b, c]) ⟨[[a, b, c]], by simp⟩ hz
  have hk : turn (segsOf [a, b, c]) z = k * (2 * Real.pi) := hk
  have e : turn (segsOf [a, b, c]) z = arg ((b - z) / (a - z)) + (arg ((c - z) / (b - z)) + arg ((a - z) / (c - z))) := by
    simp [turn, segsOf, List.range_succ]
  have hs : segsOf [a, b, c] = [⟨a, b⟩, ⟨b, c⟩, ⟨c, a⟩] := by simp [segsOf, List.range_succ]
  have s1 : z ∉ segment ℝ a b := fun h => hz ⟨⟨a, b⟩, by simp [hs], h⟩
  have s2 : z ∉ segment ℝ b c := fun h => hz ⟨⟨b, c⟩, by simp [hs], h⟩
  have s3 : z ∉ segment ℝ c a := fun h => hz ⟨⟨c, a⟩, by simp [hs], h⟩
  have lt : ∀ p q : ℂ, z ∉ segment ℝ p q → arg ((q - z) / (p - z)) < Real.pi := by
    intro p q hpq
    exact lt_of_le_of_ne (Complex.arg_le_pi _) (Complex.slitPlane_arg_ne_pi (slit (s := ⟨p, q⟩) hpq))
  have gt : ∀ p q : ℂ, -Real.pi < arg ((q - z) / (p - z)) := fun p q => Complex.neg_pi_lt_arg _
  have im : ∀ p q : ℂ, arg ((q - z) / (p - z)) < 0 →
      (p.re - z.re) * (q.im - z.im) - (p.im - z.im) * (q.re - z.re) ≤ 0 := by
    intro p q h0
    rw [Complex.arg_neg_iff, Complex.div_im] at h0
    have hn := Complex.normSq_nonneg (p - z)
    rw [← sub_div] at h0
    have h1 : (q - z).im * (p - z).re - (q - z).re * (p - z).im ≤ 0 := by
      by_contra hc
      exact absurd h0 (not_lt.2 (div_nonneg (not_le.1 hc).le hn))
    simp only [Complex.sub_re, Complex.sub_im] at h1
    linarith
  have l1 := lt a b s1
  have l2 := lt b c s2
  have l3 := lt c a s3
  have g1 := gt a b
  have g2 := gt b c
  have g3 := gt c a
  have hp := Real.pi_pos
  rw [hk] at e
  have k2 : k < 2 := by
    by_contra hc
    have : (2 : ℝ) ≤ k := by exact_mod_cast not_lt.1 hc
    nlinarith
  have k0 : 0 ≤ k := by
    by_contra hc
    have hk1 : (k : ℝ) ≤ -1 := by
      have : k ≤ -1 := by omega
      exact_mod_cast this
    have e2 : arg ((b - z) / (a - z)) + (arg ((c - z) / (b - z)) + arg ((a - z) / (c - z))) ≤ -(2 * Real.pi) := by
      rw [← e]; nlinarith
    have i1 := im a b (by linarith)
    have i2 := im b c (by linarith)
    have i3 := im c a (by linarith)
    nlinarith
  rcases (by omega : k = 0 ∨ k = 1) with rfl | rfl
  · left; rw [hk]; simp
  · right; rw [hk]; simp

/-- `PdcInPolygon::test` on a box that meets the segments says nothing of the box: for any two points, for instance one inside and one
outside, a box that contains both gets the answer of the first one. -/
theorem C101_box_fails (O : Ops) (hO : ∀ m d : ℝ, 0 ≤ d → O.mid (Itv.icc (m - d) (m + d)) = m) (segs : List Seg) (p q : ℂ) :
    ∃ x, PtIn p x ∧ PtIn q x ∧ test O segs x = test O segs (Itv.icc p.re p.re, Itv.icc p.im p.im) := by
  have h0 : ∀ m : ℝ, O.mid (Itv.icc m m) = m := fun m => by simpa using hO m 0 le_rfl
  refine ⟨(Itv.icc (p.re - |q.re - p.re|) (p.re + |q.re - p.re|), Itv.icc (p.im - |q.im - p.im|) (p.im + |q.im - p.im|)), ?_, ?_, ?_⟩
  · exact ⟨Itv.mem_icc.2 ⟨by linarith [abs_nonneg (q.re - p.re)], by linarith [abs_nonneg (q.re - p.re)]⟩,
      Itv.mem_icc.2 ⟨by linarith [abs_nonneg (q.im - p.im)], by linarith [abs_nonneg (q.im - p.im)]⟩⟩
  · exact ⟨Itv.mem_icc.2 ⟨by linarith [neg_abs_le (q.re - p.re)], by linarith [le_abs_self (q.re - p.re)]⟩,
      Itv.mem_icc.2 ⟨by linarith [neg_abs_le (q.im - p.im)], by linarith [le_abs_self (q.im - p.im)]⟩⟩
  · unfold test
    simp only
    rw [hO _ _ (abs_nonneg _), hO _ _ (abs_nonneg _), h0, h0]

/-! ### An instance -/

/-- the triangle of vertices (0,0), (4,0), (0,4) -/
noncomputable def tri : List ℂ := [⟨0, 0⟩, ⟨4, 0⟩, ⟨0, 4⟩]

theorem tri_closed : ClosedPolygons (segsOf tri) := ⟨[tri], by simp⟩

theorem tri_ccw : CounterClockwiseOnce (segsOf tri) := C101_triangle _ _ _ (by norm_num)

open Classical in
/-- a contractor that empties the boxes without solution -/
noncomputable def onlyIf (S : List ℝ → Prop) (X : Box ℝ) : Box ℝ := if ∃ v, InBox v X ∧ S v then X else X.map fun _ => ⊥

theorem onlyIf_ctc (n : Nat) (S : List ℝ → Prop) : IsCtc n S (onlyIf S) := by
  refine ⟨fun X _ => ?_, fun X v _ h hs => ?_⟩
  · unfold onlyIf
    split
    · exact List.forall₂_same.2 fun _ _ => le_rfl
    · exact List.forall₂_map_left_iff.2 (List.forall₂_same.2 fun _ _ => bot_le)
  · unfold onlyIf
    rw [if_pos ⟨v, h, hs⟩]
    exact h

/-- the point (1,1) is inside, the point (4,4) outside -/
theorem tri_turn : turn (segsOf tri) ⟨1, 1⟩ ≠ 0 ∧ turn (segsOf tri) ⟨4, 4⟩ = 0 := by
  constructor
  · have hs : segsOf tri = [⟨⟨0, 0⟩, ⟨4, 0⟩⟩, ⟨⟨4, 0⟩, ⟨0, 4⟩⟩, ⟨⟨0, 4⟩, ⟨0, 0⟩⟩] := by simp [segsOf, tri, List.range_succ]
    have pos : ∀ p q : ℂ, 0 < (p.re - 1) * (q.im - 1) - (p.im - 1) * (q.re - 1) → 0 < arg ((q - ⟨1, 1⟩) / (p - ⟨1, 1⟩)) := by
      intro p q h
      have hp : p - ⟨1, 1⟩ ≠ 0 := by
        intro h0
        have e1 : p.re - 1 = 0 := by have := congrArg Complex.re h0; simpa using this
        have e2 : p.im - 1 = 0 := by have := congrArg Complex.im h0; simpa using this
        rw [e1, e2] at h
        simp at h
      have hi : 0 < ((q - ⟨1, 1⟩) / (p - ⟨1, 1⟩)).im := by
        rw [Complex.div_im, ← sub_div]
        refine div_pos ?_ (Complex.normSq_pos.2 hp)
        simp only [Complex.sub_re, Complex.sub_im]
        linarith
      rcases (Complex.arg_nonneg_iff.2 hi.le).eq_or_lt with h0 | h0
      · have := (Complex.arg_eq_zero_iff.1 h0.symm).2
        exact absurd this hi.ne'
      · exact h0
    rw [turn, hs]
    simp only [List.map_cons, List.map_nil, List.sum_cons, List.sum_nil, add_zero]
    have h1 := pos ⟨0, 0⟩ ⟨4, 0⟩ (by norm_num)
    have h2 := pos ⟨4, 0⟩ ⟨0, 4⟩ (by norm_num)
    have h3 := pos ⟨0, 4⟩ ⟨0, 0⟩ (by norm_num)
    linarith
  · refine C101_far _ _ ⟨-1, 1⟩ ?_
    intro p hp
    simp only [tri, List.mem_cons, List.not_mem_nil, or_false] at hp
    rcases hp with rfl | rfl | rfl <;> norm_num [Complex.mul_re]

/-- The whole box `[1/2, 3/2]²`, inside the triangle, is removed from `x_in` and kept in `x_out`. -/
example : (∀ z, ¬ PtIn z (separate hullOps (onlyIf SegSolF) (onlyIf SegSolG) cutDiff (segsOf tri) (Itv.icc (1/2) (3/2), Itv.icc (1/2) (3/2))).1) ∧
    PtIn ⟨1, 1⟩ (separate hullOps (onlyIf SegSolF) (onlyIf SegSolG) cutDiff (segsOf tri) (Itv.icc (1/2) (3/2), Itv.icc (1/2) (3/2))).2 := by
  have hin : PtIn ⟨1, 1⟩ (Itv.icc (1/2) (3/2), Itv.icc (1/2) (3/2)) :=
    ⟨Itv.mem_icc.2 ⟨by norm_num, by norm_num⟩, Itv.mem_icc.2 ⟨by norm_num, by norm_num⟩⟩
  refine ⟨?_, C101_out hullOps (onlyIf_ctc 6 _) (onlyIf_ctc 6 _) cutDiff_spec tri_closed tri_ccw hin (.inr tri_turn.1)⟩
  have hs : segsOf tri = [⟨⟨0, 0⟩, ⟨4, 0⟩⟩, ⟨⟨4, 0⟩, ⟨0, 4⟩⟩, ⟨⟨0, 4⟩, ⟨0, 0⟩⟩] := by simp [segsOf, tri, List.range_succ]
  have hnone : ∀ s ∈ segsOf tri, segCtc (onlyIf SegSolF) (onlyIf SegSolG) s (Itv.icc (1/2) (3/2), Itv.icc (1/2) (3/2)) = (⊥, ⊥) := by
    intro s hsm
    have hno : ¬ ∃ v, InBox v [Itv.icc (1/2) (3/2), Itv.icc (1/2) (3/2), Itv.point s.a.re, Itv.point s.a.im, Itv.point s.b.re, Itv.point s.b.im] ∧ SegSolF v := by
      rintro ⟨v, hv, x, y, ax, ay, bx, by_, rfl, hf⟩
      obtain ⟨h1, h2, h3, h4, h5, h6, -⟩ : x ∈ Itv.icc (1/2 : ℝ) (3/2) ∧ y ∈ Itv.icc (1/2 : ℝ) (3/2) ∧ ax = s.a.re ∧ ay = s.a.im ∧ bx = s.b.re ∧ by_ = s.b.im ∧ True := by
        simpa [InBox] using hv
      rw [Itv.mem_icc] at h1 h2
      subst h3 h4 h5 h6
      rw [hs] at hsm
      simp only [List.mem_cons, List.not_mem_nil, or_false] at hsm
      unfold segF at hf
      rcases hsm with rfl | rfl | rfl <;> norm_num at hf <;> linarith
    unfold segCtc
    simp only [segContract2]
    rw [if_pos]
    · rfl
    · unfold onlyIf
      rw [if_neg hno]
      rfl
  have hb : border (onlyIf SegSolF) (onlyIf SegSolG) (segsOf tri) (Itv.icc (1/2) (3/2), Itv.icc (1/2) (3/2)) = (⊥, ⊥) := by
    unfold border
    rw [hs] at hnone ⊢
    simp only [List.foldl_cons, List.foldl_nil]
    rw [hnone _ (by simp), hnone _ (by simp), hnone _ (by simp)]
    simp [hull]
  have hm : midPt hullOps (Itv.icc (1/2) (3/2), Itv.icc (1/2) (3/2)) = ⟨1, 1⟩ := by
    have : midR (Itv.icc (1/2) (3/2)) = 1 := by
      rw [Itv.icc_eq_mk (by norm_num)]
      show ((1:ℝ)/2 + 3/2) / 2 = 1
      norm_num
    show (⟨midR _, midR _⟩ : ℂ) = _
    rw [this]
  have hoff : ¬ OnPolygon (segsOf tri) ⟨1, 1⟩ := by
    intro h
    have := border_keeps (onlyIf_ctc 6 SegSolF) (onlyIf_ctc 6 SegSolG) hin h
    rw [hb] at this
    exact this.1
  have ht : test hullOps (segsOf tri) (Itv.icc (1/2) (3/2), Itv.icc (1/2) (3/2)) = .yes := by
    rw [C101_exact _ _ (by rw [hm]; exact hoff), hm, if_neg tri_turn.1]
  intro z hz
  unfold separate at hz
  simp only at hz
  rw [hb, show cutDiff (Itv.icc (1/2 : ℝ) (3/2), Itv.icc (1/2 : ℝ) (3/2)) (⊥, ⊥) = [(Itv.icc (1/2) (3/2), Itv.icc (1/2) (3/2))] from if_pos rfl] at hz
  simp only [List.foldl_cons, List.foldl_nil, classify, ht] at hz
  exact hz.1

end Codac.Props
