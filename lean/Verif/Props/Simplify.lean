import Verif.Geometry.Simplify
import Verif.Props.Polygon
import Mathlib.Analysis.SpecialFunctions.Trigonometric.Basic

/-!
# C86: simplification and rotation of convex polygons
-/

set_option linter.unusedSectionVars false

namespace Codac.Props
open Codac Codac.Graham Codac.Poly

variable {K : Type*} [Field K] [LinearOrder K] [IsStrictOrderedRing K]

/-- the vertices are distinct and in counterclockwise order -/
def CounterClockwise (v : List (K × K)) : Prop := v.Nodup ∧ ∀ a b c, [a, b, c].Sublist v → OnLeft a b c

/-- the point is in the box, enlarged on each side by twice its largest diameter -/
def InEnlarged (a b c d : K) (q : K × K) : Prop :=
  (a - 2 * max (b - a) (d - c) ≤ q.1 ∧ q.1 ≤ b + 2 * max (b - a) (d - c)) ∧ c - 2 * max (b - a) (d - c) ≤ q.2 ∧ q.2 ≤ d + 2 * max (b - a) (d - c)

/-- the side from `b` to `c` of the polygon can be removed: the two sides around it, from `a` to `b` and from `c` to `d`, meet at a single
point, outside, in the enlarged box -/
def SideRemovable (x y z t : K) (a b c d : K × K) : Prop :=
  (b.1 - a.1) * (d.2 - c.2) - (b.2 - a.2) * (d.1 - c.1) ≠ 0 ∧
    ∃ p, (b.1 - a.1) * (p.2 - a.2) = (b.2 - a.2) * (p.1 - a.1) ∧ (d.1 - c.1) * (p.2 - c.2) = (d.2 - c.2) * (p.1 - c.1) ∧
      OnLeft b p c ∧ InEnlarged x y z t p

theorem CounterClockwise.turns {v : List (K × K)} (h : CounterClockwise v) : Turns (1 : K) v := fun a b c k => by
  rw [one_mul]; exact h.2 a b c k

/-- the polygons with more than three vertices that the library builds are in counterclockwise order -/
theorem C86_counterclockwise {pts : List (K × K)} (h : 3 < (convexHullPts pts).length) : CounterClockwise (convexHullPts pts) := by
  have h3 : 3 < (removeIdentical pts).length := by
    by_contra hn
    unfold convexHullPts at h
    rw [if_pos (not_lt.mp hn)] at h
    exact hn h
  obtain ⟨-, h1, -, h2⟩ := convexHullPts_spec h3
  exact ⟨h1, h2⟩

/-- **C86**: `simplify` returns a convex polygon that contains every point of the polygon -/
theorem C86_keeps {n : Nat} (hn : 3 ≤ n) {v : List (K × K)} (hv : CounterClockwise v) :
    ConvexVertices (simplify n v) ∧ PolySet v ⊆ PolySet (simplify n v) := by
  obtain ⟨⟨σ, h0, h1⟩, h2, h3, -⟩ := simplify_spec hn hv.turns hv.1
  exact ⟨convexVertices_of_turns h0 h1 h2, h3⟩

/-- **C86**: it stays in the box of the polygon enlarged by twice its largest diameter -/
theorem C86_bounded {n : Nat} (hn : 3 ≤ n) {v : List (K × K)} (hv : CounterClockwise v) {a b c d : K}
    (hb : ∀ q ∈ v, (a ≤ q.1 ∧ q.1 ≤ b) ∧ c ≤ q.2 ∧ q.2 ≤ d) : ∀ q ∈ PolySet (simplify n v), InEnlarged a b c d q := by
  have hvert : ∀ q ∈ simplify n v, InEnlarged a b c d q := by
    rcases eq_or_ne v [] with rfl | h0
    · simp [simplify, simpWhile]
    · obtain ⟨a', b', c', d', h1, h2, -, hl, -, -, ⟨u1, m1, e1⟩, ⟨u2, m2, e2⟩, ⟨u3, m3, e3⟩, ⟨u4, m4, e4⟩⟩ := simpLimit_eq h0
      intro q hq
      have hin := (simplify_spec hn hv.turns hv.1).2.2.2 q hq
      rw [hl] at hin
      obtain ⟨⟨k1, k2⟩, k3, k4⟩ := And.intro (Itv.mem_icc.mp hin.1) (Itv.mem_icc.mp hin.2)
      have a1 : a ≤ a' := e1 ▸ (hb u1 m1).1.1
      have b1 : b' ≤ b := e2 ▸ (hb u2 m2).1.2
      have c1 : c ≤ c' := e3 ▸ (hb u3 m3).2.1
      have d1 : d' ≤ d := e4 ▸ (hb u4 m4).2.2
      have hm : max (b' - a') (d' - c') ≤ max (b - a) (d - c) := max_le_max (by linarith) (by linarith)
      exact ⟨⟨by linarith, by linarith⟩, by linarith, by linarith⟩
  intro q hq
  have hc : Convex K {q : K × K | InEnlarged a b c d q} := by
    have : {q : K × K | InEnlarged a b c d q} = Set.Icc (a - 2 * max (b - a) (d - c)) (b + 2 * max (b - a) (d - c)) ×ˢ
        Set.Icc (c - 2 * max (b - a) (d - c)) (d + 2 * max (b - a) (d - c)) := by
      ext q; simp only [InEnlarged, Set.mem_prod, Set.mem_Icc]; rfl
    rw [this]
    exact (convex_Icc _ _).prod (convex_Icc _ _)
  exact convexHull_min (fun p hp => hvert p hp) hc hq

/-- **C86**: a polygon that has few vertices is not changed -/
theorem C86_small {n : Nat} {v : List (K × K)} (h : v.length ≤ n) : simplify n v = v := by
  unfold simplify
  cases hl : v.length with
  | zero => rfl
  | succ k => simp only [simpWhile]; rw [if_neg (by omega)]

/-- **C86**: `simplify` ends with at most the number of vertices asked, or with the enlarged box, or with a polygon none of whose sides can be
removed -/
theorem C86_stops {n : Nat} {v : List (K × K)} (hv : v ≠ []) : ∃ x y z t : K, (∀ q ∈ v, (x ≤ q.1 ∧ q.1 ≤ y) ∧ z ≤ q.2 ∧ q.2 ≤ t) ∧
    ((simplify n v).length ≤ n ∨ (∀ q, q ∈ PolySet (simplify n v) ↔ InEnlarged x y z t q) ∨
      ∀ i < (simplify n v).length, ∀ a b c d : K × K, (simplify n v)[(i + (simplify n v).length - 1) % (simplify n v).length]? = some a → (simplify n v)[i]? = some b →
        (simplify n v)[(i + 1) % (simplify n v).length]? = some c → (simplify n v)[(i + 2) % (simplify n v).length]? = some d → ¬ SideRemovable x y z t a b c d) := by
  obtain ⟨x, y, z, t, h1, h2, -, hl, ⟨l1, l2, l3, l4⟩, hall, -⟩ := simpLimit_eq hv
  refine ⟨x, y, z, t, fun q hq => ⟨⟨(hall q hq).1, (hall q hq).2.1⟩, (hall q hq).2.2.1, (hall q hq).2.2.2⟩, ?_⟩
  rcases simpWhile_stops (n := n) (show x - max (y - x) (t - z) * 2 ≤ y + max (y - x) (t - z) * 2 by linarith)
    (show z - max (y - x) (t - z) * 2 ≤ t + max (y - x) (t - z) * 2 by linarith) hl v.length v (by omega) with h | h | h
  · exact .inl h
  · refine .inr (.inl fun q => ?_)
    unfold simplify
    rw [h]
    refine (ofBox_spec (by linarith) (by linarith)).trans ?_
    unfold InEnlarged
    rw [mul_comm 2]
  · refine .inr (.inr fun i hi a b c d ha hb hc hd hr => ?_)
    obtain ⟨hx, p, hp1, hp2, hp3, hp4⟩ := hr
    have hval : ∀ k u, (simplify n v)[k % (simplify n v).length]? = some u → vtx (simplify n v) k = u := by
      intro k u hu
      unfold vtx
      rw [List.getD_eq_getElem?_getD, hu]; rfl
    have ea := hval _ _ ha
    have eb := hval i b (by rw [Nat.mod_eq_of_lt hi]; exact hb)
    have ec := hval _ _ hc
    have ed := hval _ _ hd
    change ∀ i < (simplify n v).length, ∀ p, ¬ GoodTip (simpLimit v) (simplify n v) i p at h
    refine h i hi p ⟨hi, ?_, ?_, ?_, ?_, ?_⟩
    · rw [ea, eb, ec, ed]
      unfold crossE
      exact hx
    · rw [ea, eb]; unfold cr; linarith
    · rw [ec, ed]; unfold cr; linarith
    · rw [eb, ec]; exact hp3
    · rw [hl]
      obtain ⟨⟨j1, j2⟩, j3, j4⟩ := hp4
      exact ⟨Itv.mem_icc.mpr ⟨by linarith, by linarith⟩, Itv.mem_icc.mpr ⟨by linarith, by linarith⟩⟩

/-- a polygon of five vertices, and its simplification -/
example : CounterClockwise [((0, 0) : ℚ × ℚ), (4, 0), (5, 1), (4, 3), (1, 3)] ∧
    simplify 4 [((0, 0) : ℚ × ℚ), (4, 0), (5, 1), (4, 3), (1, 3)] = [(0, 0), (11 / 2, 0), (4, 3), (1, 3)] := by
  refine ⟨?_, by decide +kernel⟩
  have : convexHullPts [((0, 0) : ℚ × ℚ), (4, 0), (5, 1), (4, 3), (1, 3)] = [(0, 0), (4, 0), (5, 1), (4, 3), (1, 3)] := by decide +kernel
  rw [← this]
  exact C86_counterclockwise (by rw [this]; decide)

/-- **C86** fails: when the sides around a side are parallel and slanted, the result is the enlarged box, far larger than the polygon, even
where a simplification with fewer vertices exists -/
theorem C86_parallel_fails : ∃ v : List (ℚ × ℚ), v = convexHullPts [(1, 0), (0, 1), (-1, 0), (0, -1)] ∧ simplify 3 v = [(-5, -5), (5, -5), (5, 5), (-5, 5)] ∧
    area v = 2 ∧ area (simplify 3 v) = 100 ∧ ¬ (simplify 3 v).length ≤ 3 :=
  ⟨_, rfl, by decide +kernel, by decide +kernel, by decide +kernel, by decide +kernel⟩

/-- **C86** fails: the side whose removal has the least impact is not the one removed when it is the first one -/
theorem C86_least_impact_fails : ∃ v w : List (ℚ × ℚ), v = convexHullPts [(9, 1/5), (10, 1), (10, 10), (0, 10), (0, 2)] ∧ CounterClockwise v ∧
    w = (v.set 0 (10, 0)).eraseIdx 1 ∧ PolySet v ⊆ PolySet w ∧ area w = area v + 1/2 ∧ area (simplify 4 v) = area v + 81/2 := by
  have hv : convexHullPts [((9, 1/5) : ℚ × ℚ), (10, 1), (10, 10), (0, 10), (0, 2)] = [(9, 1/5), (10, 1), (10, 10), (0, 10), (0, 2)] := by decide +kernel
  have hc := C86_counterclockwise (pts := [((9, 1/5) : ℚ × ℚ), (10, 1), (10, 10), (0, 10), (0, 2)]) (by rw [hv]; decide)
  rw [hv] at hc
  refine ⟨_, _, rfl, ?_, rfl, ?_, ?_, ?_⟩
  · rw [hv]; exact hc
  · rw [hv]
    have hg : GoodTip (.icc 0 10, .icc 0 10) [((9, 1/5) : ℚ × ℚ), (10, 1), (10, 10), (0, 10), (0, 2)] 0 (10, 0) :=
      ⟨by decide, by decide +kernel, by decide +kernel, by decide +kernel, by decide +kernel, by decide +kernel⟩
    exact (step_spec hc.turns hc.1 (by decide) hg).2.2.1
  · rw [hv]
    norm_num [area, edges]
  · rw [hv]
    have hs : simplify 4 [((9, 1/5) : ℚ × ℚ), (10, 1), (10, 10), (0, 10), (0, 2)] = [(10, 1), (10, 10), (0, 10), (0, -7)] := by decide +kernel
    rw [hs]
    norm_num [area, edges]

/-- **C86** fails: in clockwise order (a list given as convex and ordered), `simplify` loses points -/
theorem C86_clockwise_fails : ∃ v : List (ℚ × ℚ), ConvexVertices v ∧ ∃ p ∈ PolySet v, p ∉ PolySet (simplify 3 v) := by
  have hs : simplify 3 [((0, 0) : ℚ × ℚ), (1, 3), (3, 2), (4, 0)] = [(1, 3), (3, 2), (8 / 5, 24 / 5)] := by decide +kernel
  refine ⟨[(0, 0), (1, 3), (3, 2), (4, 0)], ⟨by decide, .inr ?_⟩, (0, 0), subset_convexHull _ _ (by simp), ?_⟩
  · intro a b c hs
    have hm : [a, b, c] ∈ [((0, 0) : ℚ × ℚ), (1, 3), (3, 2), (4, 0)].sublists := List.mem_sublists.mpr hs
    have all : ∀ l ∈ [((0, 0) : ℚ × ℚ), (1, 3), (3, 2), (4, 0)].sublists, ∀ a ∈ l[0]?, ∀ b ∈ l[1]?, ∀ c ∈ l[2]?,
        (b.1 - a.1) * (c.2 - a.2) - (b.2 - a.2) * (c.1 - a.1) ≤ 0 := by decide +kernel
    exact all _ hm a (by simp) b (by simp) c (by simp)
  · rw [hs]
    intro h
    have hc : Convex ℚ {q : ℚ × ℚ | 2 ≤ q.2} := convex_halfSpace_ge (f := Prod.snd) (IsLinearMap.mk (fun _ _ => rfl) (fun _ _ => rfl)) 2
    have := convexHull_min (s := {p | p ∈ [((1, 3) : ℚ × ℚ), (3, 2), (8 / 5, 24 / 5)]}) (fun p hp => by
      rcases List.mem_cons.mp hp with rfl | hp
      · norm_num
      rcases List.mem_cons.mp hp with rfl | hp
      · norm_num
      rw [List.mem_singleton.mp hp]; norm_num) hc h
    norm_num at this

/-- `ConvexPolygon::inflate`, codac_ConvexPolygon.cpp:180-184: the body is empty -/
def inflatePolygon (_rad : K) (v : List (K × K)) : List (K × K) := v

/-- **C86** fails: `inflate` does not inflate -/
theorem C86_inflate_fails : ∃ (v : List (ℚ × ℚ)) (rad : ℚ) (p q : ℚ × ℚ), p ∈ PolySet v ∧ 0 < rad ∧ |q.1 - p.1| ≤ rad ∧ q.2 = p.2 ∧ q ∉ PolySet (inflatePolygon rad v) := by
  refine ⟨[(0, 0)], 1, (0, 0), (1, 0), ?_, by norm_num, by norm_num, rfl, ?_⟩
  · exact subset_convexHull _ _ (by simp)
  · unfold inflatePolygon PolySet
    have : {p : ℚ × ℚ | p ∈ [((0, 0) : ℚ × ℚ)]} = {(0, 0)} := by ext; simp
    rw [this, convexHull_singleton]
    intro h
    have := congrArg Prod.fst (Set.mem_singleton_iff.mp h)
    norm_num at this

/-- **C86**, `rotate` for thick points that are points or not smaller than 1e-10: the result is convex, and contains the image of each point of
the polygon by each rotation of angle in `theta` around each point of `center`. `C` and `S` enclose the cosines and the sines of the angles -/
theorem C86_rotate_partial {eps : ℝ} {C S theta : Itv ℝ} {z : Itv ℝ × Itv ℝ} {v r : List (ℝ × ℝ)} (h : rotate eps C S z v = some r)
    (hC : ∀ a ∈ theta, Real.cos a ∈ C) (hS : ∀ a ∈ theta, Real.sin a ∈ S) (hw : ∀ p ∈ v, PointOrWide eps (rotPt C S z p)) :
    ConvexVertices r ∧ ∀ a ∈ theta, ∀ x : ℝ × ℝ, x.1 ∈ z.1 → x.2 ∈ z.2 → ∀ p ∈ PolySet v,
      (x.1 + (Real.cos a * (p.1 - x.1) - Real.sin a * (p.2 - x.2)), x.2 + (Real.sin a * (p.1 - x.1) + Real.cos a * (p.2 - x.2))) ∈ PolySet r := by
  obtain ⟨ps, rfl⟩ := ofThick_built h
  exact ⟨(C69_constructors ps).1, fun a ha x h1 h2 p hp => rotate_sound h (fun p hp => (hw p hp).wide) (hC a ha) (hS a ha) h1 h2 hp⟩

/-- a quarter turn of a triangle around (1, 1) -/
example : rotate (1 / 10 ^ 10) (.point 0) (.point 1) (.point 1, .point 1) (convexHullPts [((0, 0) : ℚ × ℚ), (4, 0), (0, 4)]) =
    some [(2, 0), (2, 4), (-2, 0)] := by decide +kernel

end Codac.Props
