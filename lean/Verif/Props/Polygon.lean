import Verif.Geometry.Thicken
import Verif.Geometry.PolyEq
import Verif.Geometry.FastInter
import Verif.Props.Graham

/-!
# C65 to C70: convex polygons
-/

set_option linter.unusedSectionVars false

namespace Codac.Props
open Codac Codac.Graham Codac.Poly

variable {K : Type*} [Field K] [LinearOrder K] [IsStrictOrderedRing K]

/-- the set of the points of the polygon of vertices `v` -/
def PolySet (v : List (K × K)) : Set (K × K) := convexHull K {p | p ∈ v}

/-- the vertices of a convex polygon, in order: they are distinct and any three of them, taken in order, turn the same way (or are
aligned) -/
def ConvexVertices (v : List (K × K)) : Prop :=
  v.Nodup ∧ ((∀ a b c, [a, b, c].Sublist v → OnLeft a b c) ∨ ∀ a b c, [a, b, c].Sublist v → OnRight a b c)

/-- three points of the list are not on a line -/
def NotAligned (v : List (K × K)) : Prop :=
  ∃ a ∈ v, ∃ b ∈ v, ∃ c ∈ v, (b.1 - a.1) * (c.2 - a.2) - (b.2 - a.2) * (c.1 - a.1) ≠ 0

/-- the point is on an edge -/
def OnBorder (v : List (K × K)) (q : K × K) : Prop := ∃ a b, IsEdge v a b ∧ q ∈ segment K a b

theorem ConvexVertices.turns {v : List (K × K)} (h : ConvexVertices v) : ∃ σ : K, σ ≠ 0 ∧ Turns σ v := by
  rcases h.2 with h | h
  · exact ⟨1, one_ne_zero, fun a b c hs => by rw [one_mul]; exact h a b c hs⟩
  · refine ⟨-1, by norm_num, fun a b c hs => ?_⟩
    have := h a b c hs
    unfold OnRight at this
    unfold cr
    linarith

theorem convexVertices_of_turns {v : List (K × K)} {σ : K} (hσ : σ ≠ 0) (h : Turns σ v) (hn : v.Nodup) : ConvexVertices v := by
  refine ⟨hn, ?_⟩
  rcases lt_or_gt_of_ne hσ with hs | hs
  · refine .inr fun a b c k => ?_
    have := h a b c k
    exact nonpos_of_mul_nonneg_right this hs
  · refine .inl fun a b c k => ?_
    have := h a b c k
    exact nonneg_of_mul_nonneg_right this hs

theorem isEdge_iff {v : List (K × K)} {a b : K × K} : IsEdge v a b ↔ (a, b) ∈ edges v := by
  unfold IsEdge edges
  cases v with
  | nil => simp [List.infix_iff_prefix_suffix]
  | cons x l =>
    rw [List.take_succ_cons, List.take_zero, List.tail_cons]
    have key : ∀ (r : K × K) (l : List (K × K)) (x : K × K), [a, b] <:+: (x :: l) ++ [r] ↔ (a, b) ∈ (x :: l).zip (l ++ [r]) := by
      intro r l
      induction l with
      | nil => intro x; simp [List.infix_cons_iff]
      | cons y l ih =>
        intro x
        rw [List.cons_append, List.infix_cons_iff, ih y, List.cons_append, List.zip_cons_cons, List.mem_cons]
        simp
    exact key x l x

theorem onBorder_iff {v : List (K × K)} {q : K × K} : OnBorder v q ↔ ∃ e ∈ edges v, OnSeg e.1 e.2 q := by
  constructor
  · rintro ⟨a, b, he, hq⟩
    exact ⟨(a, b), isEdge_iff.mp he, onSeg_iff_segment.mpr hq⟩
  · rintro ⟨e, he, hq⟩
    exact ⟨e.1, e.2, isEdge_iff.mpr he, onSeg_iff_segment.mp hq⟩

/-! ### C65: `contains` -/

/-- **C65**: `contains` never answers `NO` for a point of the polygon -/
theorem C65_never_no (z : K → Itv K) {v : List (K × K)} (hv : ConvexVertices v) {p : K × K} (hp : p ∈ PolySet v) : contains z v p ≠ .no := by
  obtain ⟨σ, hσ, ht⟩ := hv.turns
  rcases contains_of_hull hσ z ht hv.1 hp with ⟨-, h⟩ | ⟨-, h⟩ <;> simp [h]

/-- **C65**, for a polygon whose vertices are not aligned: the answer is `NO` exactly for the points outside, `MAYBE` exactly for the points
of the edges, `YES` exactly for the other points of the polygon. Missing: polygons whose vertices are aligned -/
theorem C65_exact_partial (z : K → Itv K) {v : List (K × K)} (hv : ConvexVertices v) (hs : NotAligned v) (p : K × K) :
    (contains z v p = .no ↔ p ∉ PolySet v) ∧ (contains z v p = .maybe ↔ OnBorder v p) ∧
      (contains z v p = .yes ↔ p ∈ PolySet v ∧ ¬ OnBorder v p) := by
  obtain ⟨σ, hσ, ht⟩ := hv.turns
  rw [onBorder_iff]
  by_cases hp : p ∈ PolySet v
  · rcases contains_of_hull hσ z ht hv.1 hp with ⟨he, h⟩ | ⟨he, h⟩
    · rw [h]; exact ⟨by simp [hp], by simp only [true_iff]; exact he, by simp only [reduceCtorEq, hp, true_and, false_iff, not_not]; exact he⟩
    · rw [h]
      have he' : ¬ ∃ e ∈ edges v, OnSeg e.1 e.2 p := by push Not; exact he
      exact ⟨by simp [hp], by simp only [reduceCtorEq, false_iff]; exact he', by simp only [hp, true_and, true_iff]; exact he'⟩
  · rw [contains_of_not_hull hσ z ht hv.1 hs hp]
    have he' : ¬ ∃ e ∈ edges v, OnSeg e.1 e.2 p := fun ⟨e, he, h⟩ => hp (edge_in_hull he h)
    exact ⟨by simp [hp], by simp only [reduceCtorEq, false_iff]; exact he', by simp [hp]⟩

/-- the polygon built from three aligned points contains `(1,2)` according to `contains`, which is not on their line -/
theorem C65_aligned_fails : ∃ v : List (ℚ × ℚ), ∃ p, v = convexHullPts [(0, 0), (3, 3), (1, 1)] ∧ ConvexVertices v ∧ p ∉ PolySet v ∧
    contains (fun _ => ⊥) v p = .yes := by
  refine ⟨_, (1, 2), rfl, ?_, ?_, ?_⟩
  · obtain ⟨⟨σ, hσ, h⟩, hn, -⟩ := convexHullPts_poly [((0, 0) : ℚ × ℚ), (3, 3), (1, 1)]
    exact convexVertices_of_turns hσ h hn
  · intro h
    have : ((1, 2) : ℚ × ℚ) ∈ Hull (convexHullPts [((0, 0) : ℚ × ℚ), (3, 3), (1, 1)]) := h
    rw [(convexHullPts_poly _).2.2] at this
    have := Hull.nonneg (v := [((0, 0) : ℚ × ℚ), (3, 3), (1, 1)]) (α := 1) (β := -1) (γ := 0) (by simp) this
    norm_num at this
  · decide +kernel

/-- the hypotheses are met: a polygon with five vertices, one of them on an edge, and three points -/
example : ConvexVertices [((0, 0) : ℚ × ℚ), (2, 0), (4, 0), (4, 3), (0, 3)] ∧ NotAligned [((0, 0) : ℚ × ℚ), (2, 0), (4, 0), (4, 3), (0, 3)] := by
  refine ⟨⟨by decide, .inl ?_⟩, (0, 0), by simp, (2, 0), by simp, (4, 3), by simp, by norm_num⟩
  intro a b c hs
  have hm : [a, b, c] ∈ [((0, 0) : ℚ × ℚ), (2, 0), (4, 0), (4, 3), (0, 3)].sublists := List.mem_sublists.mpr hs
  have all : ∀ l ∈ [((0, 0) : ℚ × ℚ), (2, 0), (4, 0), (4, 3), (0, 3)].sublists, ∀ a ∈ l[0]?, ∀ b ∈ l[1]?, ∀ c ∈ l[2]?,
      0 ≤ (b.1 - a.1) * (c.2 - a.2) - (b.2 - a.2) * (c.1 - a.1) := by decide +kernel
  exact all _ hm a (by simp) b (by simp) c (by simp)

example : contains (fun _ => ⊥) [((0, 0) : ℚ × ℚ), (2, 0), (4, 0), (4, 3), (0, 3)] (1, 1) = .yes ∧
    contains (fun _ => ⊥) [((0, 0) : ℚ × ℚ), (2, 0), (4, 0), (4, 3), (0, 3)] (3, 0) = .maybe ∧
    contains (fun _ => ⊥) [((0, 0) : ℚ × ℚ), (2, 0), (4, 0), (4, 3), (0, 3)] (4, 4) = .no := by decide +kernel

/-! ### C66: `fast_intersection` -/

/-- **C66**: the intersection with a box keeps every common point -/
theorem C66_keeps (z : K → Itv K) {v : List (K × K)} (hv : ConvexVertices v) {x : Itv K × Itv K} {q : K × K} (hq : q ∈ PolySet v)
    (hx : q.1 ∈ x.1 ∧ q.2 ∈ x.2) : q.1 ∈ (fastInter z v x).1 ∧ q.2 ∈ (fastInter z v x).2 := by
  obtain ⟨σ, hσ, ht⟩ := hv.turns
  exact fastInter_sound hσ z ht hv.1 hq hx

/-- **C66**: it is in the box, and in any box around the vertices -/
theorem C66_bounds (z : K → Itv K) (v : List (K × K)) (x X : Itv K × Itv K) (hX : ∀ p ∈ v, p.1 ∈ X.1 ∧ p.2 ∈ X.2) :
    fastInter z v x ≤ x ∧ fastInter z v x ≤ X := by
  obtain ⟨h1, h2⟩ := fastInter_le z v x
  refine ⟨h1, h2.trans ?_⟩
  unfold pbox
  exact foldl_sup_le ofPt v X ⊥ bot_le fun p hp => ofPt_le (hX p hp)

/-- **C66**, for a polygon whose vertices are not aligned, `[a]/[0,0]` being empty (IBEX): the smallest box around the common points.
Missing: polygons whose vertices are aligned -/
theorem C66_smallest_partial {v : List (K × K)} (hv : ConvexVertices v) (hs : NotAligned v) {x X : Itv K × Itv K}
    (hX : ∀ q ∈ PolySet v, q.1 ∈ x.1 ∧ q.2 ∈ x.2 → q.1 ∈ X.1 ∧ q.2 ∈ X.2) : fastInter (fun _ => ⊥) v x ≤ X := by
  obtain ⟨σ, hσ, ht⟩ := hv.turns
  exact fastInter_least hσ (fun _ => rfl) ht hv.1 hs hX

/-- the polygon built from three aligned points does not meet the box `{(1,2)}` but the intersection is not empty -/
theorem C66_aligned_fails : ∃ v : List (ℚ × ℚ), ∃ x, v = convexHullPts [(0, 0), (3, 3), (1, 1)] ∧ x = (.point 1, .point 2) ∧
    (∀ q ∈ PolySet v, ¬ (q.1 ∈ x.1 ∧ q.2 ∈ x.2)) ∧ fastInter (fun _ => ⊥) v x = x := by
  refine ⟨_, _, rfl, rfl, ?_, by decide +kernel⟩
  rintro q h ⟨h1, h2⟩
  have h : q ∈ Hull (convexHullPts [((0, 0) : ℚ × ℚ), (3, 3), (1, 1)]) := h
  rw [(convexHullPts_poly _).2.2] at h
  have := Hull.nonneg (v := [((0, 0) : ℚ × ℚ), (3, 3), (1, 1)]) (α := 1) (β := -1) (γ := 0) (by simp) h
  rw [Itv.mem_point.mp h1, Itv.mem_point.mp h2] at this
  norm_num at this

/-- a corner of the box is in the triangle, which is not in the box -/
example : fastInter (fun _ => ⊥) (convexHullPts [((0, 0) : ℚ × ℚ), (4, 0), (0, 4)]) (.icc 1 5, .icc 2 5) = (.icc 1 2, .icc 2 3) := by decide +kernel

/-! ### C67: `is_subset` -/

/-- **C67**: the answer `NO` is right -/
theorem C67_no (z : K → Itv K) {v w : List (K × K)} (hw : ConvexVertices w) (h : isSubset z v w = .no) : ¬ PolySet v ⊆ PolySet w := by
  obtain ⟨p, hp, hc⟩ := ((isSubset_go z w v .yes (by simp)).1).mp h
  exact fun hsub => C65_never_no z hw (hsub (Hull.mem hp)) hc

/-- **C67**, for an argument whose vertices are not aligned: the answer is `NO` exactly when the polygon is not a subset, and `YES` exactly
when it is a subset and none of its vertices is on the border. Missing: arguments whose vertices are aligned -/
theorem C67_exact_partial (z : K → Itv K) {v w : List (K × K)} (hw : ConvexVertices w) (hs : NotAligned w) :
    (isSubset z v w = .no ↔ ¬ PolySet v ⊆ PolySet w) ∧
      (isSubset z v w = .yes ↔ PolySet v ⊆ PolySet w ∧ ∀ p ∈ v, ¬ OnBorder w p) := by
  have sub : PolySet v ⊆ PolySet w ↔ ∀ p ∈ v, p ∈ PolySet w :=
    ⟨fun h p hp => h (Hull.mem hp), fun h => Hull.mono h⟩
  obtain ⟨h1, h2⟩ := isSubset_go z w v .yes (by simp)
  have e : isSubset z v w = isSubset.go z w v .yes := rfl
  rw [e, h1, h2, sub]
  constructor
  · push Not
    exact exists_congr fun p => and_congr_right fun _ => (C65_exact_partial z hw hs p).1
  · rw [eq_self_iff_true, true_and]
    constructor
    · intro h
      exact ⟨fun p hp => ((C65_exact_partial z hw hs p).2.2.mp (h p hp)).1, fun p hp => ((C65_exact_partial z hw hs p).2.2.mp (h p hp)).2⟩
    · rintro ⟨k1, k2⟩ p hp
      exact (C65_exact_partial z hw hs p).2.2.mpr ⟨k1 p hp, k2 p hp⟩

/-- the point `(1,2)` is a subset of the polygon of three aligned points, according to `is_subset` -/
theorem C67_aligned_fails : ∃ v w : List (ℚ × ℚ), v = convexHullPts [(1, 2)] ∧ w = convexHullPts [(0, 0), (3, 3), (1, 1)] ∧
    ¬ PolySet v ⊆ PolySet w ∧ isSubset (fun _ => ⊥) v w = .yes := by
  refine ⟨_, _, rfl, rfl, fun h => ?_, by decide +kernel⟩
  have h : ((1, 2) : ℚ × ℚ) ∈ Hull (convexHullPts [((0, 0) : ℚ × ℚ), (3, 3), (1, 1)]) := h (Hull.mem (by decide +kernel))
  rw [(convexHullPts_poly _).2.2] at h
  have := Hull.nonneg (v := [((0, 0) : ℚ × ℚ), (3, 3), (1, 1)]) (α := 1) (β := -1) (γ := 0) (by simp) h
  norm_num at this

example : isSubset (fun _ => ⊥) [((1, 1) : ℚ × ℚ), (2, 1), (1, 2)] (convexHullPts [(0, 0), (4, 0), (0, 4)]) = .yes ∧
    isSubset (fun _ => ⊥) [((1, 1) : ℚ × ℚ), (2, 2), (1, 2)] (convexHullPts [(0, 0), (4, 0), (0, 4)]) = .maybe ∧
    isSubset (fun _ => ⊥) [((1, 1) : ℚ × ℚ), (2, 3), (1, 2)] (convexHullPts [(0, 0), (4, 0), (0, 4)]) = .no := by decide +kernel

/-! ### C68: intersection of polygons -/

/-- **C68**: the intersection of two polygons is a polygon with all their common points -/
theorem C68_keeps {eps : K} (he : 0 < eps) {v w : List (K × K)} (hv : ConvexVertices v) (hw : ConvexVertices w) :
    ∃ r, inter eps v w = some r ∧ ConvexVertices r ∧ PolySet v ∩ PolySet w ⊆ PolySet r := by
  obtain ⟨σ, hσ, ht⟩ := hv.turns
  obtain ⟨τ, hτ, hu⟩ := hw.turns
  obtain ⟨ps, h1, h2, -⟩ := inter_spec he hσ hτ ht hv.1 hu hw.1
  obtain ⟨⟨ρ, hρ, k1⟩, k2, k3⟩ := convexHullPts_poly ps
  exact ⟨_, h1, convexVertices_of_turns hρ k1 k2, by
    show _ ⊆ Hull _
    rw [k3]; exact h2⟩

/-- **C68**, for two polygons whose vertices are not aligned: the set of their common points. Missing: polygons whose vertices are
aligned -/
theorem C68_exact_partial {eps : K} (he : 0 < eps) {v w : List (K × K)} (hv : ConvexVertices v) (hw : ConvexVertices w) (sv : NotAligned v)
    (sw : NotAligned w) : ∃ r, inter eps v w = some r ∧ PolySet r = PolySet v ∩ PolySet w := by
  obtain ⟨σ, hσ, ht⟩ := hv.turns
  obtain ⟨τ, hτ, hu⟩ := hw.turns
  obtain ⟨ps, h1, h2, h3⟩ := inter_spec he hσ hτ ht hv.1 hu hw.1
  obtain ⟨-, -, k3⟩ := convexHullPts_poly ps
  exact ⟨_, h1, by
    show Hull _ = Hull v ∩ Hull w
    rw [k3]; exact Set.Subset.antisymm (h3 sv sw) h2⟩

/-- the intersection of the point `(0,1)` and a square is a side of the square -/
theorem C68_point_fails : ∃ v w : List (ℚ × ℚ), v = convexHullPts [(0, 1)] ∧ w = convexHullPts [(0, 0), (2, 0), (2, 2), (0, 2)] ∧
    ∃ r q, inter (1 / 10 ^ 10) v w = some r ∧ q ∈ PolySet r ∧ q ∉ PolySet v := by
  refine ⟨_, _, rfl, rfl, [(0, 1), (0, 2), (0, 0)], (0, 0), by decide +kernel, Hull.mem (by simp), fun h => ?_⟩
  have h : ((0, 0) : ℚ × ℚ) ∈ Hull (convexHullPts [((0, 1) : ℚ × ℚ)]) := h
  rw [(convexHullPts_poly _).2.2] at h
  have := Hull.nonneg (v := [((0, 1) : ℚ × ℚ)]) (α := 0) (β := 1) (γ := -1) (by simp) h
  norm_num at this

/-- **C68**: `intersects` never answers `YES`, and answers `NO` only for disjoint polygons; if the vertices of each polygon are not aligned,
it answers `NO` for all disjoint polygons -/
theorem C68_intersects {eps : K} (he : 0 < eps) {v w : List (K × K)} (hv : ConvexVertices v) (hw : ConvexVertices w) :
    ∃ b, intersects eps v w = some b ∧ b ≠ .yes ∧ (b = .no → PolySet v ∩ PolySet w = ∅) ∧
      (NotAligned v → NotAligned w → PolySet v ∩ PolySet w = ∅ → b = .no) := by
  obtain ⟨σ, hσ, ht⟩ := hv.turns
  obtain ⟨τ, hτ, hu⟩ := hw.turns
  obtain ⟨b, h1, h2, h3, h4⟩ := intersects_spec he hσ hτ ht hv.1 hu hw.1
  refine ⟨b, h1, h2, h3, fun sv sw hd => ?_⟩
  cases b with
  | no => rfl
  | yes => exact absurd rfl h2
  | maybe =>
    obtain ⟨q, hq⟩ := h4 sv sw rfl
    have : q ∈ PolySet v ∩ PolySet w := hq
    rw [hd] at this
    exact this.elim

/-- two triangles, and a triangle and a square with edges on the same lines -/
example : inter (1 / 10 ^ 10) (convexHullPts [((0, 0) : ℚ × ℚ), (4, 0), (0, 4)]) (convexHullPts [((1, 1) : ℚ × ℚ), (5, 1), (1, 5)]) =
      some [(1, 1), (3, 1), (1, 3)] ∧
    inter (1 / 10 ^ 10) (convexHullPts [((0, 0) : ℚ × ℚ), (4, 0), (0, 4)]) (convexHullPts [((1, 0) : ℚ × ℚ), (2, 0), (2, 3), (1, 3)]) =
      some [(1, 0), (2, 0), (2, 2), (1, 3)] ∧
    inter (1 / 10 ^ 10) (convexHullPts [((0, 0) : ℚ × ℚ), (4, 0), (0, 4)]) (convexHullPts [((5, 0) : ℚ × ℚ), (6, 0), (6, 3), (5, 3)]) =
      some [] := by decide +kernel

/-! ### C69: union, sum, opposite, product -/

/-- **C69**: the polygon built from points is the smallest convex set around them; the one built from a box is this box -/
theorem C69_constructors (pts : List (K × K)) : ConvexVertices (convexHullPts pts) ∧ PolySet (convexHullPts pts) = convexHull K {p | p ∈ pts} ∧
    ∀ a b c d : K, a ≤ b → c ≤ d → ConvexVertices (ofBox a b c d) ∧ PolySet (ofBox a b c d) = {q | (a ≤ q.1 ∧ q.1 ≤ b) ∧ c ≤ q.2 ∧ q.2 ≤ d} := by
  have conv : ∀ pts : List (K × K), ConvexVertices (convexHullPts pts) := fun pts => by
    obtain ⟨⟨ρ, hρ, k1⟩, k2, -⟩ := convexHullPts_poly pts
    exact convexVertices_of_turns hρ k1 k2
  exact ⟨conv pts, (convexHullPts_poly pts).2.2, fun a b c d hab hcd => ⟨conv _, Set.ext fun q => ofBox_spec hab hcd⟩⟩

/-- **C69**: the union of two polygons is the smallest convex set around them -/
theorem C69_union {eps : K} (he : 0 < eps) (v w : List (K × K)) : ∃ r, union eps v w = some r ∧ ConvexVertices r ∧
    PolySet r = convexHull K (PolySet v ∪ PolySet w) := by
  obtain ⟨ps, h1, h2⟩ := union_spec he v w
  exact ⟨_, h1, (C69_constructors ps).1, (C69_constructors ps).2.1.trans h2⟩

/-- **C69**: the opposite of a polygon is the set of the opposites of its points -/
theorem C69_opposite {v : List (K × K)} (hv : ConvexVertices v) : ConvexVertices (neg v) ∧ ∀ q : K × K, q ∈ PolySet (neg v) ↔ -q ∈ PolySet v := by
  obtain ⟨σ, hσ, ht⟩ := hv.turns
  exact ⟨convexVertices_of_turns hσ (neg_turns ht) (neg_nodup hv.1), fun q => hull_neg v q⟩

/-- the box is a point or one of its sides has a length of at least `eps` -/
def PointOrWide (eps : K) (X : Itv K × Itv K) : Prop :=
  ∀ a b c d, a ≤ b → c ≤ d → X = (.icc a b, .icc c d) → (a = b ∧ c = d) ∨ eps ≤ b - a ∨ eps ≤ d - c

theorem PointOrWide.wide {eps : K} {X : Itv K × Itv K} (h : PointOrWide eps X) : Wide eps X := by
  intro a b c d h1 h2
  have e : ∀ {X : Itv K} {a b : K}, X.bounds? = some (a, b) → X = .icc a b := by
    intro X a b h
    refine Itv.ext_mem fun x => ?_
    rw [bounds_mem h, Itv.mem_icc]
  rcases h a b c d (bounds_le h1) (bounds_le h2) (Prod.ext (e h1) (e h2)) with k | k | k
  · exact .inl k
  · exact .inr (k.trans (le_max_left _ _))
  · exact .inr (k.trans (le_max_right _ _))

/-- **C69**: the sum of a polygon and a box which is a point or is not too small is the set of the sums of their points. Missing: boxes
smaller than `eps` that are not points -/
theorem C69_sum_partial {eps : K} {v r : List (K × K)} {X : Itv K × Itv K} (h : addBox eps v X = some r) (hw : PointOrWide eps X) :
    ConvexVertices r ∧ ∀ q : K × K, q ∈ PolySet r ↔ ∃ p ∈ PolySet v, ∃ x : K × K, (x.1 ∈ X.1 ∧ x.2 ∈ X.2) ∧ q = p + x := by
  obtain ⟨ps, rfl⟩ := ofThick_built h
  refine ⟨(C69_constructors ps).1, fun q => (addBox_spec h hw.wide).trans (exists_congr fun p => and_congr_right fun _ => ?_)⟩
  constructor
  · intro hx
    exact ⟨(q.1 - p.1, q.2 - p.2), hx, by ext <;> simp⟩
  · rintro ⟨x, hx, rfl⟩
    exact ⟨by simpa using hx.1, by simpa using hx.2⟩

/-- **C69**: the difference of a polygon and such a box -/
theorem C69_difference_partial {eps : K} {v r : List (K × K)} {X : Itv K × Itv K} (h : subBox eps v X = some r) (hw : PointOrWide eps X) :
    ConvexVertices r ∧ ∀ q : K × K, q ∈ PolySet r ↔ ∃ p ∈ PolySet v, ∃ x : K × K, (x.1 ∈ X.1 ∧ x.2 ∈ X.2) ∧ q = p - x := by
  obtain ⟨ps, rfl⟩ := ofThick_built h
  refine ⟨(C69_constructors ps).1, fun q => (addBox_spec h hw.wide.neg).trans (exists_congr fun p => and_congr_right fun _ => ?_)⟩
  constructor
  · rintro ⟨h1, h2⟩
    rw [mem_neg_iff] at h1 h2
    exact ⟨(-(q.1 - p.1), -(q.2 - p.2)), ⟨h1, h2⟩, by ext <;> simp⟩
  · rintro ⟨x, hx, rfl⟩
    exact ⟨mem_neg_iff.mpr (by simpa using hx.1), mem_neg_iff.mpr (by simpa using hx.2)⟩

/-- **C69**: the difference of such a box and a polygon -/
theorem C69_box_difference_partial {eps : K} {v r : List (K × K)} {X : Itv K × Itv K} (h : boxSub eps X v = some r) (hw : PointOrWide eps X) :
    ConvexVertices r ∧ ∀ q : K × K, q ∈ PolySet r ↔ ∃ p ∈ PolySet v, ∃ x : K × K, (x.1 ∈ X.1 ∧ x.2 ∈ X.2) ∧ q = x - p := by
  obtain ⟨ps, rfl⟩ := ofThick_built h
  refine ⟨(C69_constructors ps).1, fun q => (addBox_spec h hw.wide).trans ?_⟩
  constructor
  · rintro ⟨p, hp, hx⟩
    exact ⟨(-p.1, -p.2), (hull_neg v p).mp hp, (q.1 - p.1, q.2 - p.2), hx, by ext <;> simp⟩
  · rintro ⟨p, hp, x, hx, rfl⟩
    exact ⟨(-p.1, -p.2), (hull_neg v _).mpr (by rw [neg_neg, neg_neg]; exact hp), by simpa using hx.1, by simpa using hx.2⟩

/-- the sum of a point and a small box loses points -/
theorem C69_small_box_fails : ∃ (v : List (ℚ × ℚ)) (X : Itv ℚ × Itv ℚ) (p x : ℚ × ℚ), v = convexHullPts [(0, 0)] ∧
    X = (.icc 0 (1 / 10 ^ 11), .point 0) ∧ p ∈ PolySet v ∧ (x.1 ∈ X.1 ∧ x.2 ∈ X.2) ∧
    ∃ r, addBox (1 / 10 ^ 10) v X = some r ∧ p + x ∉ PolySet r := by
  refine ⟨_, _, (0, 0), (1 / 10 ^ 11, 0), rfl, rfl, Hull.mem (by decide +kernel), by decide +kernel, [(0, 0)], by decide +kernel, fun h => ?_⟩
  have := Hull.nonneg (v := [((0, 0) : ℚ × ℚ)]) (α := -1) (β := 0) (γ := 0) (by simp) h
  norm_num at this

/-- **C69**: the product of a polygon by an interval matrix contains the images of its points by the matrices, when each thick vertex is a
point or is not too small. Missing: the other matrices -/
theorem C69_matrix_partial {eps : K} {m : (Itv K × Itv K) × (Itv K × Itv K)} {v r : List (K × K)} (h : mulMat eps m v = some r)
    (hw : ∀ p ∈ v, PointOrWide eps (tpt (.add (.mul m.1.1 (.point p.1)) (.mul m.1.2 (.point p.2)))
      (.add (.mul m.2.1 (.point p.1)) (.mul m.2.2 (.point p.2))))) : ConvexVertices r ∧ ∀ a b c d : K, a ∈ m.1.1 → b ∈ m.1.2 → c ∈ m.2.1 → d ∈ m.2.2 →
    ∀ p ∈ PolySet v, (a * p.1 + b * p.2, c * p.1 + d * p.2) ∈ PolySet r := by
  obtain ⟨ps, rfl⟩ := ofThick_built h
  exact ⟨(C69_constructors ps).1, fun a b c d ha hb hc hd p hp => mulMat_sound h (fun p hp => (hw p hp).wide) ha hb hc hd hp⟩

/-- the results are defined: a triangle plus a box, minus a box, and a rotation of a triangle by a quarter turn -/
example : addBox (1 / 10 ^ 10) (convexHullPts [((0, 0) : ℚ × ℚ), (4, 0), (0, 4)]) (.icc 0 1, .icc 0 1) =
      some [(0, 0), (5, 0), (5, 1), (1, 5), (0, 5)] ∧
    subBox (1 / 10 ^ 10) (convexHullPts [((0, 0) : ℚ × ℚ), (4, 0), (0, 4)]) (.icc 0 1, .point 0) =
      some [(-1, 0), (4, 0), (0, 4), (-1, 4)] ∧
    boxSub (1 / 10 ^ 10) (.icc 0 1, .point 0) (convexHullPts [((0, 0) : ℚ × ℚ), (4, 0), (0, 4)]) =
      some [(0, -4), (1, -4), (1, 0), (0, 0), (-3, 0), (-4, 0)] ∧
    mulMat (1 / 10 ^ 10) ((.point 0, .point (-1)), .point 1, .point 0) (convexHullPts [((0, 0) : ℚ × ℚ), (4, 0), (0, 4)]) =
      some [(0, 0), (0, 4), (-4, 0)] ∧
    union (1 / 10 ^ 10) (convexHullPts [((0, 0) : ℚ × ℚ), (1, 0), (0, 1)]) (convexHullPts [((3, 3) : ℚ × ℚ)]) =
      some [(0, 0), (1, 0), (3, 3), (0, 1)] := by decide +kernel

/-! ### C70: comparison and area -/

/-- **C70**: two polygons are equal when the vertices are the same ones up to a circular shift and to the orientation; equal polygons have
the same points -/
theorem C70_equal {v w : List (K × K)} (hv : ConvexVertices v) :
    (polyEq v w = true ↔ v ~r w ∨ v.reverse ~r w) ∧ (polyEq v w = true → PolySet v = PolySet w) :=
  ⟨polyEq_iff hv.1, polyEq_hull hv.1⟩

/-- two lists of vertices of the same triangle, in both orientations, and a polygon with more vertices -/
example : polyEq [((0, 0) : ℚ × ℚ), (1, 0), (0, 1)] [(1, 0), (0, 1), (0, 0)] = true ∧
    polyEq [((0, 0) : ℚ × ℚ), (1, 0), (0, 1)] [(1, 0), (0, 0), (0, 1)] = true ∧
    polyEq [((0, 0) : ℚ × ℚ), (1, 0), (0, 1)] [(1, 0), (0, 0), (0, 2)] = false := by decide +kernel

/-- two polygons with the same points may be different: a vertex may be on an edge -/
theorem C70_same_points_fails : ∃ pts pts' : List (ℚ × ℚ), PolySet (convexHullPts pts) = PolySet (convexHullPts pts') ∧
    polyEq (convexHullPts pts) (convexHullPts pts') = false := by
  refine ⟨[(0, 0), (2, 0)], [(0, 0), (2, 0), (1, 0)], ?_, by decide +kernel⟩
  show Hull _ = Hull _
  rw [(convexHullPts_poly _).2.2, (convexHullPts_poly _).2.2]
  apply Set.Subset.antisymm
  · exact Hull.mono fun p hp => Hull.mem (by simp at hp ⊢; tauto)
  · refine Hull.mono fun p hp => ?_
    simp only [List.mem_cons, List.not_mem_nil, or_false] at hp
    rcases hp with rfl | rfl | rfl
    · exact Hull.mem (by simp)
    · exact Hull.mem (by simp)
    · exact mem_of_onSeg (convex_convexHull ℚ _) (Hull.mem (l := [((0, 0) : ℚ × ℚ), (2, 0)]) (p := (0, 0)) (by simp))
        (Hull.mem (p := (2, 0)) (by simp)) ⟨1 / 2, by norm_num, by norm_num, by norm_num, by norm_num⟩

/-- **C70**: the area of the polygon of more than three distinct points is not negative, and is zero exactly when they are aligned.
Missing: three points, which may be in clockwise order -/
theorem C70_area_partial (pts : List (K × K)) (h : 3 < pts.toFinset.card) :
    0 ≤ area (convexHullPts pts) ∧ (area (convexHullPts pts) = 0 ↔ ¬ NotAligned pts) := by
  rw [← card_removeIdentical] at h
  obtain ⟨h1, h2, h3, h4⟩ := convexHullPts_spec h
  have ht : Turns (1 : K) (convexHullPts pts) := fun a b c hs => by rw [one_mul]; exact h4 a b c hs
  refine ⟨by have := area_nonneg ht; rwa [one_mul] at this, (area_zero one_ne_zero ht h2).trans (not_congr ?_)⟩
  constructor
  · rintro ⟨a, ha, b, hb, c, hc, k⟩
    exact ⟨a, h1 a ha, b, h1 b hb, c, h1 c hc, k⟩
  · exact fun h => solid_convexHullPts h

/-- the area of a triangle may be negative -/
theorem C70_area_fails : ∃ pts : List (ℚ × ℚ), area (convexHullPts pts) < 0 := ⟨[(0, 0), (0, 1), (1, 0)], by decide +kernel⟩

example : area (convexHullPts [((0, 0) : ℚ × ℚ), (2, 0), (2, 3), (0, 3), (1, 1)]) = 6 := by decide +kernel

end Codac.Props
