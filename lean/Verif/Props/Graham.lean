import Verif.Geometry.Graham
import Mathlib.Data.Finset.Card

/-!
# C44: convex hull of a list of points
-/

set_option linter.unusedSectionVars false

namespace Codac.Props
open Codac Codac.Graham

variable {K : Type*} [Field K] [LinearOrder K] [IsStrictOrderedRing K]

/-- `q` is on the left of the line from `a` to `b`, or on this line -/
def OnLeft (a b q : K × K) : Prop := 0 ≤ (b.1 - a.1) * (q.2 - a.2) - (b.2 - a.2) * (q.1 - a.1)

/-- `q` is on the right of the line from `a` to `b`, or on this line -/
def OnRight (a b q : K × K) : Prop := (b.1 - a.1) * (q.2 - a.2) - (b.2 - a.2) * (q.1 - a.1) ≤ 0

/-- `(a, b)` is an edge of the polygon of vertices `v`, from each vertex to the next one and from the last one to the first one -/
def IsEdge (v : List (K × K)) (a b : K × K) : Prop := [a, b] <:+: v ++ v.take 1

theorem card_removeIdentical (pts : List (K × K)) : (removeIdentical pts).length = pts.toFinset.card := by
  rw [← List.toFinset_card_of_nodup (removeIdentical_nodup pts)]
  congr 1
  ext q
  rw [List.mem_toFinset, List.mem_toFinset, mem_removeIdentical]

/-- **C44**, main part: for more than three distinct points, the vertices are distinct points of the input, every point of the input is in
their convex hull, and is on the left of each edge: the polygon is convex and in counterclockwise order -/
theorem C44_counterclockwise (pts : List (K × K)) (h : 3 < pts.toFinset.card) :
    (convexHullPts pts).Nodup ∧ (∀ q ∈ convexHullPts pts, q ∈ pts) ∧ (∀ q ∈ pts, q ∈ convexHull K {p | p ∈ convexHullPts pts}) ∧
      ∀ a b, IsEdge (convexHullPts pts) a b → ∀ q ∈ pts, OnLeft a b q := by
  rw [← card_removeIdentical] at h
  obtain ⟨h1, h2, h3, h4⟩ := convexHullPts_spec h
  exact ⟨h2, h1, h3, fun a b he q hq => edges_of_turns h4 he q (h3 q hq)⟩

/-- the edges of a polygon of at most three vertices -/
theorem edges_small {v : List (K × K)} (hv : v.length ≤ 3) :
    (∀ a b, IsEdge v a b → ∀ q ∈ v, OnLeft a b q) ∨ ∀ a b, IsEdge v a b → ∀ q ∈ v, OnRight a b q := by
  have turn : (∀ a b c : K × K, [a, b, c].Sublist v → 0 ≤ cr a b c) → ∀ a b, IsEdge v a b → ∀ q ∈ v, OnLeft a b q :=
    fun h a b he q hq => edges_of_turns h he q (Hull.mem hq)
  match v, hv, turn with
  | [], _, turn => exact .inl (turn fun a b c h => by have := h.length_le; simp at this)
  | [_], _, turn => exact .inl (turn fun a b c h => by have := h.length_le; simp at this)
  | [_, _], _, turn => exact .inl (turn fun a b c h => by have := h.length_le; simp at this)
  | [x, y, z], _, turn =>
    by_cases hc : 0 ≤ cr x y z
    · refine .inl (turn fun a b c h => ?_)
      have := h.eq_of_length (by simp)
      simp only [List.cons.injEq, and_true] at this
      obtain ⟨rfl, rfl, rfl⟩ := this
      exact hc
    · -- the reversed polygon turns to the left
      right
      intro a b he q hq
      have he' : [b, a] <:+: [z, y, x] ++ [z, y, x].take 1 ∨ (a = z ∧ b = x) := by
        obtain ⟨u, w, e⟩ := he
        match u, e with
        | [], e =>
          simp only [List.nil_append, List.cons_append, List.take_succ_cons, List.take_zero, List.cons.injEq] at e
          exact .inl ⟨[z], [z], by simp [e.1, e.2.1]⟩
        | [_], e =>
          simp only [List.nil_append, List.cons_append, List.take_succ_cons, List.take_zero, List.cons.injEq] at e
          exact .inl ⟨[], [x, z], by simp [e.2.1, e.2.2.1]⟩
        | [_, _], e =>
          simp only [List.nil_append, List.cons_append, List.take_succ_cons, List.take_zero, List.cons.injEq] at e
          exact .inr ⟨e.2.2.1, e.2.2.2.1⟩
        | _ :: _ :: _ :: u, e =>
          have := congrArg List.length e
          simp at this
          omega
      have hturn : ∀ a b c : K × K, [a, b, c].Sublist [z, y, x] → 0 ≤ cr a b c := by
        intro a b c h
        have := h.eq_of_length (by simp)
        simp only [List.cons.injEq, and_true] at this
        obtain ⟨rfl, rfl, rfl⟩ := this
        have : cr a b c = - cr c b a := by unfold cr; ring
        rw [this]
        linarith [not_le.mp hc]
      have hq' : q ∈ [z, y, x] := by
        simp only [List.mem_cons, List.not_mem_nil, or_false] at hq ⊢
        tauto
      have he'' : [b, a] <:+: [z, y, x] ++ [z, y, x].take 1 := by
        rcases he' with h | ⟨rfl, rfl⟩
        · exact h
        · exact ⟨[a, y], [], by simp⟩
      have := edges_of_turns hturn he'' q (Hull.mem hq')
      have k : (b.1 - a.1) * (q.2 - a.2) - (b.2 - a.2) * (q.1 - a.1) = - cr b a q := by unfold cr; ring
      show _ ≤ (0 : K)
      rw [k]
      linarith

/-- **C44**: `GrahamScan::convex_hull` returns distinct points of the input, the vertices of a convex polygon (the points of the input are
all on the left of all the edges, or all on their right) whose convex hull contains every point of the input -/
theorem C44_convex_hull (pts : List (K × K)) :
    (convexHullPts pts).Nodup ∧ (∀ q ∈ convexHullPts pts, q ∈ pts) ∧ (∀ q ∈ pts, q ∈ convexHull K {p | p ∈ convexHullPts pts}) ∧
      ((∀ a b, IsEdge (convexHullPts pts) a b → ∀ q ∈ pts, OnLeft a b q) ∨
        ∀ a b, IsEdge (convexHullPts pts) a b → ∀ q ∈ pts, OnRight a b q) := by
  by_cases h : 3 < pts.toFinset.card
  · obtain ⟨h1, h2, h3, h4⟩ := C44_counterclockwise pts h
    exact ⟨h1, h2, h3, .inl h4⟩
  · rw [← card_removeIdentical, not_lt] at h
    have e : convexHullPts pts = removeIdentical pts := by
      unfold convexHullPts
      simp only [if_pos h]
    rw [e]
    refine ⟨removeIdentical_nodup pts, fun q => mem_removeIdentical.mp, fun q hq => Hull.mem (mem_removeIdentical.mpr hq), ?_⟩
    refine (edges_small h).imp ?_ ?_ <;>
      exact fun h a b he q hq => h a b he q (mem_removeIdentical.mpr hq)

/-- no vertex is missing: a point of the input which is not a convex combination of the other ones is a vertex -/
theorem C44_extreme (pts : List (K × K)) (p : K × K) (hp : p ∈ pts) (hx : p ∉ convexHull K {q | q ∈ pts ∧ q ≠ p}) :
    p ∈ convexHullPts pts := by
  obtain ⟨_, h2, h3, _⟩ := C44_convex_hull pts
  by_contra hn
  refine hx (convexHull_mono (fun q hq => ?_) (h3 p hp))
  exact ⟨h2 q hq, fun e => hn (e ▸ hq)⟩

/-- the sorting of the points has one result: `std::sort` is called with a comparison which is not strict, and any list which is sorted by
it is the one of the model -/
theorem C44_sort (o : K × K) (l s : List (K × K)) (hl : ∀ x ∈ l, o.2 < x.2 ∨ (o.2 = x.2 ∧ o.1 ≤ x.1)) (hp : s.Perm l)
    (hs : s.Pairwise (before o)) : s = l.insertionSort (before o) := sort_unique hl hp hs

/-- the order is not always counterclockwise: three points are returned as they are given -/
theorem C44_order_fails : ∃ pts : List (ℚ × ℚ), ∃ a b q, IsEdge (convexHullPts pts) a b ∧ q ∈ pts ∧ ¬ OnLeft a b q := by
  refine ⟨[(0, 0), (0, 1), (1, 0)], (0, 0), (0, 1), (1, 0), ⟨[], [(1, 0), (0, 0)], by decide +kernel⟩, by simp, ?_⟩
  unfold OnLeft
  norm_num

/-- a vertex may be on an edge: aligned points that are not aligned with the first point are kept, and if all the points are aligned a
third point is returned -/
theorem C44_minimal_fails : ∃ pts : List (ℚ × ℚ), ∃ p ∈ convexHullPts pts, p ∈ convexHull ℚ {q | q ∈ pts ∧ q ≠ p} := by
  refine ⟨[(0, 0), (2, 0), (2, 1), (2, 2)], (2, 1), by decide +kernel, ?_⟩
  have h1 : ((2, 0) : ℚ × ℚ) ∈ convexHull ℚ {q : ℚ × ℚ | q ∈ [((0, 0) : ℚ × ℚ), (2, 0), (2, 1), (2, 2)] ∧ q ≠ (2, 1)} :=
    subset_convexHull ℚ _ (by simp)
  have h2 : ((2, 2) : ℚ × ℚ) ∈ convexHull ℚ {q : ℚ × ℚ | q ∈ [((0, 0) : ℚ × ℚ), (2, 0), (2, 1), (2, 2)] ∧ q ≠ (2, 1)} :=
    subset_convexHull ℚ _ (by simp)
  have := convex_convexHull ℚ _ h1 h2 (a := 1 / 2) (b := 1 / 2) (by norm_num) (by norm_num) (by norm_num)
  have e : ((1 / 2 : ℚ)) • ((2, 0) : ℚ × ℚ) + ((1 / 2 : ℚ)) • ((2, 2) : ℚ × ℚ) = (2, 1) := by
    refine Prod.ext ?_ ?_ <;> norm_num
  rwa [e] at this

/-- four aligned points: a stale element of the array is returned as a third vertex -/
example : convexHullPts [((0, 0) : ℚ × ℚ), (1, 0), (2, 0), (3, 0)] = [(0, 0), (3, 0), (2, 0)] := by decide +kernel

/-- the hypothesis of `C44_counterclockwise` is met: a square, its centre, an aligned point, and a point given twice -/
example : 3 < [((1, 1) : ℚ × ℚ), (2, 2), (0, 0), (2, 0), (0, 2), (1, 0), (2, 2)].toFinset.card := by decide +kernel

example : convexHullPts [((1, 1) : ℚ × ℚ), (2, 2), (0, 0), (2, 0), (0, 2), (1, 0), (2, 2)] = [(0, 0), (2, 0), (2, 2), (0, 2)] := by
  decide +kernel

/-- points are popped -/
example : convexHullPts [((0, 0) : ℚ × ℚ), (4, 1), (2, 1), (3, 4), (1, 2), (0, 4)] = [(0, 0), (4, 1), (3, 4), (0, 4)] := by
  decide +kernel

end Codac.Props
