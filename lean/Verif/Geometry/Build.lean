import Verif.Geometry.FastInter

/-!
# Polygons built with `GrahamScan::convex_hull`
-/

set_option linter.unusedSectionVars false

namespace Codac.Poly
open Codac.Graham

variable {K : Type*} [Field K] [LinearOrder K] [IsStrictOrderedRing K]

theorem turns_small {v : List (Pt K)} (hv : v.length ≤ 3) : ∃ σ : K, σ ≠ 0 ∧ Turns σ v := by
  match v, hv with
  | [], _ => exact ⟨1, one_ne_zero, fun a b c h => by have := h.length_le; simp at this⟩
  | [_], _ => exact ⟨1, one_ne_zero, fun a b c h => by have := h.length_le; simp at this⟩
  | [_, _], _ => exact ⟨1, one_ne_zero, fun a b c h => by have := h.length_le; simp at this⟩
  | [x, y, z], _ =>
    have key : ∀ σ : K, 0 ≤ σ * cr x y z → Turns σ [x, y, z] := by
      intro σ hσ a b c h
      have := h.eq_of_length (by simp)
      simp only [List.cons.injEq, and_true] at this
      obtain ⟨rfl, rfl, rfl⟩ := this
      exact hσ
    rcases le_total 0 (cr x y z) with h | h
    · exact ⟨1, one_ne_zero, key 1 (by linarith)⟩
    · exact ⟨-1, by norm_num, key (-1) (by linarith)⟩

/-- what `GrahamScan::convex_hull` returns is a convex polygon: the hull of the points -/
theorem convexHullPts_poly (pts : List (Pt K)) :
    (∃ σ : K, σ ≠ 0 ∧ Turns σ (convexHullPts pts)) ∧ (convexHullPts pts).Nodup ∧ Hull (convexHullPts pts) = Hull pts := by
  by_cases h : 3 < (removeIdentical pts).length
  · obtain ⟨h1, h2, h3, h4⟩ := convexHullPts_spec h
    exact ⟨⟨1, one_ne_zero, fun a b c hc => by rw [one_mul]; exact h4 a b c hc⟩, h2,
      Set.Subset.antisymm (Hull.mono fun p hp => Hull.mem (h1 p hp)) (Hull.mono h3)⟩
  · have e : convexHullPts pts = removeIdentical pts := by
      unfold convexHullPts
      simp only [if_pos (not_lt.mp h)]
    rw [e]
    exact ⟨turns_small (not_lt.mp h), removeIdentical_nodup pts,
      Set.Subset.antisymm (Hull.mono fun p hp => Hull.mem (mem_removeIdentical.mp hp))
        (Hull.mono fun p hp => Hull.mem (mem_removeIdentical.mpr hp))⟩

theorem hull_zero {v : List (Pt K)} {α β γ : K} (h : ∀ u ∈ v, α * u.1 + β * u.2 + γ = 0) {q : Pt K} (hq : q ∈ Hull v) :
    α * q.1 + β * q.2 + γ = 0 := by
  have h1 := Hull.nonneg (fun u hu => (h u hu).ge) hq
  have h2 := Hull.nonneg (α := -α) (β := -β) (γ := -γ) (fun u hu => by have := h u hu; linarith) hq
  linarith

/-- the points of the hull of aligned points are aligned -/
theorem flat_hull {v : List (Pt K)} (h : ¬ Solid v) {a b c : Pt K} (ha : a ∈ Hull v) (hb : b ∈ Hull v) (hc : c ∈ Hull v) : cr a b c = 0 := by
  unfold Solid at h
  push Not at h
  have s1 : ∀ a ∈ v, ∀ b ∈ v, ∀ c ∈ Hull v, cr a b c = 0 := by
    intro a ha b hb c hc
    have := hull_zero (v := v) (α := -(b.2 - a.2)) (β := b.1 - a.1) (γ := (b.2 - a.2) * a.1 - (b.1 - a.1) * a.2)
      (fun u hu => by have := h a ha b hb u hu; unfold cr at this; linarith) hc
    unfold cr; linarith
  have s2 : ∀ a ∈ v, ∀ b ∈ Hull v, ∀ c ∈ Hull v, cr a b c = 0 := by
    intro a ha b hb c hc
    have := hull_zero (v := v) (α := c.2 - a.2) (β := -(c.1 - a.1)) (γ := (c.1 - a.1) * a.2 - (c.2 - a.2) * a.1)
      (fun u hu => by have := s1 a ha u hu c hc; unfold cr at this; linarith) hb
    unfold cr; linarith
  have := hull_zero (v := v) (α := b.2 - c.2) (β := c.1 - b.1) (γ := b.1 * c.2 - b.2 * c.1)
    (fun u hu => by have := s2 u hu b hb c hc; unfold cr at this; linarith) ha
  unfold cr; linarith

theorem solid_convexHullPts {pts : List (Pt K)} (h : Solid pts) : Solid (convexHullPts pts) := by
  by_contra hn
  obtain ⟨a, ha, b, hb, c, hc, h⟩ := h
  have e := (convexHullPts_poly pts).2.2
  exact h (flat_hull hn (e ▸ Hull.mem ha) (e ▸ Hull.mem hb) (e ▸ Hull.mem hc))

end Codac.Poly
