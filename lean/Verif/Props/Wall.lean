import Verif.Geometry.Wall
import Mathlib.Data.Rat.Defs
import Mathlib.Algebra.Order.Field.Rat
import Mathlib.Order.Bounds.Basic

/-!
# C114: distances to walls

`shorter_dist_to_walls` is meant to be the distance between a point and the first wall in a direction, `shorter_contact_to_walls` the distance to the
closest wall with the direction in which it is.
-/

set_option linter.unusedSectionVars false

namespace Codac.Props

open Codac.Walls

variable {K : Type*} [Field K] [LinearOrder K] [IsStrictOrderedRing K]

/-- `q` is at a distance of at most 999999 from `p` in the direction `(c, s)` -/
def Ahead (p : K × K) (c s : K) (q : K × K) : Prop := ∃ r, 0 ≤ r ∧ r ≤ 999999 ∧ q.1 = p.1 + r * c ∧ q.2 = p.2 + r * s

/-- the wall has not the direction `(c, s)` -/
def Across (w : Wall K) (c s : K) : Prop := c * (w.y2 - w.y1) ≠ s * (w.x2 - w.x1)

/-- a point of a wall is seen from `p` in the direction `(c, s)`, the wall having another direction -/
def Seen (walls : List (Wall K)) (p : K × K) (c s : K) (q : K × K) : Prop := ∃ w ∈ walls, Across w c s ∧ w.Has q ∧ Ahead p c s q

/-- the square of the distance between two points -/
def sqDist (p q : K × K) : K := (q.1 - p.1) ^ 2 + (q.2 - p.2) ^ 2

theorem ahead_iff (p : K × K) (c s : K) (q : K × K) : Ahead p c s q ↔ (ray p c s).Has q := by
  constructor
  · rintro ⟨r, h0, h1, h2, h3⟩
    refine ⟨r / 999999, by positivity, by rw [div_le_one (by norm_num)]; exact h1, ?_, ?_⟩
    · rw [h2]; unfold ray; dsimp only
      rw [add_sub_cancel_left, ← mul_assoc, div_mul_cancel₀ _ (by norm_num)]
    · rw [h3]; unfold ray; dsimp only
      rw [add_sub_cancel_left, ← mul_assoc, div_mul_cancel₀ _ (by norm_num)]
  · rintro ⟨l, h0, h1, h2, h3⟩
    refine ⟨l * 999999, by positivity, by linarith, ?_, ?_⟩
    · rw [h2]; unfold ray; dsimp only; ring
    · rw [h3]; unfold ray; dsimp only; ring

theorem across_iff (w : Wall K) (p : K × K) (c s : K) : Across w c s ↔ det (ray p c s) w ≠ 0 := by
  have e : det (ray p c s) w = 999999 * (c * (w.y2 - w.y1) - s * (w.x2 - w.x1)) := by unfold det ray; dsimp only; ring
  unfold Across
  rw [e]
  constructor
  · intro h h'
    rcases mul_eq_zero.mp h' with h' | h'
    · norm_num at h'
    · exact h (sub_eq_zero.mp h')
  · intro h h'
    exact h (by rw [h', sub_self, mul_zero])

theorem seen_iff (walls : List (Wall K)) (p : K × K) (c s : K) (q : K × K) : Seen walls p c s q ↔ ∃ w ∈ walls, Hit (ray p c s) w q := by
  constructor
  · rintro ⟨w, hw, h1, h2, h3⟩
    exact ⟨w, hw, (across_iff w p c s).mp h1, (ahead_iff p c s q).mp h3, h2⟩
  · rintro ⟨w, hw, h1, h2, h3⟩
    exact ⟨w, hw, (across_iff w p c s).mpr h1, h3, (ahead_iff p c s q).mpr h2⟩

theorem sqDist_eq (p q : K × K) : sqDist p q = Walls.sq p q := by unfold sqDist Walls.sq; ring

/-- **C114 (partial: only walls that have not the direction of the bearing, and that are closer than 999999)**: the square of the returned distance is the least
one among the squares of the distances to the points of the walls that are seen. -/
theorem C114_distance_partial (walls : List (Wall K)) (p : K × K) (c s d : K) :
    shorterDist walls p c s = some d ↔ IsLeast {e | ∃ q, Seen walls p c s q ∧ e = sqDist p q} d := by
  obtain ⟨h1, h2⟩ := distLoop_spec p (ray p c s) walls none
  have cand : ∀ e, Cand p (ray p c s) walls none e ↔ ∃ q, Seen walls p c s q ∧ e = sqDist p q := by
    intro e
    constructor
    · rintro (h | ⟨w, hw, q, hq, h⟩)
      · cases h
      · exact ⟨q, (seen_iff ..).mpr ⟨w, hw, hq⟩, by rw [sqDist_eq]; exact h⟩
    · rintro ⟨q, hq, h⟩
      obtain ⟨w, hw, hq⟩ := (seen_iff ..).mp hq
      exact Or.inr ⟨w, hw, q, hq, by rw [← sqDist_eq]; exact h⟩
  constructor
  · intro h
    refine ⟨(cand d).mp (h1 d h), fun e he => ?_⟩
    obtain ⟨d', h3, h4⟩ := h2 e ((cand e).mpr he)
    have : some d = some d' := by rw [← h, ← h3]; rfl
    cases this
    exact h4
  · rintro ⟨hd, hl⟩
    obtain ⟨d', h3, h4⟩ := h2 d ((cand d).mpr hd)
    have : d ≤ d' := hl ((cand d').mp (h1 d' h3))
    rw [show shorterDist walls p c s = some d' from h3, le_antisymm h4 this]

/-- **C114**: the returned distance is infinite exactly when no wall is seen. -/
theorem C114_none (walls : List (Wall K)) (p : K × K) (c s : K) : shorterDist walls p c s = none ↔ ∀ q, ¬ Seen walls p c s q := by
  constructor
  · intro h q hq
    obtain ⟨w, hw, hq⟩ := (seen_iff ..).mp hq
    obtain ⟨d', h3, -⟩ := (distLoop_spec p (ray p c s) walls none).2 (Walls.sq p q) (Or.inr ⟨w, hw, q, hq, rfl⟩)
    rw [show distLoop p (ray p c s) walls none = none from h] at h3
    cases h3
  · intro h
    cases hd : shorterDist walls p c s with
    | none => rfl
    | some d =>
      obtain ⟨q, hq, -⟩ := ((C114_distance_partial walls p c s d).mp hd).1
      exact absurd hq (h q)

/-- **C114**: when the direction is a unit vector, the returned value is the square of the distance along the bearing: it is `r²` for a point at the distance
`r` ahead, so that the code returns `r`. -/
theorem C114_range (walls : List (Wall K)) (p : K × K) (c s d : K) (hu : c ^ 2 + s ^ 2 = 1) (h : shorterDist walls p c s = some d) :
    ∃ r, 0 ≤ r ∧ r ≤ 999999 ∧ d = r ^ 2 ∧ (∃ w ∈ walls, w.Has (p.1 + r * c, p.2 + r * s)) ∧
      ∀ r', 0 ≤ r' → r' ≤ 999999 → (∃ w ∈ walls, Across w c s ∧ w.Has (p.1 + r' * c, p.2 + r' * s)) → r ≤ r' := by
  obtain ⟨⟨q, ⟨w, hw, ha, hq, r, h0, h1, h2, h3⟩, hd⟩, hl⟩ := (C114_distance_partial walls p c s d).mp h
  have e : ∀ r : K, sqDist p (p.1 + r * c, p.2 + r * s) = r ^ 2 := by
    intro r
    unfold sqDist
    dsimp only
    linear_combination r ^ 2 * hu
  have hq' : q = (p.1 + r * c, p.2 + r * s) := Prod.ext h2 h3
  subst hq'
  rw [e] at hd
  refine ⟨r, h0, h1, hd, ⟨w, hw, hq⟩, ?_⟩
  rintro r' h0' h1' ⟨w', hw', ha', hq'⟩
  have := hl ⟨_, ⟨w', hw', ha', hq', r', h0', h1', rfl, rfl⟩, rfl⟩
  rw [e, hd] at this
  exact (pow_le_pow_iff_left₀ h0 h0' (by norm_num)).mp this

/-- **C114**: over the bearings that are tried, the contact is the least of the distances, at a bearing where it is obtained; no bearing is given, and the
distance is infinite, exactly when no wall is seen in any of them. -/
theorem C114_contact (walls : List (Wall K)) (p : K × K) (dirs : List (K × K)) :
    (∀ d, (shorterContact walls p dirs).1 = some d → ∃ (k : Nat) (u : K × K), dirs[k]? = some u ∧ (shorterContact walls p dirs).2 = some k ∧
      shorterDist walls p u.1 u.2 = some d ∧ ∀ v ∈ dirs, ∀ q, Seen walls p v.1 v.2 q → d ≤ sqDist p q) ∧
    ((shorterContact walls p dirs).1 = none ↔ ∀ v ∈ dirs, ∀ q, ¬ Seen walls p v.1 v.2 q) ∧
    ((shorterContact walls p dirs).2 = none ↔ ∀ v ∈ dirs, ∀ q, ¬ Seen walls p v.1 v.2 q) := by
  obtain ⟨h1, h2⟩ := contactLoop_spec walls p dirs 0 none none
  change _ ∨ _ at h1
  have e : contactLoop walls p dirs 0 none none = shorterContact walls p dirs := rfl
  rw [e] at h1
  simp only [e] at h2
  have seen : ∀ v ∈ dirs, ∀ q, Seen walls p v.1 v.2 q → ∃ d', (shorterContact walls p dirs).1 = some d' ∧ d' ≤ sqDist p q := by
    intro v hv q hq
    cases hd : shorterDist walls p v.1 v.2 with
    | none => exact absurd hq ((C114_none walls p v.1 v.2).mp hd q)
    | some d =>
      have hl := ((C114_distance_partial walls p v.1 v.2 d).mp hd).2 ⟨q, hq, rfl⟩
      obtain ⟨d', h3, h4⟩ := h2 d (Or.inr ⟨v, hv, hd⟩)
      exact ⟨d', h3, h4.trans hl⟩
  have notSeen : (shorterContact walls p dirs).1 = none → ∀ v ∈ dirs, ∀ q, ¬ Seen walls p v.1 v.2 q := by
    intro h v hv q hq
    obtain ⟨d', h3, -⟩ := seen v hv q hq
    rw [h] at h3; cases h3
  have found : ∀ (k : Nat) (u : K × K), dirs[k]? = some u → (shorterContact walls p dirs).1 ≠ none → shorterDist walls p u.1 u.2 = (shorterContact walls p dirs).1 →
      ∃ v ∈ dirs, ∃ q, Seen walls p v.1 v.2 q := by
    intro k u a1 a3 a4
    cases hd : (shorterContact walls p dirs).1 with
    | none => exact absurd hd a3
    | some d =>
      rw [hd] at a4
      obtain ⟨⟨q, hq, -⟩, -⟩ := (C114_distance_partial walls p u.1 u.2 d).mp a4
      exact ⟨u, List.mem_of_getElem? a1, q, hq⟩
  refine ⟨?_, ⟨notSeen, ?_⟩, ⟨?_, ?_⟩⟩
  · intro d hd
    rcases h1 with ⟨h1, -⟩ | ⟨k, u, a1, a2, a3, a4⟩
    · rw [h1] at hd; cases hd
    · refine ⟨k, u, a1, by rw [a2, Nat.zero_add], by rw [a4, hd], ?_⟩
      intro v hv q hq
      obtain ⟨d', h3, h4⟩ := seen v hv q hq
      rw [hd] at h3; cases h3
      exact h4
  · intro h
    rcases h1 with ⟨h1, -⟩ | ⟨k, u, a1, a2, a3, a4⟩
    · exact h1
    · obtain ⟨v, hv, q, hq⟩ := found k u a1 a3 a4
      exact absurd hq (h v hv q)
  · intro h
    rcases h1 with ⟨h1, -⟩ | ⟨k, u, a1, a2, a3, a4⟩
    · exact notSeen h1
    · rw [h] at a2; cases a2
  · intro h
    rcases h1 with ⟨-, h1⟩ | ⟨k, u, a1, a2, a3, a4⟩
    · exact h1
    · obtain ⟨v, hv, q, hq⟩ := found k u a1 a3 a4
      exact absurd hq (h v hv q)

/-- **C114 fails for a wall along the bearing**: the wall is ahead and touches the sensor's line, the distance is infinite. -/
theorem C114_along_fails : ∃ (w : Wall ℚ) (q : ℚ × ℚ), w.Has q ∧ Ahead (0, 0) 1 0 q ∧ shorterDist [w] (0, 0) 1 0 = none :=
  ⟨⟨1, 0, 2, 0⟩, (1, 0), ⟨0, by decide +kernel, by decide +kernel, by decide +kernel, by decide +kernel⟩,
    ⟨1, by decide +kernel, by decide +kernel, by decide +kernel, by decide +kernel⟩, by decide +kernel⟩

/-- **C114 fails for a distant wall**: beyond 999999, a wall is not seen although it is in the direction. -/
theorem C114_far_fails : ∃ (w : Wall ℚ) (r : ℚ), 0 ≤ r ∧ w.Has (r, 0) ∧ Across w 1 0 ∧ shorterDist [w] (0, 0) 1 0 = none :=
  ⟨⟨1000000, -1, 1000000, 1⟩, 1000000, by decide +kernel, ⟨1/2, by decide +kernel, by decide +kernel, by decide +kernel, by decide +kernel⟩,
    by unfold Across; decide +kernel, by decide +kernel⟩

/-- **C114 fails between the bearings**: the wall is at the distance 1 in a direction that is not tried, no tried bearing sees it, and the contact has neither a
distance nor a bearing; the directions 3/5, 4/5 and 4/5, 3/5 stand for two bearings that follow each other. -/
theorem C114_contact_fails : ∃ (w : Wall ℚ) (c s : ℚ), c ^ 2 + s ^ 2 = 1 ∧ w.Has (c, s) ∧ Across w c s ∧
    shorterContact [w] (0, 0) [(1, 0), (4/5, 3/5), (3/5, 4/5)] = (none, none) :=
  ⟨⟨20/29 - 1/100, 21/29 + 1/100, 20/29 + 1/100, 21/29 - 1/100⟩, 20/29, 21/29, by norm_num,
    ⟨1/2, by decide +kernel, by decide +kernel, by decide +kernel, by decide +kernel⟩, by unfold Across; decide +kernel, by decide +kernel⟩

/-- two walls ahead, the closest one being the second: the distance is the one of the second wall -/
example : shorterDist [(⟨5, -1, 5, 1⟩ : Wall ℚ), ⟨3, -1, 4, 1⟩, ⟨-1, -1, -1, 1⟩] (0, 0) 1 0 = some ((7/2) ^ 2) := by decide +kernel

example : Seen [(⟨5, -1, 5, 1⟩ : Wall ℚ), ⟨3, -1, 4, 1⟩] (0, 0) 1 0 (7/2, 0) :=
  ⟨⟨3, -1, 4, 1⟩, by simp, by unfold Across; decide +kernel, ⟨1/2, by decide +kernel, by decide +kernel, by decide +kernel, by decide +kernel⟩,
    ⟨7/2, by decide +kernel, by decide +kernel, by decide +kernel, by decide +kernel⟩⟩

/-- three bearings, the second one is the closest -/
example : shorterContact [(⟨5, -1, 5, 1⟩ : Wall ℚ), ⟨-1, 2, 1, 2⟩, ⟨-7, -1, -7, 1⟩] (0, 0) [(1, 0), (0, 1), (-1, 0)] = (some 4, some 1) := by decide +kernel

end Codac.Props
