import Mathlib.Algebra.Order.Field.Basic
import Mathlib.Tactic.Linarith
import Mathlib.Tactic.LinearCombination
import Mathlib.Tactic.Ring
import Mathlib.Tactic.Positivity

/-!
# Walls and range sensors

Source: `src/robotics/objects/codac_Wall.cpp`. The operations on `double` are exact in the model. A bearing is given by its cosine `c` and
its sine `s`. `shorter_dist_to_walls` returns the square root of the value of the model, `none` stands for `oo`.
-/

set_option linter.unusedSectionVars false

namespace Codac.Walls

variable {K : Type*} [Field K] [LinearOrder K] [IsStrictOrderedRing K]

/-- `Wall`, codac_Wall.cpp:28-30: two points of the plane -/
structure Wall (K : Type*) where
  x1 : K
  y1 : K
  x2 : K
  y2 : K

/-- `Wall::contains`, codac_Wall.cpp:32-40: the projection of the point on the wall is in the wall -/
def Wall.contains (w : Wall K) (p : K × K) : Bool :=
  let ab := (w.x2 - w.x1, w.y2 - w.y1)
  let ac := (p.1 - w.x1, p.2 - w.y1)
  let dpAB := ab.1 * ab.1 + ab.2 * ab.2
  let dpAC := ab.1 * ac.1 + ab.2 * ac.2
  decide (0 ≤ dpAC) && decide (dpAC ≤ dpAB)

/-- the denominator of codac_Wall.cpp:51-52 -/
def det (w v : Wall K) : K := (w.x1 - w.x2) * (v.y1 - v.y2) - (w.y1 - w.y2) * (v.x1 - v.x2)

/-- `operator&(const Wall&, const Wall&)`, codac_Wall.cpp:42-54. With a null denominator the code divides by zero: its values are infinite or
not numbers, `none` in the model. -/
def meet (w v : Wall K) : Option (K × K) :=
  if det w v = 0 then none
  else some (((w.x1 * w.y2 - w.y1 * w.x2) * (v.x1 - v.x2) - (w.x1 - w.x2) * (v.x1 * v.y2 - v.y1 * v.x2)) / det w v,
    ((w.x1 * w.y2 - w.y1 * w.x2) * (v.y1 - v.y2) - (w.y1 - w.y2) * (v.x1 * v.y2 - v.y1 * v.x2)) / det w v)

/-- `w0`, codac_Wall.cpp:58 -/
def ray (p : K × K) (c s : K) : Wall K := ⟨p.1, p.2, p.1 + 999999 * c, p.2 + 999999 * s⟩

/-- the squared distance, codac_Wall.cpp:66 -/
def sq (p q : K × K) : K := (p.1 - q.1) * (p.1 - q.1) + (p.2 - q.2) * (p.2 - q.2)

/-- `min_dist = dist < min_dist ? dist : min_dist`, codac_Wall.cpp:67; `none` is `oo` -/
def keep (d : K) : Option K → Option K
  | none => some d
  | some m => some (if d < m then d else m)

/-- the loop over the walls, codac_Wall.cpp:61-68. `contains` is false on values that are infinite or not numbers. -/
def distLoop (p : K × K) (w0 : Wall K) : List (Wall K) → Option K → Option K
  | [], m => m
  | w :: ws, m =>
    match meet w0 w with
    | none => distLoop p w0 ws m
    | some q => if !w.contains q || !w0.contains q then distLoop p w0 ws m else distLoop p w0 ws (keep (sq p q) m)

/-- `shorter_dist_to_walls`, codac_Wall.cpp:56-71 -/
def shorterDist (walls : List (Wall K)) (p : K × K) (c s : K) : Option K := distLoop p (ray p c s) walls none

/-- the loop over the bearings, codac_Wall.cpp:78-86: the least distance so far and the bearing (its index) where it has been found -/
def contactLoop (walls : List (Wall K)) (p : K × K) : List (K × K) → Nat → Option K → Option Nat → Option K × Option Nat
  | [], _, m, b => (m, b)
  | u :: us, i, m, b =>
    match shorterDist walls p u.1 u.2, m with
    | none, _ => contactLoop walls p us (i + 1) m b
    | some d, none => contactLoop walls p us (i + 1) (some d) (some i)
    | some d, some m' => if d < m' then contactLoop walls p us (i + 1) (some d) (some i) else contactLoop walls p us (i + 1) (some m') b

/-- `shorter_contact_to_walls`, codac_Wall.cpp:73-89: `dirs` are the cosines and sines of the bearings 0, 0.1, ... below 2*M_PI; the bearing is
given by its index in the list, `none` when the variable of the code has no value -/
def shorterContact (walls : List (Wall K)) (p : K × K) (dirs : List (K × K)) : Option K × Option Nat := contactLoop walls p dirs 0 none none

/-! ### Specification -/

/-- `q` is a point of the segment between the ends of the wall -/
def Wall.Has (w : Wall K) (q : K × K) : Prop := ∃ l, 0 ≤ l ∧ l ≤ 1 ∧ q.1 = w.x1 + l * (w.x2 - w.x1) ∧ q.2 = w.y1 + l * (w.y2 - w.y1)

/-- `q` is on the line through the ends of the wall -/
def Wall.Line (w : Wall K) (q : K × K) : Prop := (q.1 - w.x1) * (w.y2 - w.y1) = (q.2 - w.y1) * (w.x2 - w.x1)

theorem Wall.Has.line {w : Wall K} {q : K × K} (h : w.Has q) : w.Line q := by
  obtain ⟨l, -, -, h1, h2⟩ := h
  unfold Wall.Line
  rw [h1, h2]; ring

theorem has_contains {w : Wall K} {q : K × K} (h : w.Has q) : w.contains q = true := by
  obtain ⟨l, h0, h1, h2, h3⟩ := h
  have e : (w.x2 - w.x1) * (q.1 - w.x1) + (w.y2 - w.y1) * (q.2 - w.y1) = l * ((w.x2 - w.x1) * (w.x2 - w.x1) + (w.y2 - w.y1) * (w.y2 - w.y1)) := by
    rw [h2, h3]; ring
  have hn : 0 ≤ (w.x2 - w.x1) * (w.x2 - w.x1) + (w.y2 - w.y1) * (w.y2 - w.y1) := add_nonneg (mul_self_nonneg _) (mul_self_nonneg _)
  unfold Wall.contains
  dsimp only
  rw [Bool.and_eq_true, decide_eq_true_iff, decide_eq_true_iff, e]
  exact ⟨mul_nonneg h0 hn, mul_le_of_le_one_left hn h1⟩

theorem contains_has {w : Wall K} {q : K × K} (hl : w.Line q) (hne : ¬ (w.x1 = w.x2 ∧ w.y1 = w.y2)) (h : w.contains q = true) : w.Has q := by
  unfold Wall.contains at h
  dsimp only at h
  rw [Bool.and_eq_true, decide_eq_true_iff, decide_eq_true_iff] at h
  unfold Wall.Line at hl
  have hn : 0 < (w.x2 - w.x1) * (w.x2 - w.x1) + (w.y2 - w.y1) * (w.y2 - w.y1) := by
    by_contra hc
    have h1 := mul_self_nonneg (w.x2 - w.x1)
    have h2 := mul_self_nonneg (w.y2 - w.y1)
    have e1 : (w.x2 - w.x1) * (w.x2 - w.x1) = 0 := by linarith
    have e2 : (w.y2 - w.y1) * (w.y2 - w.y1) = 0 := by linarith
    rw [mul_self_eq_zero] at e1 e2
    exact hne ⟨by linarith, by linarith⟩
  refine ⟨((w.x2 - w.x1) * (q.1 - w.x1) + (w.y2 - w.y1) * (q.2 - w.y1)) / ((w.x2 - w.x1) * (w.x2 - w.x1) + (w.y2 - w.y1) * (w.y2 - w.y1)),
    div_nonneg h.1 hn.le, (div_le_one hn).mpr h.2, ?_, ?_⟩
  · rw [div_mul_eq_mul_div, ← sub_eq_iff_eq_add', eq_div_iff hn.ne']
    linear_combination (w.y2 - w.y1) * hl
  · rw [div_mul_eq_mul_div, ← sub_eq_iff_eq_add', eq_div_iff hn.ne']
    linear_combination -(w.x2 - w.x1) * hl

theorem det_ne {w v : Wall K} (h : det w v ≠ 0) : ¬ (w.x1 = w.x2 ∧ w.y1 = w.y2) ∧ ¬ (v.x1 = v.x2 ∧ v.y1 = v.y2) := by
  constructor
  · rintro ⟨h1, h2⟩; apply h; unfold det; rw [h1, h2]; ring
  · rintro ⟨h1, h2⟩; apply h; unfold det; rw [h1, h2]; ring

/-- the computed point is on both lines -/
theorem meet_line {w v : Wall K} {q : K × K} (h : meet w v = some q) : det w v ≠ 0 ∧ w.Line q ∧ v.Line q := by
  unfold meet at h
  split_ifs at h with hd
  cases h
  refine ⟨hd, ?_, ?_⟩
  all_goals
    unfold Wall.Line
    dsimp only
    rw [div_sub' hd, div_sub' hd, div_mul_eq_mul_div, div_mul_eq_mul_div, div_left_inj' hd]
    unfold det
    ring

/-- no other point is on both lines -/
theorem meet_of_line {w v : Wall K} {q : K × K} (hd : det w v ≠ 0) (h1 : w.Line q) (h2 : v.Line q) : meet w v = some q := by
  unfold meet
  rw [if_neg hd, Option.some.injEq]
  unfold Wall.Line at h1 h2
  refine Prod.ext ?_ ?_
  · show _ / _ = _
    rw [div_eq_iff hd]
    unfold det
    linear_combination (v.x2 - v.x1) * h1 - (w.x2 - w.x1) * h2
  · show _ / _ = _
    rw [div_eq_iff hd]
    unfold det
    linear_combination (v.y2 - v.y1) * h1 - (w.y2 - w.y1) * h2

/-- a point of the wall `w` and of `w0`, which are not parallel -/
def Hit (w0 w : Wall K) (q : K × K) : Prop := det w0 w ≠ 0 ∧ w0.Has q ∧ w.Has q

theorem hit_iff {w0 w : Wall K} {q : K × K} : Hit w0 w q ↔ meet w0 w = some q ∧ w.contains q = true ∧ w0.contains q = true := by
  constructor
  · rintro ⟨hd, h1, h2⟩
    exact ⟨meet_of_line hd h1.line h2.line, has_contains h2, has_contains h1⟩
  · rintro ⟨h, h1, h2⟩
    obtain ⟨hd, l1, l2⟩ := meet_line h
    obtain ⟨n1, n2⟩ := det_ne hd
    exact ⟨hd, contains_has l1 n1 h2, contains_has l2 n2 h1⟩

/-- the values among which the least one is searched -/
def Cand (p : K × K) (w0 : Wall K) (ws : List (Wall K)) (m : Option K) (d : K) : Prop := m = some d ∨ ∃ w ∈ ws, ∃ q, Hit w0 w q ∧ d = sq p q

theorem keep_none (d : K) (m : Option K) : keep d m ≠ none := by cases m <;> simp [keep]

theorem distLoop_spec (p : K × K) (w0 : Wall K) (ws : List (Wall K)) (m : Option K) :
    (∀ d, distLoop p w0 ws m = some d → Cand p w0 ws m d) ∧ ∀ d, Cand p w0 ws m d → ∃ d', distLoop p w0 ws m = some d' ∧ d' ≤ d := by
  induction ws generalizing m with
  | nil =>
    refine ⟨fun d h => Or.inl h, fun d h => ?_⟩
    rcases h with h | ⟨w, hw, -⟩
    · exact ⟨d, h, le_rfl⟩
    · cases hw
  | cons w ws ih =>
    have skip : (∀ q, ¬ Hit w0 w q) → distLoop p w0 (w :: ws) m = distLoop p w0 ws m →
        (∀ d, distLoop p w0 (w :: ws) m = some d → Cand p w0 (w :: ws) m d) ∧ ∀ d, Cand p w0 (w :: ws) m d → ∃ d', distLoop p w0 (w :: ws) m = some d' ∧ d' ≤ d := by
      intro hq e
      rw [e]
      obtain ⟨i1, i2⟩ := ih m
      constructor
      · intro d h
        rcases i1 d h with h | ⟨v, hv, h⟩
        · exact Or.inl h
        · exact Or.inr ⟨v, List.mem_cons_of_mem _ hv, h⟩
      · intro d h
        apply i2
        rcases h with h | ⟨v, hv, q, h, h'⟩
        · exact Or.inl h
        · rcases List.mem_cons.mp hv with rfl | hv
          · exact absurd h (hq q)
          · exact Or.inr ⟨v, hv, q, h, h'⟩
    cases hm : meet w0 w with
    | none =>
      refine skip (fun q hq => ?_) (by simp only [distLoop, hm])
      rw [hit_iff, hm] at hq
      cases hq.1
    | some q =>
      by_cases hc : (!w.contains q || !w0.contains q) = true
      · refine skip (fun q' hq => ?_) (by simp only [distLoop, hm]; rw [if_pos hc])
        rw [hit_iff, hm] at hq
        obtain ⟨e, h1, h2⟩ := hq
        cases e
        rw [h1, h2] at hc; cases hc
      · have e : distLoop p w0 (w :: ws) m = distLoop p w0 ws (keep (sq p q) m) := by simp only [distLoop, hm]; rw [if_neg hc]
        have hh : Hit w0 w q := by
          rw [hit_iff]
          simp only [Bool.or_eq_true, Bool.not_eq_true', not_or, Bool.not_eq_false] at hc
          exact ⟨hm, hc⟩
        have only : ∀ q', Hit w0 w q' → q' = q := by
          intro q' h
          rw [hit_iff, hm] at h
          exact (Option.some.inj h.1).symm
        obtain ⟨i1, i2⟩ := ih (keep (sq p q) m)
        rw [e]
        constructor
        · intro d h
          rcases i1 d h with h | ⟨v, hv, h⟩
          · cases m with
            | none => exact Or.inr ⟨w, by simp, q, hh, (Option.some.inj h).symm⟩
            | some m =>
              simp only [keep, Option.some.injEq] at h
              split_ifs at h
              · exact Or.inr ⟨w, by simp, q, hh, h.symm⟩
              · exact Or.inl (by rw [h])
          · exact Or.inr ⟨v, List.mem_cons_of_mem _ hv, h⟩
        · intro d h
          have key : ∃ d0, keep (sq p q) m = some d0 ∧ (m = some d ∨ d = sq p q → d0 ≤ d) := by
            cases m with
            | none => exact ⟨_, rfl, by rintro (h | rfl); cases h; exact le_rfl⟩
            | some m =>
              refine ⟨_, rfl, ?_⟩
              rintro (h | rfl)
              · cases h; split_ifs with hlt; exact hlt.le; exact le_rfl
              · split_ifs with hlt; exact le_rfl; exact not_lt.mp hlt
          obtain ⟨d0, k1, k2⟩ := key
          have first : m = some d ∨ d = sq p q → ∃ d', distLoop p w0 ws (keep (sq p q) m) = some d' ∧ d' ≤ d := by
            intro h
            obtain ⟨d', a1, a2⟩ := i2 d0 (Or.inl k1)
            exact ⟨d', a1, a2.trans (k2 h)⟩
          rcases h with h | ⟨v, hv, q', h, h'⟩
          · exact first (Or.inl h)
          · rcases List.mem_cons.mp hv with rfl | hv
            · rw [only q' h] at h'; exact first (Or.inr h')
            · exact i2 d (Or.inr ⟨v, hv, q', h, h'⟩)

/-- what is computed over bearings: the value and the index of a bearing of the list, or those before, and no value is smaller -/
def ContactOk (walls : List (Wall K)) (p : K × K) (us : List (K × K)) (i : Nat) (m : Option K) (b : Option Nat) (r : Option K × Option Nat) : Prop :=
  (r.1 = m ∧ r.2 = b ∨ ∃ (k : Nat) (u : K × K), us[k]? = some u ∧ r.2 = some (i + k) ∧ r.1 ≠ none ∧ shorterDist walls p u.1 u.2 = r.1) ∧
  ∀ d, m = some d ∨ (∃ u ∈ us, shorterDist walls p u.1 u.2 = some d) → ∃ d', r.1 = some d' ∧ d' ≤ d

theorem contactLoop_spec (walls : List (Wall K)) (p : K × K) (us : List (K × K)) (i : Nat) (m : Option K) (b : Option Nat) :
    ContactOk walls p us i m b (contactLoop walls p us i m b) := by
  induction us generalizing i m b with
  | nil =>
    refine ⟨Or.inl ⟨rfl, rfl⟩, ?_⟩
    rintro d (h | ⟨u, hu, -⟩)
    · exact ⟨d, h, le_rfl⟩
    · cases hu
  | cons u us ih =>
    have same : (∀ d, shorterDist walls p u.1 u.2 = some d → ∃ d', m = some d' ∧ d' ≤ d) → ContactOk walls p (u :: us) i m b (contactLoop walls p us (i + 1) m b) := by
      intro hu
      obtain ⟨i1, i2⟩ := ih (i + 1) m b
      constructor
      · rcases i1 with i1 | ⟨k, u', a1, a2, a3⟩
        · exact Or.inl i1
        · exact Or.inr ⟨k + 1, u', by simpa using a1, by rw [a2]; congr 1; omega, a3⟩
      · rintro d (h | ⟨u', hu', h⟩)
        · exact i2 d (Or.inl h)
        · rcases List.mem_cons.mp hu' with rfl | hu'
          · obtain ⟨d', h1, h2⟩ := hu d h
            obtain ⟨d2, h3, h4⟩ := i2 d' (Or.inl h1)
            exact ⟨d2, h3, h4.trans h2⟩
          · exact i2 d (Or.inr ⟨u', hu', h⟩)
    have taken : ∀ d, shorterDist walls p u.1 u.2 = some d → (∀ m', m = some m' → d < m') →
        ContactOk walls p (u :: us) i m b (contactLoop walls p us (i + 1) (some d) (some i)) := by
      intro d hd hm
      obtain ⟨i1, i2⟩ := ih (i + 1) (some d) (some i)
      constructor
      · right
        rcases i1 with ⟨a1, a2⟩ | ⟨k, u', a1, a2, a3⟩
        · exact ⟨0, u, rfl, a2, by rw [a1]; simp, by rw [a1]; exact hd⟩
        · exact ⟨k + 1, u', by simpa using a1, by rw [a2]; congr 1; omega, a3⟩
      · rintro d1 (h | ⟨u', hu', h⟩)
        · obtain ⟨d2, h3, h4⟩ := i2 d (Or.inl rfl)
          exact ⟨d2, h3, h4.trans (hm d1 h).le⟩
        · rcases List.mem_cons.mp hu' with rfl | hu'
          · rw [hd] at h; cases h
            exact i2 d (Or.inl rfl)
          · exact i2 d1 (Or.inr ⟨u', hu', h⟩)
    cases hd : shorterDist walls p u.1 u.2 with
    | none =>
      rw [show contactLoop walls p (u :: us) i m b = contactLoop walls p us (i + 1) m b by simp only [contactLoop, hd]]
      exact same (by intro d h; rw [hd] at h; cases h)
    | some d =>
      cases m with
      | none =>
        rw [show contactLoop walls p (u :: us) i none b = contactLoop walls p us (i + 1) (some d) (some i) by simp only [contactLoop, hd]]
        exact taken d hd (by intro m' h; cases h)
      | some m' =>
        by_cases hlt : d < m'
        · rw [show contactLoop walls p (u :: us) i (some m') b = contactLoop walls p us (i + 1) (some d) (some i) by simp only [contactLoop, hd]; rw [if_pos hlt]]
          exact taken d hd (by intro m2 h; cases h; exact hlt)
        · rw [show contactLoop walls p (u :: us) i (some m') b = contactLoop walls p us (i + 1) (some m') b by simp only [contactLoop, hd]; rw [if_neg hlt]]
          exact same (by intro d' h; rw [hd] at h; cases h; exact ⟨m', rfl, not_lt.mp hlt⟩)

end Codac.Walls
