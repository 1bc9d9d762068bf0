import Verif.Image.Raster
import Mathlib.Algebra.BigOperators.Intervals
import Mathlib.Algebra.Order.BigOperators.Group.Finset
import Mathlib.Tactic.Linarith

/-!
# Lemmas on the contractor of an image
-/

set_option linter.unusedSectionVars false

namespace Codac.Raster
open Finset

/-! ## counting -/

/-- one for a pixel of value 1 -/
def bit (px : Nat → Nat → Bool) (i j : Nat) : Int := if px i j then 1 else 0

/-- number of pixels of value 1 among the first `a` columns and the first `b` rows -/
def corner (px : Nat → Nat → Bool) (a b : Nat) : Int := ∑ i ∈ range a, ∑ j ∈ range b, bit px i j

/-- number of pixels of value 1 in the rectangle -/
def ones (px : Nat → Nat → Bool) (r : Rect) : Int := ∑ i ∈ Ico r.x0 (r.x1 + 1), ∑ j ∈ Ico r.y0 (r.y1 + 1), bit px i j

/-- the table is the summed area table of the image -/
def Summed (t : Nat → Nat → Nat) (px : Nat → Nat → Bool) (w h : Nat) : Prop :=
  ∀ x y, x < w → y < h → (t x y : Int) = corner px (x + 1) (y + 1)

/-- the rectangle is in the image and is not empty -/
def Fits (r : Rect) (w h : Nat) : Prop := r.x0 ≤ r.x1 ∧ r.x1 < w ∧ r.y0 ≤ r.y1 ∧ r.y1 < h

theorem bit_nonneg (px : Nat → Nat → Bool) (i j : Nat) : 0 ≤ bit px i j := by unfold bit; split <;> decide
theorem bit_le (px : Nat → Nat → Bool) (i j : Nat) : bit px i j ≤ 1 := by unfold bit; split <;> decide

theorem ones_corner (px : Nat → Nat → Bool) (r : Rect) (hx : r.x0 ≤ r.x1) (hy : r.y0 ≤ r.y1) :
    ones px r = corner px (r.x1 + 1) (r.y1 + 1) - corner px (r.x1 + 1) r.y0 - corner px r.x0 (r.y1 + 1) + corner px r.x0 r.y0 := by
  unfold ones corner
  have e : ∀ i, ∑ j ∈ Ico r.y0 (r.y1 + 1), bit px i j = ∑ j ∈ range (r.y1 + 1), bit px i j - ∑ j ∈ range r.y0, bit px i j :=
    fun i => sum_Ico_eq_sub _ (by omega)
  simp only [e]
  rw [sum_sub_distrib, sum_Ico_eq_sub _ (by omega : r.x0 ≤ r.x1 + 1), sum_Ico_eq_sub _ (by omega : r.x0 ≤ r.x1 + 1)]
  ring

theorem corner_zero_left (px : Nat → Nat → Bool) (b : Nat) : corner px 0 b = 0 := by simp [corner]
theorem corner_zero_right (px : Nat → Nat → Bool) (a : Nat) : corner px a 0 = 0 := by simp [corner]

theorem ones_nonneg (px : Nat → Nat → Bool) (r : Rect) : 0 ≤ ones px r :=
  sum_nonneg fun i _ => sum_nonneg fun j _ => bit_nonneg px i j

theorem ones_le (px : Nat → Nat → Bool) (r : Rect) : ones px r ≤ ((r.x1 + 1 - r.x0 : Nat) : Int) * ((r.y1 + 1 - r.y0 : Nat) : Int) := by
  unfold ones
  have h1 : ∀ i ∈ Ico r.x0 (r.x1 + 1), ∑ j ∈ Ico r.y0 (r.y1 + 1), bit px i j ≤ ((r.y1 + 1 - r.y0 : Nat) : Int) := by
    intro i _
    refine le_trans (sum_le_sum (fun j _ => bit_le px i j)) ?_
    simp
  refine le_trans (sum_le_sum h1) ?_
  simp

/-- what the four corners of the table give -/
theorem enclosed_eq {t : Nat → Nat → Nat} {px : Nat → Nat → Bool} {w h : Nat} (ht : Summed t px w h) {r : Rect} (hr : Fits r w h) :
    enclosed t r = ones px r % 2 ^ 64 := by
  obtain ⟨h1, h2, h3, h4⟩ := hr
  unfold enclosed
  have e1 : (pixelAt t (some r.x1) (some r.y1) : Int) = corner px (r.x1 + 1) (r.y1 + 1) := ht _ _ h2 h4
  have e2 : (pixelAt t (some r.x1) (pred' r.y0) : Int) = corner px (r.x1 + 1) r.y0 := by
    rcases hy : r.y0 with _ | k
    · simp [pred', pixelAt, corner_zero_right]
    · exact ht _ _ h2 (by omega)
  have e3 : (pixelAt t (pred' r.x0) (some r.y1) : Int) = corner px r.x0 (r.y1 + 1) := by
    rcases hx : r.x0 with _ | k
    · simp [pred', pixelAt, corner_zero_left]
    · exact ht _ _ (by omega) h4
  have e4 : (pixelAt t (pred' r.x0) (pred' r.y0) : Int) = corner px r.x0 r.y0 := by
    rcases hx : r.x0 with _ | k
    · simp [pred', pixelAt, corner_zero_left]
    · rcases hy : r.y0 with _ | l
      · simp [pred', pixelAt, corner_zero_right]
      · exact ht _ _ (by omega) (by omega)
  rw [e1, e2, e3, e4, ← ones_corner px r h1 h3]

theorem ones_le_image {px : Nat → Nat → Bool} {w h : Nat} {r : Rect} (hr : Fits r w h) : ones px r ≤ (w : Int) * h := by
  obtain ⟨h1, h2, h3, h4⟩ := hr
  refine le_trans (ones_le px r) ?_
  have a1 : ((r.x1 + 1 - r.x0 : Nat) : Int) ≤ w := by exact_mod_cast (by omega : r.x1 + 1 - r.x0 ≤ w)
  have a2 : ((r.y1 + 1 - r.y0 : Nat) : Int) ≤ h := by exact_mod_cast (by omega : r.y1 + 1 - r.y0 ≤ h)
  exact mul_le_mul a1 a2 (by positivity) (by positivity)

/-- the count is right when the image has less than `2^31` pixels -/
theorem count_eq {t : Nat → Nat → Nat} {px : Nat → Nat → Bool} {w h : Nat} (ht : Summed t px w h) (hwh : w * h < 2 ^ 31) {r : Rect} (hr : Fits r w h) :
    count t r = ones px r := by
  have h0 := ones_nonneg px r
  have h1 := ones_le_image (px := px) hr
  have h2 : (w : Int) * h < 2 ^ 31 := by exact_mod_cast hwh
  unfold count
  rw [enclosed_eq ht hr]
  unfold toInt
  norm_num at h2 ⊢
  omega

/-- a pixel of value 1 in the rectangle -/
def Has (px : Nat → Nat → Bool) (r : Rect) : Prop :=
  ∃ i j, (r.x0 ≤ i ∧ i ≤ r.x1) ∧ (r.y0 ≤ j ∧ j ≤ r.y1) ∧ px i j = true

theorem ones_pos {px : Nat → Nat → Bool} {r : Rect} : 0 < ones px r ↔ Has px r := by
  constructor
  · intro h
    by_contra hn
    have : ones px r = 0 := by
      unfold ones
      refine sum_eq_zero fun i hi => sum_eq_zero fun j hj => ?_
      rw [mem_Ico] at hi hj
      unfold bit
      rw [if_neg]
      intro hp
      exact hn ⟨i, j, ⟨hi.1, by omega⟩, ⟨hj.1, by omega⟩, hp⟩
    omega
  · rintro ⟨i, j, hi, hj, hp⟩
    unfold ones
    have mi : i ∈ Ico r.x0 (r.x1 + 1) := by rw [mem_Ico]; omega
    have mj : j ∈ Ico r.y0 (r.y1 + 1) := by rw [mem_Ico]; omega
    have h1 : bit px i j ≤ ∑ j ∈ Ico r.y0 (r.y1 + 1), bit px i j := single_le_sum (f := fun j => bit px i j) (fun j _ => bit_nonneg px i j) mj
    have h2 : ∑ j ∈ Ico r.y0 (r.y1 + 1), bit px i j ≤ ∑ i ∈ Ico r.x0 (r.x1 + 1), ∑ j ∈ Ico r.y0 (r.y1 + 1), bit px i j :=
      single_le_sum (f := fun i => ∑ j ∈ Ico r.y0 (r.y1 + 1), bit px i j) (fun i _ => sum_nonneg fun j _ => bit_nonneg px i j) mi
    have : bit px i j = 1 := by unfold bit; rw [if_pos hp]
    omega

/-! ## the loops -/

theorem scanUp_go {p : Nat → Bool} {q : Nat → Prop} {lo hi : Nat} (h : ∀ i, lo ≤ i → i ≤ hi → (p i = true ↔ ∃ k, lo ≤ k ∧ k ≤ i ∧ q k))
    (hq : ∃ k, lo ≤ k ∧ k ≤ hi ∧ q k) :
    ∀ n i, lo ≤ i → i + n = hi → (∀ k, lo ≤ k → k < i → ¬ q k) →
      i ≤ scanUp p n i ∧ scanUp p n i ≤ hi ∧ q (scanUp p n i) ∧ ∀ k, lo ≤ k → k ≤ hi → q k → scanUp p n i ≤ k := by
  intro n
  induction n with
  | zero =>
    intro i h1 h2 h3
    obtain ⟨k, k1, k2, k3⟩ := hq
    have hki : k = i := by
      by_contra hne
      exact h3 k k1 (by omega) k3
    subst hki
    refine ⟨le_refl _, by simp only [scanUp]; omega, k3, ?_⟩
    intro k' k1' _ k3'
    simp only [scanUp]
    by_contra hlt
    exact h3 k' k1' (by omega) k3'
  | succ n ih =>
    intro i h1 h2 h3
    simp only [scanUp]
    by_cases hp : p i = true
    · rw [if_pos hp]
      obtain ⟨k, k1, k2, k3⟩ := (h i h1 (by omega)).mp hp
      have hki : k = i := by
        by_contra hne
        exact h3 k k1 (by omega) k3
      subst hki
      refine ⟨le_refl _, by omega, k3, ?_⟩
      intro k' k1' _ k3'
      by_contra hlt
      exact h3 k' k1' (by omega) k3'
    · rw [if_neg hp]
      have h3' : ∀ k, lo ≤ k → k < i + 1 → ¬ q k := by
        intro k k1 k2 k3
        exact hp ((h i h1 (by omega)).mpr ⟨k, k1, by omega, k3⟩)
      obtain ⟨a, b, c, d⟩ := ih (i + 1) (by omega) (by omega) h3'
      exact ⟨by omega, b, c, d⟩

/-- the loop upwards stops at the first index which has the property -/
theorem scanUp_first {p : Nat → Bool} {q : Nat → Prop} {lo hi : Nat} (h : ∀ i, lo ≤ i → i ≤ hi → (p i = true ↔ ∃ k, lo ≤ k ∧ k ≤ i ∧ q k))
    (hq : ∃ k, lo ≤ k ∧ k ≤ hi ∧ q k) :
    lo ≤ scanUp p (hi - lo) lo ∧ scanUp p (hi - lo) lo ≤ hi ∧ q (scanUp p (hi - lo) lo) ∧ ∀ k, lo ≤ k → k ≤ hi → q k → scanUp p (hi - lo) lo ≤ k := by
  have hlh : lo ≤ hi := by obtain ⟨k, k1, k2, _⟩ := hq; omega
  exact scanUp_go h hq (hi - lo) lo (le_refl _) (by omega) (by intro k k1 k2; omega)

theorem scanDown_go {p : Nat → Bool} {q : Nat → Prop} {lo hi : Nat} (h : ∀ i, lo ≤ i → i ≤ hi → (p i = true ↔ ∃ k, i ≤ k ∧ k ≤ hi ∧ q k))
    (hq : ∃ k, lo ≤ k ∧ k ≤ hi ∧ q k) :
    ∀ n i, i ≤ hi → lo + n = i → (∀ k, i < k → k ≤ hi → ¬ q k) →
      lo ≤ scanDown p n i ∧ scanDown p n i ≤ i ∧ q (scanDown p n i) ∧ ∀ k, lo ≤ k → k ≤ hi → q k → k ≤ scanDown p n i := by
  intro n
  induction n with
  | zero =>
    intro i h1 h2 h3
    obtain ⟨k, k1, k2, k3⟩ := hq
    have hki : k = i := by
      by_contra hne
      exact h3 k (by omega) k2 k3
    subst hki
    refine ⟨by simp only [scanDown]; omega, le_refl _, k3, ?_⟩
    intro k' _ k2' k3'
    simp only [scanDown]
    by_contra hlt
    exact h3 k' (by omega) k2' k3'
  | succ n ih =>
    intro i h1 h2 h3
    simp only [scanDown]
    by_cases hp : p i = true
    · rw [if_pos hp]
      obtain ⟨k, k1, k2, k3⟩ := (h i (by omega) h1).mp hp
      have hki : k = i := by
        by_contra hne
        exact h3 k (by omega) k2 k3
      subst hki
      refine ⟨by omega, le_refl _, k3, ?_⟩
      intro k' _ k2' k3'
      by_contra hlt
      exact h3 k' (by omega) k2' k3'
    · rw [if_neg hp]
      have h3' : ∀ k, i - 1 < k → k ≤ hi → ¬ q k := by
        intro k k1 k2 k3
        exact hp ((h i (by omega) h1).mpr ⟨k, by omega, k2, k3⟩)
      obtain ⟨a, b, c, d⟩ := ih (i - 1) (by omega) (by omega) h3'
      exact ⟨a, by omega, c, d⟩

/-- the loop downwards stops at the last index which has the property -/
theorem scanDown_last {p : Nat → Bool} {q : Nat → Prop} {lo hi : Nat} (h : ∀ i, lo ≤ i → i ≤ hi → (p i = true ↔ ∃ k, i ≤ k ∧ k ≤ hi ∧ q k))
    (hq : ∃ k, lo ≤ k ∧ k ≤ hi ∧ q k) :
    lo ≤ scanDown p (hi - lo) hi ∧ scanDown p (hi - lo) hi ≤ hi ∧ q (scanDown p (hi - lo) hi) ∧
      ∀ k, lo ≤ k → k ≤ hi → q k → k ≤ scanDown p (hi - lo) hi := by
  have hlh : lo ≤ hi := by obtain ⟨k, k1, k2, _⟩ := hq; omega
  exact scanDown_go h hq (hi - lo) hi (le_refl _) (by omega) (by intro k k1 k2; omega)

/-- the smaller rectangle: inside the first one, with all its pixels of value 1, and one on each side -/
structure Tight (px : Nat → Nat → Bool) (r s : Rect) : Prop where
  le : r.x0 ≤ s.x0 ∧ s.x0 ≤ s.x1 ∧ s.x1 ≤ r.x1 ∧ r.y0 ≤ s.y0 ∧ s.y0 ≤ s.y1 ∧ s.y1 ≤ r.y1
  all : ∀ i j, r.x0 ≤ i → i ≤ r.x1 → r.y0 ≤ j → j ≤ r.y1 → px i j = true → (s.x0 ≤ i ∧ i ≤ s.x1) ∧ s.y0 ≤ j ∧ j ≤ s.y1
  left : ∃ j, r.y0 ≤ j ∧ j ≤ r.y1 ∧ px s.x0 j = true
  right : ∃ j, r.y0 ≤ j ∧ j ≤ r.y1 ∧ px s.x1 j = true
  bottom : ∃ i, r.x0 ≤ i ∧ i ≤ r.x1 ∧ px i s.y0 = true
  top : ∃ i, r.x0 ≤ i ∧ i ≤ r.x1 ∧ px i s.y1 = true

theorem contractDim_tight {t : Nat → Nat → Nat} {px : Nat → Nat → Bool} {w h : Nat} (ht : Summed t px w h) (hwh : w * h < 2 ^ 31) {r : Rect}
    (hr : Fits r w h) (hp : Has px r) : Tight px r (contractDim t r) := by
  obtain ⟨r1, r2, r3, r4⟩ := hr
  obtain ⟨i0, j0, hi0, hj0, hp0⟩ := hp
  have pos : ∀ s : Rect, Fits s w h → ((0 < count t s) ↔ Has px s) := fun s hs => by rw [count_eq ht hwh hs]; exact ones_pos
  -- first column
  have A := scanUp_first (p := fun i => decide (0 < count t { r with x1 := i })) (q := fun i => ∃ j, (r.y0 ≤ j ∧ j ≤ r.y1) ∧ px i j = true)
    (lo := r.x0) (hi := r.x1)
    (by
      intro i i1 i2
      rw [decide_eq_true_eq, pos { r with x1 := i } ⟨i1, by simp only; omega, r3, r4⟩]
      constructor
      · rintro ⟨k, j, hk, hj, e⟩; exact ⟨k, hk.1, hk.2, j, hj, e⟩
      · rintro ⟨k, k1, k2, j, hj, e⟩; exact ⟨k, j, ⟨k1, k2⟩, hj, e⟩)
    ⟨i0, hi0.1, hi0.2, j0, hj0, hp0⟩
  have ea : (contractDim t r).x0 = scanUp (fun i => decide (0 < count t { r with x1 := i })) (r.x1 - r.x0) r.x0 := rfl
  rw [← ea] at A
  obtain ⟨a1, a2, a3, a4⟩ := A
  -- last column
  have B := scanDown_last (p := fun i => decide (0 < count t { r with x0 := i })) (q := fun i => ∃ j, (r.y0 ≤ j ∧ j ≤ r.y1) ∧ px i j = true)
    (lo := (contractDim t r).x0) (hi := r.x1)
    (by
      intro i i1 i2
      rw [decide_eq_true_eq, pos { r with x0 := i } ⟨i2, r2, r3, r4⟩]
      constructor
      · rintro ⟨k, j, hk, hj, e⟩; exact ⟨k, hk.1, hk.2, j, hj, e⟩
      · rintro ⟨k, k1, k2, j, hj, e⟩; exact ⟨k, j, ⟨k1, k2⟩, hj, e⟩)
    ⟨i0, a4 i0 hi0.1 hi0.2 ⟨j0, hj0, hp0⟩, hi0.2, j0, hj0, hp0⟩
  have eb : (contractDim t r).x1 = scanDown (fun i => decide (0 < count t { r with x0 := i })) (r.x1 - (contractDim t r).x0) r.x1 := rfl
  rw [← eb] at B
  obtain ⟨b1, b2, b3, b4⟩ := B
  generalize hX0 : (contractDim t r).x0 = X0 at *
  generalize hX1 : (contractDim t r).x1 = X1 at *
  have inX : ∀ i j, r.x0 ≤ i → i ≤ r.x1 → r.y0 ≤ j → j ≤ r.y1 → px i j = true → X0 ≤ i ∧ i ≤ X1 := by
    intro i j h1 h2 h3 h4 h5
    have h6 := a4 i h1 h2 ⟨j, ⟨h3, h4⟩, h5⟩
    exact ⟨h6, b4 i h6 h2 ⟨j, ⟨h3, h4⟩, h5⟩⟩
  have i0X := inX i0 j0 hi0.1 hi0.2 hj0.1 hj0.2 hp0
  -- first row
  have C := scanUp_first (p := fun j => decide (0 < count t ⟨X0, X1, r.y0, j⟩)) (q := fun j => ∃ i, (X0 ≤ i ∧ i ≤ X1) ∧ px i j = true)
    (lo := r.y0) (hi := r.y1)
    (by
      intro j j1 j2
      rw [decide_eq_true_eq, pos ⟨X0, X1, r.y0, j⟩ ⟨b1, by simp only; omega, j1, by simp only; omega⟩]
      constructor
      · rintro ⟨i, k, hi, hk, e⟩; exact ⟨k, hk.1, hk.2, i, hi, e⟩
      · rintro ⟨k, k1, k2, i, hi, e⟩; exact ⟨i, k, hi, ⟨k1, k2⟩, e⟩)
    ⟨j0, hj0.1, hj0.2, i0, i0X, hp0⟩
  have ec : (contractDim t r).y0 = scanUp (fun j => decide (0 < count t ⟨X0, X1, r.y0, j⟩)) (r.y1 - r.y0) r.y0 := by
    rw [← hX0, ← hX1]; rfl
  rw [← ec] at C
  obtain ⟨c1, c2, c3, c4⟩ := C
  generalize hY0 : (contractDim t r).y0 = Y0 at *
  have D := scanDown_last (p := fun j => decide (0 < count t ⟨X0, X1, j, r.y1⟩)) (q := fun j => ∃ i, (X0 ≤ i ∧ i ≤ X1) ∧ px i j = true)
    (lo := Y0) (hi := r.y1)
    (by
      intro j j1 j2
      rw [decide_eq_true_eq, pos ⟨X0, X1, j, r.y1⟩ ⟨b1, by simp only; omega, j2, r4⟩]
      constructor
      · rintro ⟨i, k, hi, hk, e⟩; exact ⟨k, hk.1, hk.2, i, hi, e⟩
      · rintro ⟨k, k1, k2, i, hi, e⟩; exact ⟨i, k, hi, ⟨k1, k2⟩, e⟩)
    ⟨j0, c4 j0 hj0.1 hj0.2 ⟨i0, i0X, hp0⟩, hj0.2, i0, i0X, hp0⟩
  have ed : (contractDim t r).y1 = scanDown (fun j => decide (0 < count t ⟨X0, X1, j, r.y1⟩)) (r.y1 - Y0) r.y1 := by
    rw [← hX0, ← hX1, ← hY0]; rfl
  rw [← ed] at D
  obtain ⟨d1, d2, d3, d4⟩ := D
  obtain ⟨j1, hj1, e1⟩ := a3
  obtain ⟨j2, hj2, e2⟩ := b3
  obtain ⟨i1, hi1, e3⟩ := c3
  obtain ⟨i2, hi2, e4⟩ := d3
  refine ⟨?_, ?_, ?_, ?_, ?_, ?_⟩
  · rw [hX0, hX1, hY0]; exact ⟨a1, b1, b2, c1, d1, d2⟩
  · intro i j h1 h2 h3 h4 h5
    have h6 := inX i j h1 h2 h3 h4 h5
    have h7 := c4 j h3 h4 ⟨i, h6, h5⟩
    rw [hX0, hX1, hY0]
    exact ⟨h6, h7, d4 j h7 h4 ⟨i, h6, h5⟩⟩
  · rw [hX0]; exact ⟨j1, hj1.1, hj1.2, e1⟩
  · rw [hX1]; exact ⟨j2, hj2.1, hj2.2, e2⟩
  · rw [hY0]; exact ⟨i1, by omega, by omega, e3⟩
  · exact ⟨i2, by omega, by omega, e4⟩

/-! ## between the plane and the pixels -/

section
variable {K : Type*} [Field K] [LinearOrder K] [IsStrictOrderedRing K] [FloorRing K]

/-- `x` is in the cell `k` of the axis -/
def InCell (a : Axis K) (k : Nat) (x : K) : Prop := ∃ s : K, 0 ≤ s ∧ s ≤ 1 ∧ x = a.o + (k + s) * a.leaf

theorem pixels_some {J : Itv K} {n : Nat} {c : Nat × Nat} (h : pixels (J ⊓ .icc 0 ((n : K) - 1)) = some c) :
    (c.1 ≤ c.2 ∧ c.2 < n) ∧
    (∀ k : Nat, (k : K) ∈ J → k < n → (c.1 ≤ k ∧ k ≤ c.2) ∧ ∀ l : Nat, c.1 ≤ l → l ≤ c.2 → (l : K) ∈ J) := by
  generalize hI : J ⊓ .icc 0 ((n : K) - 1) = I at h
  have hm : ∀ x, x ∈ I ↔ x ∈ J ∧ 0 ≤ x ∧ x ≤ (n : K) - 1 := by
    intro x; rw [← hI, Itv.mem_inf, Itv.mem_icc]
  cases I with
  | empty => simp [pixels] at h
  | mk lo hi p =>
    rcases lo with _ | a
    · simp [pixels] at h
    rcases hi with _ | b
    · simp [pixels] at h
    have hab : a ≤ b := p
    obtain ⟨aJ, a0, a1⟩ := (hm a).mp ⟨le_refl a, hab⟩
    obtain ⟨bJ, b0, b1⟩ := (hm b).mp ⟨hab, le_refl b⟩
    have ca : ⌈a⌉ ≤ (n : ℤ) - 1 := Int.ceil_le.mpr (by push_cast; exact a1)
    have cb : ⌊b⌋ ≤ (n : ℤ) - 1 := by
      have := (Int.floor_le b).trans b1
      exact_mod_cast this
    have ca0 : 0 ≤ ⌈a⌉ := Int.ceil_nonneg a0
    have cb0 : 0 ≤ ⌊b⌋ := Int.floor_nonneg.mpr b0
    simp only [pixels] at h
    constructor
    · split at h <;> (simp only [Option.some.injEq] at h; subst h; simp only; omega)
    · intro k kJ kn
      have hkI : (k : K) ∈ Itv.mk (some a) (some b) p := (hm k).mpr ⟨kJ, by positivity, by
        have : (k : K) + 1 ≤ n := by exact_mod_cast kn
        linarith⟩
      have h1 : ⌈a⌉ ≤ (k : ℤ) := Int.ceil_le.mpr (by push_cast; exact hkI.1)
      have h2 : (k : ℤ) ≤ ⌊b⌋ := Int.le_floor.mpr (by push_cast; exact hkI.2)
      rw [if_neg (by omega)] at h
      simp only [Option.some.injEq] at h
      subst h
      simp only
      refine ⟨by omega, ?_⟩
      intro l l1 l2
      have h3 : ⌈a⌉ ≤ (l : ℤ) := by omega
      have h4 : (l : ℤ) ≤ ⌊b⌋ := by omega
      have h5 : a ≤ (l : K) := by have := Int.ceil_le.mp h3; push_cast at this; exact this
      have h6 : (l : K) ≤ b := by have := Int.le_floor.mp h4; push_cast at this; exact this
      exact ((hm l).mp ⟨h5, h6⟩).1

theorem pixels_total {J : Itv K} {n k : Nat} (hk : (k : K) ∈ J) (hn : k < n) : ∃ c, pixels (J ⊓ .icc 0 ((n : K) - 1)) = some c := by
  have hkI : (k : K) ∈ J ⊓ .icc 0 ((n : K) - 1) := by
    rw [Itv.mem_inf, Itv.mem_icc]
    have : (k : K) + 1 ≤ n := by exact_mod_cast hn
    exact ⟨hk, by positivity, by linarith⟩
  generalize hI : J ⊓ .icc 0 ((n : K) - 1) = I at hkI
  have hm : ∀ x, x ∈ I ↔ x ∈ J ∧ 0 ≤ x ∧ x ≤ (n : K) - 1 := by
    intro x; rw [← hI, Itv.mem_inf, Itv.mem_icc]
  cases I with
  | empty => exact absurd hkI (Itv.not_mem_empty _)
  | mk lo hi p =>
    rcases lo with _ | a
    · exfalso
      have h1 : (-1 : K) ∈ Itv.mk none hi p := by
        refine ⟨trivial, ?_⟩
        have hk2 := hkI.2
        cases hi with
        | none => trivial
        | some b => simp only [leHi_some] at hk2 ⊢; linarith [(by positivity : (0 : K) ≤ k)]
      have := ((hm _).mp h1).2.1
      linarith
    rcases hi with _ | b
    · exfalso
      have h1 : max a n ∈ Itv.mk (some a) none p := ⟨le_max_left _ _, trivial⟩
      have := ((hm _).mp h1).2.2
      linarith [le_max_right a (n : K)]
    simp only [pixels]
    split <;> exact ⟨_, rfl⟩

/-- a cell which meets the interval gives an index of the difference -/
theorem cell_mem (O : Ops K) {a : Axis K} (hl : a.leaf ≠ 0) {X : Itv K} {k : Nat} {x : K} (hx : x ∈ X) (hc : InCell a k x) :
    (k : K) ∈ O.A.sub (O.div (O.A.sub X (.point a.o)) a.leaf) (.icc 0 1) := by
  obtain ⟨s, s0, s1, rfl⟩ := hc
  have h1 := O.div_mem (O.A.sub_mem hx (Itv.mem_point.mpr rfl : a.o ∈ Itv.point a.o)) hl
  have e : (a.o + (k + s) * a.leaf - a.o) / a.leaf = k + s := by rw [add_sub_cancel_left, mul_div_assoc, div_self hl, mul_one]
  rw [e] at h1
  have h2 := O.A.sub_mem h1 (Itv.mem_icc.mpr ⟨s0, s1⟩ : s ∈ Itv.icc 0 1)
  rwa [add_sub_cancel_right] at h2

theorem eps_mem {a : Axis K} {s : K} (s0 : 0 ≤ s) (s1 : s ≤ 1) : s * a.leaf ∈ eps a := by
  change min 0 a.leaf ≤ s * a.leaf ∧ s * a.leaf ≤ max 0 a.leaf
  rcases le_total 0 a.leaf with h | h
  · rw [min_eq_left h, max_eq_right h]
    exact ⟨mul_nonneg s0 h, by nlinarith⟩
  · rw [min_eq_right h, max_eq_left h]
    exact ⟨by nlinarith, mul_nonpos_of_nonneg_of_nonpos s0 h⟩

/-- the same for the copy of the class in `src/unsupported` -/
theorem cell_memC (O : Ops K) {a : Axis K} (hl : a.leaf ≠ 0) {X : Itv K} {k : Nat} {x : K} (hx : x ∈ X) (hc : InCell a k x) :
    (k : K) ∈ O.div (O.A.sub (O.A.sub X (.point a.o)) (eps a)) a.leaf := by
  obtain ⟨s, s0, s1, rfl⟩ := hc
  have h1 := O.div_mem (O.A.sub_mem (O.A.sub_mem hx (Itv.mem_point.mpr rfl : a.o ∈ Itv.point a.o)) (eps_mem (a := a) s0 s1)) hl
  have e : (a.o + (k + s) * a.leaf - a.o - s * a.leaf) / a.leaf = k := by
    rw [show a.o + (k + s) * a.leaf - a.o - s * a.leaf = k * a.leaf by ring, mul_div_assoc, div_self hl, mul_one]
  rwa [e] at h1

/-- the box of a range of cells contains the cells -/
theorem toWorld_mem (O : Ops K) {a : Axis K} {c : Nat × Nat} {k : Nat} {x : K} (h1 : c.1 ≤ k) (h2 : k ≤ c.2) (hc : InCell a k x) : x ∈ toWorld O a c := by
  obtain ⟨s, s0, s1, rfl⟩ := hc
  have m1 : (k : K) ∈ Itv.icc (c.1 : K) (c.2 : K) := Itv.mem_icc.mpr ⟨by exact_mod_cast h1, by exact_mod_cast h2⟩
  have := O.A.add_mem (O.A.add_mem (O.A.mul_mem m1 (Itv.mem_point.mpr rfl : a.leaf ∈ Itv.point a.leaf))
    (Itv.mem_point.mpr rfl : a.o ∈ Itv.point a.o)) (eps_mem (a := a) s0 s1)
  rwa [show (k : K) * a.leaf + a.o + s * a.leaf = a.o + (k + s) * a.leaf by ring] at this

theorem imageBox_le (O : Ops K) (a : Axis K) : toWorld O a (0, a.n - 1) ≤ mapperBox O a := by
  unfold mapperBox toWorld
  refine O.A.add_mono (O.A.add_mono (O.A.mul_mono ?_ (le_refl _)) (le_refl _)) (le_refl _)
  refine Itv.icc_le ?_ ?_ <;> rw [Itv.mem_icc] <;> simp only
  · exact ⟨le_refl _, by push_cast; positivity⟩
  · exact ⟨by push_cast; positivity, by exact_mod_cast Nat.sub_le _ _⟩

/-! ## boxes -/

/-- a point of the plane is in the box -/
def In2 (X : B2 K) (x y : K) : Prop := x ∈ X.p ∧ y ∈ X.q

theorem itv_isEmpty_false {X : Itv K} {x : K} (h : x ∈ X) : X.isEmpty = false := by
  cases X with
  | empty => exact absurd h (Itv.not_mem_empty _)
  | mk => rfl

theorem in2_not_empty {X : B2 K} {x y : K} (h : In2 X x y) : X.isEmpty = false := by
  simp [B2.isEmpty, itv_isEmpty_false h.1, itv_isEmpty_false h.2]

theorem isEmpty_eq {X : Itv K} (h : X.isEmpty = true) : X = .empty := by
  cases X with
  | empty => rfl
  | mk => cases h

theorem in2_inter {X Y : B2 K} {x y : K} : In2 (X.inter Y) x y ↔ In2 X x y ∧ In2 Y x y := by
  unfold B2.inter
  split
  · rename_i h
    constructor
    · intro h'; exact absurd h'.1 (Itv.not_mem_empty _)
    · rintro ⟨⟨a, b⟩, c, d⟩
      rw [Bool.or_eq_true] at h
      rcases h with h | h
      · have := Itv.mem_inf.mpr ⟨a, c⟩; rw [isEmpty_eq h] at this; exact absurd this (Itv.not_mem_empty _)
      · have := Itv.mem_inf.mpr ⟨b, d⟩; rw [isEmpty_eq h] at this; exact absurd this (Itv.not_mem_empty _)
  · unfold In2
    simp only [Itv.mem_inf]
    tauto

theorem inter_subset {X Y Z : B2 K} (h1 : Y.p ≤ Z.p) (h2 : Y.q ≤ Z.q) : (X.inter Y).subset Z = true := by
  unfold B2.inter B2.subset
  split
  · simp [B2.isEmpty, Itv.isEmpty]
  · rw [Bool.or_eq_true]; right
    simp only [Bool.and_eq_true, decide_eq_true_eq]
    exact ⟨le_trans inf_le_right h1, le_trans inf_le_right h2⟩

/-- the two indices of a point of the image -/
def InPixel (m : Img K) (i j : Nat) (x y : K) : Prop := i < m.ax.n ∧ j < m.ay.n ∧ InCell m.ax i x ∧ InCell m.ay j y

/-- what the conversion to pixels gives -/
theorem worldToGrid_fits {O : Ops K} {m : Img K} {X : B2 K} {r : Rect} (h : worldToGrid O m X = some r) : Fits r m.ax.n m.ay.n := by
  unfold worldToGrid at h
  split at h
  · cases h
  · split at h
    · rename_i a b ha hb
      simp only [Option.some.injEq] at h
      subst h
      have h1 := (pixels_some ha).1
      have h2 := (pixels_some hb).1
      exact ⟨h1.1, h1.2, h2.1, h2.2⟩
    · cases h

theorem worldToGrid_total {O : Ops K} {m : Img K} {X : B2 K} {x y : K} {i j : Nat} (hx : m.ax.leaf ≠ 0) (hy : m.ay.leaf ≠ 0)
    (hsub : X.subset ⟨mapperBox O m.ax, mapperBox O m.ay⟩ = true) (hin : In2 X x y) (hp : InPixel m i j x y) :
    ∃ r, worldToGrid O m X = some r ∧ (r.x0 ≤ i ∧ i ≤ r.x1) ∧ r.y0 ≤ j ∧ j ≤ r.y1 := by
  obtain ⟨p1, p2, p3, p4⟩ := hp
  have m1 := cell_mem O hx hin.1 p3
  have m2 := cell_mem O hy hin.2 p4
  obtain ⟨a, ha⟩ := pixels_total m1 p1
  obtain ⟨b, hb⟩ := pixels_total m2 p2
  refine ⟨⟨a.1, a.2, b.1, b.2⟩, ?_, ((pixels_some ha).2 i m1 p1).1, ((pixels_some hb).2 j m2 p2).1⟩
  unfold worldToGrid
  rw [if_neg (by simp [hsub])]
  simp only [toGrid, ha, hb]

/-- no point of a pixel of value 1 is lost -/
theorem contract_keeps {O : Ops K} {m : Img K} {px : Nat → Nat → Bool} (hx : m.ax.leaf ≠ 0) (hy : m.ay.leaf ≠ 0)
    (ht : Summed m.table px m.ax.n m.ay.n) (hwh : m.ax.n * m.ay.n < 2 ^ 31) {inner : Bool} {X : B2 K} {x y : K} {i j : Nat}
    (hin : In2 X x y) (hp : InPixel m i j x y) (h1 : px i j = true) : ∃ Z, contract O m inner X = some Z ∧ In2 Z x y := by
  unfold contract
  rw [if_neg (by simp [in2_not_empty hin])]
  split
  · exact ⟨X, rfl, hin⟩
  · have hbox : In2 (imageBox O m) x y := by
      refine ⟨toWorld_mem O (Nat.zero_le _) ?_ hp.2.2.1, toWorld_mem O (Nat.zero_le _) ?_ hp.2.2.2⟩
      · have := hp.1; simp only; omega
      · have := hp.2.1; simp only; omega
    have hY : In2 (X.inter (imageBox O m)) x y := in2_inter.mpr ⟨hin, hbox⟩
    simp only
    rw [if_neg (by simp [in2_not_empty hY])]
    obtain ⟨r, hr, ri, rj⟩ := worldToGrid_total (O := O) hx hy (inter_subset (imageBox_le O m.ax) (imageBox_le O m.ay)) hY hp
    simp only [hr]
    have hf := worldToGrid_fits hr
    have hh : Has px r := ⟨i, j, ri, rj, h1⟩
    have hc : 0 < count m.table r := by rw [count_eq ht hwh hf]; exact ones_pos.mpr hh
    rw [if_neg (by omega)]
    refine ⟨_, rfl, in2_inter.mpr ⟨hY, ?_⟩⟩
    have T := contractDim_tight ht hwh hf hh
    obtain ⟨⟨t1, t2⟩, t3, t4⟩ := T.all i j ri.1 ri.2 rj.1 rj.2 h1
    exact ⟨toWorld_mem O t1 t2 hp.2.2.1, toWorld_mem O t3 t4 hp.2.2.2⟩

/-- the box is only made smaller -/
theorem contract_le {O : Ops K} {m : Img K} {inner : Bool} {X Z : B2 K} (h : contract O m inner X = some Z) {x y : K} (hz : In2 Z x y) : In2 X x y := by
  unfold contract at h
  split at h
  · simp only [Option.some.injEq] at h; rwa [h]
  split at h
  · simp only [Option.some.injEq] at h; rwa [h]
  simp only at h
  split at h
  · simp only [Option.some.injEq] at h; rw [← h] at hz; exact (in2_inter.mp hz).1
  split at h
  · cases h
  split at h
  · simp only [Option.some.injEq] at h; rw [← h] at hz; exact absurd hz.1 (Itv.not_mem_empty _)
  · simp only [Option.some.injEq] at h; rw [← h] at hz; exact (in2_inter.mp (in2_inter.mp hz).1).1

end

end Codac.Raster
