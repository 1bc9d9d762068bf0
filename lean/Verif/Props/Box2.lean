import Verif.C2.BoxDiff
import Verif.C2.VolProofs

/-!
# C89–C91: boxes of codac2 (`IntervalVector_`, `IntervalMatrix_`): tests, intersection, hull, bisection, volume, difference
-/

set_option linter.unusedSectionVars false

namespace Codac.Props

open Codac.Bx Codac.Pav2

section order

variable {K : Type*} [LinearOrder K] [Nonempty K] [NoMinOrder K] [NoMaxOrder K]

/-- `[0,2]×[1,3]` -/
def bxA : Box ℚ := [.mk (some 0) (some 2) (by decide +kernel), .mk (some 1) (some 3) (by decide +kernel)]
/-- `[1,5]×[2,2]` -/
def bxB : Box ℚ := [.mk (some 1) (some 5) (by decide +kernel), .mk (some 2) (some 2) (by decide +kernel)]
/-- `[0,2]×∅` -/
def bxE : Box ℚ := [.mk (some 0) (some 2) (by decide +kernel), ⊥]

/-! ### C89 -/

/-- **C89 (empty).** `is_empty()` says exactly whether the box has no point. -/
theorem C89_is_empty (X : Box K) : Bx.isEmpty X = true ↔ ∀ v, ¬ InBox v X := Bx.isEmpty_iff

/-- **C89 (subset).** `is_subset` and `is_superset` are the inclusion of the sets of points. -/
theorem C89_is_subset {X Y : Box K} (hl : X.length = Y.length) :
    (isSubset X Y = true ↔ ∀ v, InBox v X → InBox v Y) ∧ (isSuperset X Y = true ↔ ∀ v, InBox v Y → InBox v X) :=
  ⟨isSubset_iff hl, isSubset_iff hl.symm⟩

/-- **C89 (strict subset).** `is_strict_subset` and `is_strict_superset` are the strict inclusion of the sets of points. -/
theorem C89_is_strict_subset {X Y : Box K} (hl : X.length = Y.length) :
    (isStrictSubset X Y = true ↔ (∀ v, InBox v X → InBox v Y) ∧ ∃ v, InBox v Y ∧ ¬ InBox v X) ∧
    (isStrictSuperset X Y = true ↔ (∀ v, InBox v Y → InBox v X) ∧ ∃ v, InBox v X ∧ ¬ InBox v Y) :=
  ⟨isStrictSubset_iff hl, isStrictSubset_iff hl.symm⟩

/-- **C89 (contains).** `contains` is membership. -/
theorem C89_contains {X : Box K} {v : List K} (hl : v.length = X.length) : contains X v = true ↔ InBox v X := contains_iff hl

/-- **C89 (intersects).** `intersects` says whether the boxes share a point, and `is_disjoint` whether they share none. -/
theorem C89_intersects {X Y : Box K} (hl : X.length = Y.length) :
    (intersects X Y = true ↔ ∃ v, InBox v X ∧ InBox v Y) ∧ (isDisjoint X Y = true ↔ ∀ v, InBox v X → ¬ InBox v Y) := by
  refine ⟨Bx.intersects_iff hl, ?_⟩
  rw [isDisjoint_eq, Bool.not_eq_true', ← Bool.not_eq_true, Bx.intersects_iff hl]
  push Not
  exact Iff.rfl

/-- **C89 (equality).** `operator==` is the equality of the sets of points: all the empty boxes of the same size are equal. -/
theorem C89_equal {X Y : Box K} (hl : X.length = Y.length) : beq X Y = true ↔ ∀ v, InBox v X ↔ InBox v Y := beq_iff hl

/-- **C89 (intersection).** The points of `x & y` are exactly the common points. -/
theorem C89_intersection {X Y : Box K} (hl : X.length = Y.length) (v : List K) : InBox v (inter X Y) ↔ InBox v X ∧ InBox v Y := mem_inter hl

/-- **C89 (hull).** `x | y` contains the points of both boxes and is contained in every box that does. -/
theorem C89_hull {X Y : Box K} (hl : X.length = Y.length) :
    (∀ v, InBox v X ∨ InBox v Y → InBox v (hull X Y)) ∧
    ∀ Z : Box K, (∀ v, InBox v X → InBox v Z) → (∀ v, InBox v Y → InBox v Z) → ∀ v, InBox v (hull X Y) → InBox v Z :=
  ⟨fun _ => mem_hull hl, fun _ h1 h2 _ => hull_least h1 h2⟩

omit [Nonempty K] [NoMinOrder K] [NoMaxOrder K] in
theorem inBox_get_iff {p : List K} {X : Box K} : InBox p X ↔ p.length = X.length ∧ ∀ (i : Nat) (y : K) (I : Itv K), p[i]? = some y → X[i]? = some I → y ∈ I := by
  unfold InBox
  rw [List.forall₂_iff_get]
  constructor
  · rintro ⟨h1, h2⟩
    refine ⟨h1, fun i y I hy hI => ?_⟩
    obtain ⟨k1, rfl⟩ := List.getElem?_eq_some_iff.mp hy
    obtain ⟨k2, rfl⟩ := List.getElem?_eq_some_iff.mp hI
    exact h2 i k1 k2
  · rintro ⟨h1, h2⟩
    exact ⟨h1, fun i k1 k2 => h2 i _ _ (List.getElem?_eq_getElem k1) (List.getElem?_eq_getElem k2)⟩

/-- a point of the box with a chosen coordinate -/
theorem inBox_choose {X : Box K} {w : List K} (hw : InBox w X) {i : Nat} {I : Itv K} (hI : X[i]? = some I) {x : K} (hx : x ∈ I) :
    InBox (w.set i x) X ∧ (w.set i x)[i]? = some x := by
  obtain ⟨hl, h⟩ := inBox_get_iff.mp hw
  have hi : i < w.length := by rw [hl]; exact (List.getElem?_eq_some_iff.mp hI).1
  refine ⟨inBox_get_iff.mpr ⟨by simpa using hl, fun j y J hy hJ => ?_⟩, by simp [hi]⟩
  by_cases hij : i = j
  · subst hij
    rw [List.getElem?_set_self hi] at hy
    cases hy
    rw [hI] at hJ
    cases hJ
    exact hx
  · rw [List.getElem?_set_ne hij] at hy
    exact h j y J hy hJ

theorem degenerated_iff {I : Itv K} : I.isDegenerated = true ↔ ∀ x ∈ I, ∀ y ∈ I, x = y := by
  match I with
  | .empty => exact ⟨fun _ x hx => absurd hx (Itv.not_mem_bot x), fun _ => rfl⟩
  | .mk (some a) (some b) p =>
    simp only [Itv.isDegenerated, decide_eq_true_eq]
    refine ⟨?_, fun h => h a ⟨le_rfl, p⟩ b ⟨p, le_rfl⟩⟩
    rintro rfl x hx y hy
    exact (le_antisymm hx.2 hx.1).trans (le_antisymm hy.1 hy.2)
  | .mk none hi p =>
    simp only [Itv.isDegenerated, Bool.false_eq_true, false_iff]
    intro h
    obtain ⟨x, hx⟩ := Itv.exists_mem (X := Itv.mk none hi p) (by intro e; cases e)
    obtain ⟨y, hy⟩ := exists_lt x
    have : y ∈ Itv.mk none hi p := by
      refine ⟨trivial, ?_⟩
      cases hi with
      | none => trivial
      | some u => exact le_trans hy.le hx.2
    exact hy.ne (h y this x hx)
  | .mk (some a) none p =>
    simp only [Itv.isDegenerated, Bool.false_eq_true, false_iff]
    intro h
    obtain ⟨y, hy⟩ := exists_gt a
    exact hy.ne (h a ⟨le_rfl, trivial⟩ y ⟨hy.le, trivial⟩)

/-- **C89 (flat).** `is_flat()` says exactly whether one of the coordinates is the same for all the points of the box. -/
theorem C89_is_flat (X : Box K) : isFlat X = true ↔ ∃ i < X.length, ∀ v w, InBox v X → InBox w X → v[i]? = w[i]? := by
  unfold isFlat
  by_cases hX : Bx.isEmpty X = true
  · rw [if_pos hX]
    refine ⟨fun _ => ⟨0, ?_, fun v w hv => absurd hv (not_mem_of_isEmpty hX)⟩, fun _ => rfl⟩
    cases X with
    | nil => simp [Bx.isEmpty] at hX
    | cons => simp
  · rw [if_neg hX, List.any_eq_true]
    obtain ⟨p, hp⟩ := exists_inBox (X := X) (by simpa using hX)
    constructor
    · rintro ⟨I, hI, hd⟩
      obtain ⟨i, hi⟩ := List.getElem?_of_mem hI
      have hlt := (List.getElem?_eq_some_iff.mp hi).1
      refine ⟨i, hlt, fun v w hv hw => ?_⟩
      obtain ⟨l1, h1⟩ := inBox_get_iff.mp hv
      obtain ⟨l2, h2⟩ := inBox_get_iff.mp hw
      rw [List.getElem?_eq_getElem (show i < v.length by omega), List.getElem?_eq_getElem (show i < w.length by omega)]
      rw [degenerated_iff.mp hd _ (h1 i _ I (List.getElem?_eq_getElem (by omega)) hi) _ (h2 i _ I (List.getElem?_eq_getElem (by omega)) hi)]
    · rintro ⟨i, hlt, h⟩
      refine ⟨X[i], List.getElem_mem hlt, degenerated_iff.mpr fun x hx y hy => ?_⟩
      have hi : X[i]? = some X[i] := List.getElem?_eq_getElem hlt
      obtain ⟨a1, a2⟩ := inBox_choose hp hi hx
      obtain ⟨b1, b2⟩ := inBox_choose hp hi hy
      have := h _ _ a1 b1
      rw [a2, b2] at this
      exact Option.some.inj this

example : Bx.isEmpty bxA = false ∧ Bx.isEmpty bxE = true ∧ isFlat bxB = true ∧ isFlat bxA = false ∧ isSubset bxB bxA = false ∧ intersects bxA bxB = true := by decide +kernel
example : isStrictSubset bxE bxA = true ∧ isStrictSubset bxA bxA = false ∧ isDisjoint bxA bxE = true ∧ contains bxA [1, 2] = true ∧ beq bxE [⊥, ⊤] = true := by decide +kernel

/-! ### C91 -/

/-- **C91 (difference).** The boxes of `x.diff(y)` are in `x` and cover the points of `x` that are not in `y`. Their relative interiors do not meet the interior of `y`, nor each
other: only borders are shared. -/
theorem C91_diff {compactness : Bool} {idiff : Itv K → Itv K → Itv K × Itv K} (hd : IDiff compactness idiff) {X Y : Box K} (hn : X ≠ []) (hl : X.length = Y.length) :
    (∀ b ∈ diff idiff compactness X Y, b.length = X.length ∧ ∀ v, InBox v b → InBox v X) ∧
    (∀ v, InBox v X → ¬ InBox v Y → ∃ b ∈ diff idiff compactness X Y, InBox v b) ∧
    (∀ b ∈ diff idiff compactness X Y, ∀ v, RelInsideBox v b → ¬ InsideBox v Y) ∧
    (diff idiff compactness X Y).Pairwise fun b b' => ∀ v, RelInsideBox v b → ¬ RelInsideBox v b' := by
  have relIn : ∀ {v : List K} {b : Box K}, RelInsideBox v b → InBox v b := fun h => h.imp fun _ _ => relInside_mem
  have insIn : ∀ {v : List K} {b : Box K}, InsideBox v b → InBox v b := fun h => h.imp fun _ _ => inside_mem
  have emp : ∀ {v : List K} {n : Nat}, 0 < n → ¬ InBox v (List.replicate n ⊥ : Box K) := fun hn h => not_mem_of_isEmpty (Pav.empty_isEmpty hn) h
  rcases diff_cases (compactness := compactness) (idiff := idiff) hl with ⟨e, h⟩ | ⟨e, h⟩ | ⟨e, i, I, J, hI, hJ, h1, h2⟩ | ⟨e, h⟩
  · rw [e]
    simp only [List.mem_singleton, forall_eq, exists_eq_left, List.length_replicate, true_and, List.pairwise_singleton, and_true]
    have hn := List.length_pos_iff.mpr hn
    exact ⟨fun v hv => absurd hv (emp hn), fun v hx hy => absurd ((h v).mp hx) hy, fun v hv => absurd (relIn hv) (emp hn)⟩
  · rw [e]
    simp only [List.mem_singleton, forall_eq, exists_eq_left, true_and, List.pairwise_singleton, and_true]
    exact ⟨fun v h => h, fun v h _ => h, fun v hv hy => h v (relIn hv) (insIn hy)⟩
  · rw [e]
    simp only [List.mem_singleton, forall_eq, exists_eq_left, true_and, List.pairwise_singleton, and_true]
    refine ⟨fun v h => h, fun v h _ => h, fun v hv hy => ?_⟩
    have lv := hv.length_eq
    have hiX := List.getElem?_eq_some_iff.mp hI
    have hiY := List.getElem?_eq_some_iff.mp hJ
    have k1 := (List.forall₂_iff_get.mp hv).2 i (by have := hiX.1; omega) hiX.1
    have k2 := (List.forall₂_iff_get.mp hy).2 i (by have := hiX.1; omega) hiY.1
    simp only [List.get_eq_getElem, hiX.2, hiY.2] at k1 k2
    exact flat_border h1 h2 k1 k2
  · rw [e]
    refine ⟨fun b hb => ?_, fun v hx hy => ?_, fun b hb v hv => ?_, diffLoop_pairwise hd h⟩
    · have := diffLoop_le hd (P := []) .nil hb
      exact ⟨this.length, fun v hv => hv.of_le this⟩
    · obtain ⟨b, hb, hv⟩ := diffLoop_cover hd (pre := []) (pv := []) .nil hx hl hy
      exact ⟨b, hb, hv⟩
    · exact diffLoop_border hd (pre := []) (preY := []) rfl h hb hv

/-- **C91 (complementary).** The boxes of `x.complementary()` cover all the points that are not in `x`, and only share borders with `x` and with each other. -/
theorem C91_complementary {idiff : Itv K → Itv K → Itv K × Itv K} (hd : IDiff true idiff) {X : Box K} (hn : X ≠ []) :
    (∀ v, v.length = X.length → ¬ InBox v X → ∃ b ∈ complementary idiff X, InBox v b) ∧
    (∀ b ∈ complementary idiff X, ∀ v, RelInsideBox v b → ¬ InsideBox v X) ∧
    (complementary idiff X).Pairwise fun b b' => ∀ v, RelInsideBox v b → ¬ RelInsideBox v b' := by
  obtain ⟨-, h2, h3, h4⟩ := C91_diff hd (X := List.replicate X.length ⊤) (Y := X) (by simpa using hn) (by simp)
  exact ⟨fun v hv => h2 v (Pav.inBox_whole hv), h3, h4⟩

/-- the assumption on `Interval::diff` can be met, with and without compactness -/
example (compactness : Bool) : IDiff compactness (ibexDiff (K := ℚ) compactness) := ibexDiff_ok compactness

/-- a difference with four boxes, and a complementary with four boxes -/
example : (diff (ibexDiff true) true [Itv.icc 0 3, Itv.icc 0 3] [Itv.icc 1 2, Itv.icc (1 : ℚ) 2]) =
    [[Itv.icc 0 1, Itv.icc 0 3], [Itv.icc 2 3, Itv.icc 0 3], [Itv.icc 1 2, Itv.icc 0 1], [Itv.icc 1 2, Itv.icc 2 3]] := by decide +kernel
example : (complementary (ibexDiff true) [Itv.icc 1 2, Itv.icc (1 : ℚ) 2]).length = 4 := by decide +kernel

/-- **C91 (nothing left, fails).** When no point of `x` is left, the list does not say it in one way: it holds one empty box when `x` and `y` are equal, and no box at all when
`x` is a smaller part of `y`; a user testing the list with `empty()` or the boxes with `is_empty()` meets both. -/
theorem C91_nothing_left_fails : ∃ X Y : Box ℚ, ∃ Z : Box ℚ, (∀ v, InBox v X → InBox v Y) ∧ (∀ v, InBox v X → InBox v Z) ∧
    diff (ibexDiff true) true X Y = [[⊥, ⊥]] ∧ diff (ibexDiff true) true X Z = [] := by
  refine ⟨bxA, bxA, [Itv.icc (-1) 4, Itv.icc 0 5], fun _ h => h, fun v h => (isSubset_iff (by rfl)).mp (by decide +kernel) v h, by decide +kernel, by decide +kernel⟩

/-- **C91 (touching, fails).** With compactness, the points of `y` are not all removed: when `y` only touches `x` or is flat in `x`, the result is `x` itself. -/
theorem C91_flat_fails : diff (ibexDiff true) true bxA [Itv.icc 1 1, Itv.icc (0 : ℚ) 5] = [bxA] ∧ InsideBox [(1 : ℚ), 2] bxA := by
  refine ⟨by decide +kernel, .cons ⟨0, 2, ?_⟩ (.cons ⟨1, 3, ?_⟩ .nil)⟩ <;> decide +kernel

end order

section field

variable {K : Type*} [Field K] [LinearOrder K] [IsStrictOrderedRing K]

/-- **C89 (unbounded).** `is_unbounded()` says exactly whether one of the coordinates takes arbitrarily large absolute values over the box. -/
theorem C89_is_unbounded (X : Box K) : isUnbounded X = true ↔ ∃ i : Nat, ∀ B : K, ∃ v x, InBox v X ∧ v[i]? = some x ∧ B < |x| := by
  unfold isUnbounded
  by_cases hX : Bx.isEmpty X = true
  · rw [if_pos hX]
    refine ⟨fun h => by simp at h, ?_⟩
    rintro ⟨i, h⟩
    obtain ⟨v, x, hv, -⟩ := h 0
    exact absurd hv (not_mem_of_isEmpty hX)
  · rw [if_neg hX, List.any_eq_true]
    obtain ⟨p, hp⟩ := exists_inBox (X := X) (by simpa using hX)
    constructor
    · rintro ⟨I, hI, hu⟩
      obtain ⟨i, hi⟩ := List.getElem?_of_mem hI
      refine ⟨i, fun B => ?_⟩
      have key : ∃ x ∈ I, B < |x| := by
        match I, hu with
        | .mk none hi' q, _ =>
          obtain ⟨x, hx⟩ := Itv.exists_mem (X := Itv.mk none hi' q) (by intro e; cases e)
          refine ⟨min x (-|B| - 1), ⟨trivial, ?_⟩, ?_⟩
          · cases hi' with
            | none => trivial
            | some u => exact le_trans (min_le_left _ _) hx.2
          · have h1 : min x (-|B| - 1) ≤ -|B| - 1 := min_le_right _ _
            have h2 := neg_abs_le (min x (-|B| - 1))
            have h3 := le_abs_self B
            linarith
        | .mk (some a) none q, _ =>
          refine ⟨max a (|B| + 1), ⟨le_max_left _ _, trivial⟩, ?_⟩
          have h1 : |B| + 1 ≤ max a (|B| + 1) := le_max_right _ _
          have h2 := le_abs_self (max a (|B| + 1))
          have h3 := le_abs_self B
          linarith
      obtain ⟨x, hx, hB⟩ := key
      obtain ⟨h1, h2⟩ := inBox_choose hp hi hx
      exact ⟨_, x, h1, h2, hB⟩
    · rintro ⟨i, h⟩
      obtain ⟨v, x, hv, hx, -⟩ := h 0
      have hlt : i < X.length := by rw [← hv.length]; exact (List.getElem?_eq_some_iff.mp hx).1
      have hi : X[i]? = some X[i] := List.getElem?_eq_getElem hlt
      refine ⟨X[i], List.getElem_mem hlt, ?_⟩
      by_contra hu
      generalize hI : X[i] = I at hi hu
      match I, hu with
      | .empty, _ => exact absurd ((inBox_get_iff.mp hp).2 i _ _ (List.getElem?_eq_getElem (by rw [hp.length]; exact hlt)) hi) (Itv.not_mem_bot _)
      | .mk (some a) (some b) q, _ =>
        obtain ⟨w, y, hw, hy, hB⟩ := h (max |a| |b|)
        have hm := (inBox_get_iff.mp hw).2 i y _ hy hi
        have h1 : a ≤ y := hm.1
        have h2 : y ≤ b := hm.2
        have h3 := neg_abs_le a
        have h4 := le_abs_self b
        have h5 := le_max_left |a| |b|
        have h6 := le_max_right |a| |b|
        exact absurd hB (not_lt.mpr (abs_le.mpr ⟨by linarith, by linarith⟩))

example : isUnbounded ([Itv.icc 0 1, ⊤] : Box ℚ) = true ∧ isUnbounded bxA = false := by decide +kernel

/-! ### C90 -/

/-- `I` spreads at least as much as `J`: the distance between two points of `J` is at most a distance between two points of `I` -/
def Wider (I J : Itv K) : Prop := ∀ x ∈ J, ∀ y ∈ J, ∃ x' ∈ I, ∃ y' ∈ I, y - x ≤ y' - x'

theorem wider_of_unbounded {I J : Itv K} (h : I.isUnbounded = true) : Wider I J := by
  intro x _ y _
  match I, h with
  | .mk none hi p, _ =>
    obtain ⟨z, hz⟩ := Itv.exists_mem (X := Itv.mk none hi p) (by intro e; cases e)
    refine ⟨z - |y - x|, ⟨trivial, ?_⟩, z, hz, by linarith [le_abs_self (y - x)]⟩
    cases hi with
    | none => trivial
    | some u => exact le_trans (by linarith [abs_nonneg (y - x)]) hz.2
  | .mk (some a) none p, _ =>
    exact ⟨a, ⟨le_rfl, trivial⟩, a + |y - x|, ⟨by show a ≤ _; linarith [abs_nonneg (y - x)], trivial⟩, by linarith [le_abs_self (y - x)]⟩

theorem wider_of_width {I J : Itv K} (h0 : I.isEmpty = false) (hI : I.isUnbounded = false) (hJ : J.isUnbounded = false) (h : width J ≤ width I) : Wider I J := by
  intro x hx y hy
  match I, J, h0, hI, hJ, h, hx, hy with
  | .mk (some a) (some b) p, .mk (some c) (some d) q, _, _, _, h, hx, hy =>
    refine ⟨a, ⟨le_rfl, p⟩, b, ⟨p, le_rfl⟩, ?_⟩
    have h1 : d - c ≤ b - a := h
    have h2 : c ≤ x := hx.1
    have h3 : y ≤ d := hy.2
    linarith

theorem comp_nonempty {X : Box K} (h0 : Bx.isEmpty X = false) {I : Itv K} (hI : I ∈ X) : I.isEmpty = false := by
  by_contra h
  have : Bx.isEmpty X = true := List.any_eq_true.mpr ⟨I, hI, by simpa using h⟩
  rw [h0] at this
  cases this

/-- **C90 (largest component).** For a box that is not empty, `largest_diam_index()` is the index of a component that spreads at least as much as all the others. -/
theorem C90_largest {X : Box K} (h0 : Bx.isEmpty X = false) (hne : X ≠ []) :
    ∃ i I, largestIndex X = some i ∧ X[i]? = some I ∧ ∀ J ∈ X, Wider I J := by
  by_cases hb : ∃ I ∈ X, I.isUnbounded = true
  · obtain ⟨i, I, h1, h2, h3, -⟩ := largest_unbounded h0 hb
    exact ⟨i, I, h1, h2, fun J _ => wider_of_unbounded h3⟩
  · have hb' : ∀ I ∈ X, I.isUnbounded = false := fun I hI => by
      by_contra h; exact hb ⟨I, hI, by simpa using h⟩
    obtain ⟨i, I, h1, h2, h3, -⟩ := largest_bounded h0 hne hb'
    have hI := List.mem_of_getElem? h2
    exact ⟨i, I, h1, h2, fun J hJ => wider_of_width (comp_nonempty h0 hI) (hb' I hI) (hb' J hJ) (h3 J hJ)⟩

/-- **C90 (thinnest component).** For a box that is not empty, `thinnest_diam_index()` is the index of a component such that all the others spread at least as much. -/
theorem C90_thinnest {X : Box K} (h0 : Bx.isEmpty X = false) (hne : X ≠ []) :
    ∃ i I, thinnestIndex X = some i ∧ X[i]? = some I ∧ ∀ J ∈ X, Wider J I := by
  by_cases hb : ∃ I ∈ X, I.isUnbounded = false
  · obtain ⟨i, I, h1, h2, h3, h4, -⟩ := thinnest_bounded h0 hb
    refine ⟨i, I, h1, h2, fun J hJ => ?_⟩
    by_cases hu : J.isUnbounded = true
    · exact wider_of_unbounded hu
    · have hu' : J.isUnbounded = false := by simpa using hu
      exact wider_of_width (comp_nonempty h0 hJ) hu' h3 (h4 J hJ hu')
  · have hb' : ∀ I ∈ X, I.isUnbounded = true := fun I hI => by
      by_contra h; exact hb ⟨I, hI, by simpa using h⟩
    obtain ⟨i, I, h1, h2, -⟩ := thinnest_unbounded h0 hne hb'
    exact ⟨i, I, h1, h2, fun J hJ => wider_of_unbounded (hb' J hJ)⟩

/-- **C90 (choice among unbounded components).** When some components are unbounded, the largest one is `(-oo,oo)` if there is one, otherwise a half line which, turned towards `+oo`, starts
first; when all are unbounded, the thinnest one is a half line which starts last, if there is a half line. -/
theorem C90_unbounded_choice {X : Box K} (h0 : Bx.isEmpty X = false) (hne : X ≠ []) :
    ((∃ I ∈ X, I.isUnbounded = true) → ∃ i I, largestIndex X = some i ∧ X[i]? = some I ∧ I.isUnbounded = true ∧ (⊤ ∈ X → I = ⊤) ∧
      (⊤ ∉ X → ∀ J ∈ X, J.isUnbounded = true → reach I ≤ reach J)) ∧
    ((∀ I ∈ X, I.isUnbounded = true) → ∃ i I, thinnestIndex X = some i ∧ X[i]? = some I ∧ ((∃ J ∈ X, J ≠ ⊤) → I ≠ ⊤ ∧ ∀ J ∈ X, J ≠ ⊤ → reach J ≤ reach I)) :=
  ⟨largest_unbounded h0, thinnest_unbounded h0 hne⟩

example : largestIndex bxB = some 0 ∧ thinnestIndex bxB = some 1 ∧ largestIndex ([Itv.icc 0 1, Itv.mk (some 3) none trivial, Itv.mk none (some 7) trivial] : Box ℚ) = some 2 := by decide +kernel

/-- **C90 (bisection).** The two boxes of `bisect()` have together exactly the points of the box, only share the face of the cut, and both are non-empty and miss points
of the box: a search by bisection makes progress. -/
theorem C90_bisect {c : Cut K} (hc : c.Ok) {X A B : Box K} (h : Bx.bisect c X = some (A, B)) :
    ∃ (i : Nat) (m : K), largestIndex X = some i ∧ (∀ v, InBox v X ↔ InBox v A ∨ InBox v B) ∧ (∀ v, InBox v A → InBox v B → v[i]? = some m) ∧
      (∃ v, InBox v A ∧ ¬ InBox v B) ∧ ∃ v, InBox v B ∧ ¬ InBox v A := by
  obtain ⟨i, I, hi, hI, hb, lA, lB, hA, hB, -⟩ := bisect_spec h
  have h0 : Bx.isEmpty X = false := by
    by_contra h'
    have h' : Bx.isEmpty X = true := by simpa using h'
    unfold largestIndex extrIndex at hi
    rw [if_pos h'] at hi
    cases hi
  obtain ⟨p, hp⟩ := exists_inBox h0
  obtain ⟨a, b, ha, hb', h1, h2⟩ := hc I hb
  refine ⟨i, c.at' I, hi, fun v => (bisect_has h v).symm, fun v hvA hvB => ?_, ?_, ?_⟩
  · have hlt : i < v.length := by rw [hvA.length, lA]; exact (List.getElem?_eq_some_iff.mp hI).1
    have e := List.getElem?_eq_getElem hlt
    rw [e, le_antisymm (((hA v).mp hvA).2 _ e) (((hB v).mp hvB).2 _ e)]
  · obtain ⟨k1, k2⟩ := inBox_choose hp hI ha
    refine ⟨p.set i a, (hA _).mpr ⟨k1, fun x hx => ?_⟩, fun hB' => ?_⟩
    · rw [k2] at hx; cases hx; exact h1.le
    · exact absurd (((hB _).mp hB').2 a k2) (not_le.mpr h1)
  · obtain ⟨k1, k2⟩ := inBox_choose hp hI hb'
    refine ⟨p.set i b, (hB _).mpr ⟨k1, fun x hx => ?_⟩, fun hA' => ?_⟩
    · rw [k2] at hx; cases hx; exact h2.le
    · exact absurd (((hA _).mp hA').2 b k2) (not_le.mpr h2)

theorem not_degenerated_of_wider {I J : Itv K} (h : Wider I J) (hJ : J.isDegenerated = false) : I.isDegenerated = false := by
  by_contra hI
  have hI := degenerated_iff.mp (show I.isDegenerated = true by simpa using hI)
  have : J.isDegenerated = true := degenerated_iff.mpr fun x hx y hy => by
    obtain ⟨x', hx', y', hy', h1⟩ := h x hx y hy
    obtain ⟨x'', hx'', y'', hy'', h2⟩ := h y hy x hx
    have e1 := hI x' hx' y' hy'
    have e2 := hI x'' hx'' y'' hy''
    subst e1 e2
    exact le_antisymm (by linarith) (by linarith)
  rw [hJ] at this
  cases this

/-- **C90 (bisection is possible).** If every interval with two points can be cut, a non-empty box with a component that is not degenerated can be bisected: the largest component can. -/
theorem C90_bisect_total {c : Cut K} (hc : ∀ I, I.isDegenerated = false → c.bis I = true) {X : Box K} (h0 : Bx.isEmpty X = false) (hX : ∃ I ∈ X, I.isDegenerated = false) :
    (Bx.bisect c X).isSome = true := by
  obtain ⟨J, hJ, hd⟩ := hX
  obtain ⟨i, I, h1, h2, h3⟩ := C90_largest h0 (List.ne_nil_of_mem hJ)
  unfold Bx.bisect
  rw [h1, Option.bind_some, h2, Option.bind_some, if_pos (hc I (not_degenerated_of_wider (h3 J hJ) hd))]
  rfl

/-- a cut in the middle, for bounded intervals -/
def halfCut : Cut ℚ := ⟨fun I => match I with | .mk (some a) (some b) _ => decide (a < b) | _ => false, fun I => match I with | .mk (some a) (some b) _ => (a + b) / 2 | _ => 0⟩

theorem halfCut_ok : halfCut.Ok := by
  intro I h
  match I, h with
  | .mk (some a) (some b) p, h =>
    have hab : a < b := of_decide_eq_true h
    exact ⟨a, b, ⟨le_rfl, p⟩, ⟨p, le_rfl⟩, by show a < (a + b) / 2; linarith, by show (a + b) / 2 < b; linarith⟩

example : Bx.bisect halfCut bxB = some ([Itv.icc 1 3, Itv.icc 2 2], [Itv.icc 3 5, Itv.icc 2 2]) := by decide +kernel

/-- the number is a double (exponents without bounds) -/
def IsDbl (q : ℚ) : Prop := ∃ m e : Int, |m| < 2 ^ 53 ∧ q = m * 2 ^ e

/-- **C90 (is_bisectable, fails).** With doubles, `is_bisectable()` may be true and `bisect()` fail its assertion: for `[2^60, 2^60+256]×[0,100]`, the second component can be cut but the
largest one is made of two consecutive doubles. This holds for every cut at a double strictly inside the interval, whatever the ratio. -/
theorem C90_bisectable_fails (c : Cut ℚ) (hc : ∀ I, c.bis I = true → ∃ q a b, IsDbl q ∧ a ∈ I ∧ b ∈ I ∧ a < q ∧ q < b) (hc' : c.bis (Itv.icc 0 100) = true) :
    ∃ X : Box ℚ, isBisectable c X = true ∧ Bx.bisect c X = none := by
  refine ⟨[Itv.icc (2 ^ 60) (2 ^ 60 + 256), Itv.icc 0 100], by simp [isBisectable, hc'], ?_⟩
  have hi : largestIndex ([Itv.icc (2 ^ 60) (2 ^ 60 + 256), Itv.icc 0 100] : Box ℚ) = some 0 := by decide +kernel
  unfold Bx.bisect
  rw [hi]
  simp only [Option.bind_some, List.getElem?_cons_zero]
  rw [if_neg]
  intro hb
  obtain ⟨q, a, b, ⟨m, e, hm, rfl⟩, ha, hb, h1, h2⟩ := hc _ hb
  have hle : (2 : ℚ) ^ 60 ≤ 2 ^ 60 + 256 := by norm_num
  rw [Itv.mem_icc] at ha hb
  have lo : (2 : ℚ) ^ 60 < m * 2 ^ e := lt_of_le_of_lt ha.1 h1
  have hi' : (m : ℚ) * 2 ^ e < 2 ^ 60 + 256 := lt_of_lt_of_le h2 hb.2
  by_cases he : 8 ≤ e
  · obtain ⟨k, rfl⟩ : ∃ k : Nat, e = 8 + k := ⟨(e - 8).toNat, by omega⟩
    have : (m : ℚ) * 2 ^ ((8 : Int) + k) = ((256 * (m * 2 ^ k) : Int) : ℚ) := by
      rw [zpow_add₀ (by norm_num)]
      push_cast
      rw [zpow_natCast]
      ring
    rw [this] at lo hi'
    have lo' : (2 ^ 60 : Int) < 256 * (m * 2 ^ k) := by exact_mod_cast lo
    have hi'' : 256 * (m * 2 ^ k) < (2 ^ 60 : Int) + 256 := by exact_mod_cast hi'
    omega
  · have h2e : (2 : ℚ) ^ e ≤ 2 ^ (7 : Int) := zpow_le_zpow_right₀ (by norm_num) (by omega)
    have hm' : (m : ℚ) ≤ 2 ^ 53 := by
      have := (abs_lt.mp hm).2
      exact_mod_cast this.le
    have hpos : (0 : ℚ) < 2 ^ e := zpow_pos (by norm_num) _
    have : (m : ℚ) * 2 ^ e ≤ 2 ^ 53 * 2 ^ (7 : Int) := mul_le_mul hm' h2e hpos.le (by norm_num)
    norm_num at this lo
    linarith

open Classical in
/-- such cuts exist -/
example : ∃ c : Cut ℚ, (∀ I, c.bis I = true → ∃ q a b, IsDbl q ∧ a ∈ I ∧ b ∈ I ∧ a < q ∧ q < b) ∧ c.bis (Itv.icc 0 100) = true := by
  refine ⟨⟨fun I => decide (∃ q a b, IsDbl q ∧ a ∈ I ∧ b ∈ I ∧ a < q ∧ q < b), fun _ => 0⟩, fun I h => of_decide_eq_true h, decide_eq_true ?_⟩
  exact ⟨50, 0, 100, ⟨50, 0, by norm_num, by norm_num⟩, Itv.mem_icc.mpr (by norm_num), Itv.mem_icc.mpr (by norm_num), by norm_num, by norm_num⟩

end field

/-- **C90 (volume).** In exact arithmetic the volume of a bounded box is the product of the widths of its components (0 when a component is empty), and the volumes of the
two parts of a bisection add up. -/
theorem C90_volume {X : Box ℝ} (hb : BoundedBox X) : Pav2.volume X = some (X.map width).prod ∧
    ∀ c : Cut ℝ, c.Ok → ∀ A B, Bx.bisect c X = some (A, B) → ∃ a b, Pav2.volume A = some a ∧ Pav2.volume B = some b ∧ Pav2.volume X = some (a + b) := by
  refine ⟨volume_prod hb, fun c hc A B h => ?_⟩
  obtain ⟨h1, h2⟩ := bisect_le h
  exact ⟨_, _, volume_prod (boundedBox_of_le h1 hb), volume_prod (boundedBox_of_le h2 hb), by rw [volume_prod hb, volume_bisect hc hb h]⟩

/-- **C90 (volume, inclusion).** The volume of a box inside a bounded box is at most the volume of the latter. -/
theorem C90_volume_mono {X Y : Box ℝ} (h : ∀ v, InBox v X → InBox v Y) (hb : BoundedBox Y) (hX : Bx.isEmpty X = false) :
    ∃ a b, Pav2.volume X = some a ∧ Pav2.volume Y = some b ∧ 0 ≤ a ∧ a ≤ b := by
  have hle := boxLe_of_points hX h
  exact ⟨_, _, volume_prod (boundedBox_of_le hle hb), volume_prod hb, prod_nonneg_box _, prod_mono_box hle hb⟩

example : BoundedBox [Itv.mk (some 0) (some 2) (by norm_num [bLe]), Itv.mk (some 1) (some 4) (by norm_num [bLe])] ∧
    Pav2.volume [Itv.mk (some 0) (some 2) (by norm_num [bLe]), Itv.mk (some 1) (some 4) (by norm_num [bLe])] = some 6 := by
  have hb : BoundedBox [Itv.mk (some 0) (some 2) (by norm_num [bLe]), Itv.mk (some 1) (some 4) (by norm_num [bLe])] := by
    intro I hI
    simp only [List.mem_cons, List.not_mem_nil, or_false] at hI
    rcases hI with rfl | rfl <;> rfl
  refine ⟨hb, ?_⟩
  rw [volume_prod hb]
  norm_num [width]

/-- **C90 (volume, fails).** The volume of an unbounded box depends on the order of its components: it is infinite for the line `(-oo,oo)×{0}` and 0 for the line
`{0}×(-oo,oo)`. -/
theorem C90_volume_order_fails : Pav2.volume [⊤, Itv.point 0] = none ∧ Pav2.volume [Itv.point 0, ⊤] = some 0 := by
  constructor
  · rw [volume_none_iff rfl]
    exact ⟨0, ⊤, rfl, rfl, fun j hj => absurd hj (by omega)⟩
  · unfold Pav2.volume
    rw [if_neg (by rw [show Bx.isEmpty [Itv.point (0 : ℝ), ⊤] = false from rfl]; simp)]
    simp [volLoop, Itv.isUnbounded, Itv.isDegenerated, Itv.point]

end Codac.Props
