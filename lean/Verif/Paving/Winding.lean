import Verif.Paving.Stokes
import Mathlib.Algebra.BigOperators.Ring.Finset
import Mathlib.Topology.MetricSpace.Pseudo.Lemmas
import Mathlib.Topology.MetricSpace.Bounded
import Mathlib.Topology.Order.Compact

/-!
# Sign changes of a function around a region where it does not vanish

The region is a union of rectangles of a partition. The sums on the boundary of the region are those of the topological degree
(`Verif/Paving/DegreeProofs.lean`).
-/

namespace Codac.Deg

open Finset

/-- a grid with small steps through given abscissas -/
theorem exists_grid (a δ : ℝ) (hδ : 0 < δ) (X : List ℝ) (ha : ∀ x ∈ X, a ≤ x) :
    ∃ xs : Nat → ℝ, StrictMono xs ∧ xs 0 = a ∧ (∀ i, xs (i + 1) - xs i < δ) ∧ (∀ M, ∃ i, M < xs i) ∧ ∀ x ∈ X, ∃ i, xs i = x := by
  induction X with
  | nil =>
    refine ⟨fun i => a + i * (δ / 2), ?_, by simp, ?_, ?_, by simp⟩
    · refine strictMono_nat_of_lt_succ fun n => ?_
      push_cast
      linarith [mul_comm ((n : ℝ) + 1) (δ / 2), mul_comm (n : ℝ) (δ / 2)]
    · intro i
      push_cast
      linarith
    · intro M
      obtain ⟨n, hn⟩ := exists_nat_gt ((M - a) / (δ / 2))
      refine ⟨n, ?_⟩
      rw [div_lt_iff₀ (by linarith)] at hn
      linarith
  | cons y X ih =>
    obtain ⟨xs, h1, h2, h3, h4, h5⟩ := ih fun x hx => ha x (by simp [hx])
    by_cases hy : ∃ i, xs i = y
    · refine ⟨xs, h1, h2, h3, h4, ?_⟩
      intro x hx
      rcases List.mem_cons.1 hx with rfl | hx
      · exact hy
      · exact h5 x hx
    · classical
      have hex := h4 y
      obtain ⟨k, hk, hlt⟩ : ∃ k, y < xs k ∧ ∀ j < k, xs j < y := by
        refine ⟨Nat.find hex, Nat.find_spec hex, fun j hj => ?_⟩
        exact lt_of_le_of_ne (not_lt.1 (Nat.find_min hex hj)) fun e => hy ⟨j, e⟩
      have hk0 : 0 < k := by
        rcases Nat.eq_zero_or_pos k with rfl | h
        · have := ha y (by simp)
          rw [h2] at hk
          exact absurd hk (not_lt.2 this)
        · exact h
      obtain ⟨zs, e1, e2, e3⟩ : ∃ zs : Nat → ℝ, (∀ j, j < k → zs j = xs j) ∧ zs k = y ∧ ∀ j, k ≤ j → zs (j + 1) = xs j := by
        refine ⟨fun j => if j < k then xs j else if j = k then y else xs (j - 1), fun j hj => if_pos hj, by simp, ?_⟩
        intro j hj
        simp only
        rw [if_neg (by omega), if_neg (by omega)]
        rfl
      refine ⟨zs, ?_, ?_, ?_, ?_, ?_⟩
      · refine strictMono_nat_of_lt_succ fun n => ?_
        rcases lt_trichotomy (n + 1) k with h | h | h
        · rw [e1 n (by omega), e1 _ h]
          exact h1 (by omega)
        · rw [e1 n (by omega), h, e2]
          exact hlt n (by omega)
        · rw [e3 n (by omega)]
          rcases eq_or_lt_of_le (show k ≤ n by omega) with rfl | h'
          · rw [e2]; exact hk
          · obtain ⟨n, rfl⟩ : ∃ n', n = n' + 1 := ⟨n - 1, by omega⟩
            rw [e3 n (by omega)]
            exact h1 (by omega)
      · rw [e1 0 hk0, h2]
      · intro n
        rcases lt_trichotomy (n + 1) k with h | h | h
        · rw [e1 n (by omega), e1 _ h]
          exact h3 n
        · rw [e1 n (by omega), h, e2]
          have := h3 n
          rw [h] at this
          linarith
        · rw [e3 n (by omega)]
          rcases eq_or_lt_of_le (show k ≤ n by omega) with rfl | h'
          · rw [e2]
            have := h3 (k - 1)
            have h6 := hlt (k - 1) (by omega)
            rw [Nat.sub_add_cancel hk0] at this
            linarith
          · obtain ⟨n, rfl⟩ : ∃ n', n = n' + 1 := ⟨n - 1, by omega⟩
            rw [e3 n (by omega)]
            exact h3 n
      · intro M
        obtain ⟨i, hi⟩ := h4 M
        rcases lt_or_ge i k with h | h
        · exact ⟨i, by rw [e1 i h]; exact hi⟩
        · exact ⟨i + 1, by rw [e3 i h]; exact hi⟩
      · intro x hx
        rcases List.mem_cons.1 hx with rfl | hx
        · exact ⟨k, e2⟩
        · obtain ⟨i, hi⟩ := h5 x hx
          rcases lt_or_ge i k with h | h
          · exact ⟨i, by rw [e1 i h]; exact hi⟩
          · exact ⟨i + 1, by rw [e3 i h]; exact hi⟩

/-- a rectangle -/
structure RR where
  x0 : ℝ
  x1 : ℝ
  y0 : ℝ
  y1 : ℝ

/-- the closed rectangle -/
def RR.Mem (R : RR) (z : ℝ × ℝ) : Prop := R.x0 ≤ z.1 ∧ z.1 ≤ R.x1 ∧ R.y0 ≤ z.2 ∧ z.2 ≤ R.y1

/-- without its right and top sides -/
def RR.HMem (R : RR) (x y : ℝ) : Prop := R.x0 ≤ x ∧ x < R.x1 ∧ R.y0 ≤ y ∧ y < R.y1

/-- a region `S` of a partition `L` of a rectangle, surrounded by the parts `O` -/
structure Setup {α : Type*} (R : α → RR) (root : RR) (L S O : List α) : Prop where
  pos : ∀ A ∈ L, (R A).x0 < (R A).x1 ∧ (R A).y0 < (R A).y1
  inRoot : ∀ A ∈ L, root.x0 ≤ (R A).x0 ∧ root.y0 ≤ (R A).y0
  part : ∀ x y, root.HMem x y → One L fun A => (R A).HMem x y
  sub : ∀ A ∈ S ++ O, A ∈ L
  nodup : (S ++ O).Nodup
  inside : ∀ U ∈ S, root.x0 < (R U).x0 ∧ (R U).x1 < root.x1 ∧ root.y0 < (R U).y0 ∧ (R U).y1 < root.y1
  touch : ∀ U ∈ S, ∀ A ∈ L, (∃ z, (R U).Mem z ∧ (R A).Mem z) → A ∈ S ++ O

section
variable {α : Type*} {R : α → RR} {root : RR} {L S O : List α}

/-- difference of a function between the ends of the common side of two rectangles, counter-clockwise around the second one -/
noncomputable def dEdge (g : ℝ × ℝ → Int) (U C : RR) : Int :=
  (if C.y0 = U.y1 ∧ max U.x0 C.x0 < min U.x1 C.x1 then g (min U.x1 C.x1, U.y1) - g (max U.x0 C.x0, U.y1) else 0)
    - (if C.y1 = U.y0 ∧ max U.x0 C.x0 < min U.x1 C.x1 then g (min U.x1 C.x1, U.y0) - g (max U.x0 C.x0, U.y0) else 0)
    - (if C.x0 = U.x1 ∧ max U.y0 C.y0 < min U.y1 C.y1 then g (U.x1, min U.y1 C.y1) - g (U.x1, max U.y0 C.y0) else 0)
    + (if C.x1 = U.x0 ∧ max U.y0 C.y0 < min U.y1 C.y1 then g (U.x0, min U.y1 C.y1) - g (U.x0, max U.y0 C.y0) else 0)

/-- a grid through the sides of the rectangles -/
structure Grid (R : α → RR) (root : RR) (L : List α) (xs ys : Nat → ℝ) (r : α → NR) : Prop where
  mx : StrictMono xs
  my : StrictMono ys
  x0 : xs 0 = root.x0
  y0 : ys 0 = root.y0
  ra : ∀ A ∈ L, xs (r A).a = (R A).x0
  rb : ∀ A ∈ L, xs (r A).b = (R A).x1
  rc : ∀ A ∈ L, ys (r A).c = (R A).y0
  rd : ∀ A ∈ L, ys (r A).d = (R A).y1

/-- a grid with small steps, through the sides of the parts and other given lines -/
theorem exists_setup_lines (hs : Setup R root L S O) {δ : ℝ} (hδ : 0 < δ) (X Y : List ℝ) (hX : ∀ x ∈ X, root.x0 ≤ x) (hY : ∀ y ∈ Y, root.y0 ≤ y) :
    ∃ xs ys r, Grid R root L xs ys r ∧ (∀ i, xs (i + 1) - xs i < δ) ∧ (∀ i, ys (i + 1) - ys i < δ) ∧ (∀ x ∈ X, ∃ i, xs i = x) ∧ ∀ y ∈ Y, ∃ i, ys i = y := by
  obtain ⟨xs, h1, h2, h3, -, h5'⟩ := exists_grid root.x0 δ hδ ((L.flatMap fun A => [(R A).x0, (R A).x1]) ++ X) (by
    intro x hx
    rw [List.mem_append] at hx
    rcases hx with hx | hx
    · simp only [List.mem_flatMap, List.mem_cons, List.not_mem_nil, or_false] at hx
      obtain ⟨A, hA, rfl | rfl⟩ := hx
      · exact (hs.inRoot A hA).1
      · exact (hs.inRoot A hA).1.trans (hs.pos A hA).1.le
    · exact hX x hx)
  obtain ⟨ys, k1, k2, k3, -, k5'⟩ := exists_grid root.y0 δ hδ ((L.flatMap fun A => [(R A).y0, (R A).y1]) ++ Y) (by
    intro x hx
    rw [List.mem_append] at hx
    rcases hx with hx | hx
    · simp only [List.mem_flatMap, List.mem_cons, List.not_mem_nil, or_false] at hx
      obtain ⟨A, hA, rfl | rfl⟩ := hx
      · exact (hs.inRoot A hA).2
      · exact (hs.inRoot A hA).2.trans (hs.pos A hA).2.le
    · exact hY x hx)
  have h5 : ∀ x ∈ L.flatMap fun A => [(R A).x0, (R A).x1], ∃ i, xs i = x := fun x hx => h5' x (List.mem_append_left _ hx)
  have k5 : ∀ x ∈ L.flatMap fun A => [(R A).y0, (R A).y1], ∃ i, ys i = x := fun x hx => k5' x (List.mem_append_left _ hx)
  classical
  have ex : ∀ A, ∃ n : NR, A ∈ L → xs n.a = (R A).x0 ∧ xs n.b = (R A).x1 ∧ ys n.c = (R A).y0 ∧ ys n.d = (R A).y1 := by
    intro A
    by_cases hA : A ∈ L
    · obtain ⟨a, ea⟩ := h5 (R A).x0 (List.mem_flatMap.2 ⟨A, hA, by simp⟩)
      obtain ⟨b, eb⟩ := h5 (R A).x1 (List.mem_flatMap.2 ⟨A, hA, by simp⟩)
      obtain ⟨c, ec⟩ := k5 (R A).y0 (List.mem_flatMap.2 ⟨A, hA, by simp⟩)
      obtain ⟨d, ed⟩ := k5 (R A).y1 (List.mem_flatMap.2 ⟨A, hA, by simp⟩)
      exact ⟨⟨a, b, c, d⟩, fun _ => ⟨ea, eb, ec, ed⟩⟩
    · exact ⟨⟨0, 0, 0, 0⟩, fun h => absurd h hA⟩
  choose r hr using ex
  exact ⟨xs, ys, r, ⟨h1, k1, h2, k2, fun A h => (hr A h).1, fun A h => (hr A h).2.1, fun A h => (hr A h).2.2.1, fun A h => (hr A h).2.2.2⟩,
    h3, k3, fun x hx => h5' x (List.mem_append_right _ hx), fun y hy => k5' y (List.mem_append_right _ hy)⟩

theorem exists_setup_grid (hs : Setup R root L S O) {δ : ℝ} (hδ : 0 < δ) :
    ∃ xs ys r, Grid R root L xs ys r ∧ (∀ i, xs (i + 1) - xs i < δ) ∧ ∀ i, ys (i + 1) - ys i < δ := by
  obtain ⟨xs, ys, r, h1, h2, h3, -, -⟩ := exists_setup_lines hs hδ [] [] (by simp) (by simp)
  exact ⟨xs, ys, r, h1, h2, h3⟩

variable {xs ys : Nat → ℝ} {r : α → NR}

theorem Grid.hasCell (hg : Grid R root L xs ys r) {A : α} (hA : A ∈ L) (i j : Nat) :
    (r A).HasCell i j ↔ (R A).HMem (xs i) (ys j) := by
  unfold NR.HasCell RR.HMem
  rw [← hg.ra A hA, ← hg.rb A hA, ← hg.rc A hA, ← hg.rd A hA, hg.mx.le_iff_le, hg.mx.lt_iff_lt, hg.my.le_iff_le, hg.my.lt_iff_lt]

/-- a cell of the grid near a part of the region belongs to only one part -/
theorem grid_facts (hs : Setup R root L S O) (hg : Grid R root L xs ys r) :
    (∀ A ∈ L, (r A).a < (r A).b ∧ (r A).c < (r A).d) ∧ (∀ U ∈ S, 1 ≤ (r U).a ∧ 1 ≤ (r U).c) ∧
      ∀ U ∈ S, ∀ i j, (r U).Near i j → One (S ++ O) fun A => (r A).HasCell i j := by
  have hpos : ∀ A ∈ L, (r A).a < (r A).b ∧ (r A).c < (r A).d := by
    intro A hA
    rw [← hg.mx.lt_iff_lt, ← hg.my.lt_iff_lt, hg.ra A hA, hg.rb A hA, hg.rc A hA, hg.rd A hA]
    exact hs.pos A hA
  have hin : ∀ U ∈ S, 1 ≤ (r U).a ∧ 1 ≤ (r U).c := by
    intro U hU
    have hUL := hs.sub U (List.mem_append_left _ hU)
    have h := hs.inside U hU
    rw [Nat.one_le_iff_ne_zero, Nat.one_le_iff_ne_zero]
    constructor
    · intro e
      have := hg.ra U hUL
      rw [e, hg.x0] at this
      exact absurd h.1 (by rw [this]; exact lt_irrefl _)
    · intro e
      have := hg.rc U hUL
      rw [e, hg.y0] at this
      exact absurd h.2.2.1 (by rw [this]; exact lt_irrefl _)
  refine ⟨hpos, hin, ?_⟩
  intro U hU i j hnear
  have hUL := hs.sub U (List.mem_append_left _ hU)
  have hi := hs.inside U hU
  have hp := hpos U hUL
  have h1 := hin U hU
  have ea := hg.ra U hUL
  have eb := hg.rb U hUL
  have ec := hg.rc U hUL
  have ed := hg.rd U hUL
  have hroot : root.HMem (xs i) (ys j) := by
    have m1 : xs 0 ≤ xs i := hg.mx.monotone (Nat.zero_le i)
    have m2 : ys 0 ≤ ys j := hg.my.monotone (Nat.zero_le j)
    refine ⟨hg.x0 ▸ m1, ?_, hg.y0 ▸ m2, ?_⟩
    · have : xs i ≤ xs (r U).b := hg.mx.monotone (by rcases hnear with h | h <;> omega)
      rw [eb] at this
      linarith
    · have : ys j ≤ ys (r U).d := hg.my.monotone (by rcases hnear with h | h <;> omega)
      rw [ed] at this
      linarith
  obtain ⟨A, hA, hA1, hA2⟩ := hs.part _ _ hroot
  have hc := (hg.hasCell hA i j).2 hA1
  have hAm : A ∈ S ++ O := by
    refine hs.touch U hU A hA ?_
    have qa := hg.ra A hA
    have qb := hg.rb A hA
    have qc := hg.rc A hA
    have qd := hg.rd A hA
    have mono : ∀ {i j : Nat}, i ≤ j → xs i ≤ xs j := fun h => hg.mx.monotone h
    have mono' : ∀ {i j : Nat}, i ≤ j → ys i ≤ ys j := fun h => hg.my.monotone h
    obtain ⟨c1, c2, c3, c4⟩ := hc
    refine ⟨(xs (max i (r U).a), ys (max j (r U).c)), ?_, ?_⟩
    · unfold RR.Mem
      rw [← ea, ← eb, ← ec, ← ed]
      refine ⟨mono (by omega), mono (by rcases hnear with h | h <;> omega), mono' (by omega), mono' (by rcases hnear with h | h <;> omega)⟩
    · unfold RR.Mem
      rw [← qa, ← qb, ← qc, ← qd]
      refine ⟨mono (by omega), mono (by rcases hnear with h | h <;> omega), mono' (by omega), mono' (by rcases hnear with h | h <;> omega)⟩
  refine ⟨A, hAm, hc, ?_⟩
  intro B hB hBc
  exact hA2 B (hs.sub B hB) ((hg.hasCell (hs.sub B hB) i j).1 hBc)

/-- the sum on the boundary, for a function on the edges of the grid -/
theorem boundary_cells (hs : Setup R root L S O) (hg : Grid R root L xs ys r) (H V : Nat → Nat → Int) :
    (S.map fun U => (O.map fun C => edge H V (r U) (r C)).sum).sum = - (S.map fun U => rectSum H V (r U)).sum :=
  have h := grid_facts hs hg
  stokes_sum H V r S O hs.nodup (fun A hA => h.1 A (hs.sub A hA)) h.2.2 h.2.1

theorem boundary_sum (hs : Setup R root L S O) (hg : Grid R root L xs ys r) (H V : Nat → Nat → Int)
    (hw : ∀ U ∈ S, ∀ i j, (r U).HasCell i j → H i j + V (i + 1) j - H i (j + 1) - V i j = 0) :
    (S.map fun U => (O.map fun C => edge H V (r U) (r C)).sum).sum = 0 :=
  have h := grid_facts hs hg
  stokes H V r S O hs.nodup (fun A hA => h.1 A (hs.sub A hA)) h.2.2 h.2.1 hw

/-- the sum on a common side when the function on the edges is a difference -/
theorem edge_eq (hg : Grid R root L xs ys r) {H V : Nat → Nat → Int} {U C : α} (hU : U ∈ L) (hC : C ∈ L)
    (hpU : (R U).x0 < (R U).x1 ∧ (R U).y0 < (R U).y1) (hpC : (R C).x0 < (R C).x1 ∧ (R C).y0 < (R C).y1) (g : ℝ × ℝ → Int) (τ : Int)
    (hH : ∀ i j, (R U).Mem (xs i, ys j) → (R U).Mem (xs (i + 1), ys j) → (R C).Mem (xs i, ys j) → (R C).Mem (xs (i + 1), ys j) →
      H i j = τ * (g (xs (i + 1), ys j) - g (xs i, ys j)))
    (hV : ∀ i j, (R U).Mem (xs i, ys j) → (R U).Mem (xs i, ys (j + 1)) → (R C).Mem (xs i, ys j) → (R C).Mem (xs i, ys (j + 1)) →
      V i j = τ * (g (xs i, ys (j + 1)) - g (xs i, ys j))) :
    edge H V (r U) (r C) = τ * dEdge g (R U) (R C) := by
  have ea := hg.ra U hU
  have eb := hg.rb U hU
  have ec := hg.rc U hU
  have ed := hg.rd U hU
  have qa := hg.ra C hC
  have qb := hg.rb C hC
  have qc := hg.rc C hC
  have qd := hg.rd C hC
  have mono : ∀ {i j : Nat}, i ≤ j → xs i ≤ xs j := fun h => hg.mx.monotone h
  have mono' : ∀ {i j : Nat}, i ≤ j → ys i ≤ ys j := fun h => hg.my.monotone h
  have xmax : max (R U).x0 (R C).x0 = xs (max (r U).a (r C).a) := by rw [hg.mx.monotone.map_max, ea, qa]
  have xmin : min (R U).x1 (R C).x1 = xs (min (r U).b (r C).b) := by rw [hg.mx.monotone.map_min, eb, qb]
  have ymax : max (R U).y0 (R C).y0 = ys (max (r U).c (r C).c) := by rw [hg.my.monotone.map_max, ec, qc]
  have ymin : min (R U).y1 (R C).y1 = ys (min (r U).d (r C).d) := by rw [hg.my.monotone.map_min, ed, qd]
  have hpa : (r U).a < (r U).b ∧ (r U).c < (r U).d := by
    rw [← hg.mx.lt_iff_lt, ← hg.my.lt_iff_lt, ea, eb, ec, ed]; exact hpU
  have hpc : (r C).a < (r C).b ∧ (r C).c < (r C).d := by
    rw [← hg.mx.lt_iff_lt, ← hg.my.lt_iff_lt, qa, qb, qc, qd]; exact hpC
  -- horizontal and vertical sums
  have hs : ∀ y, (r U).c ≤ y → y ≤ (r U).d → (r C).c ≤ y → y ≤ (r C).d →
      hSum H y (max (r U).a (r C).a) (min (r U).b (r C).b) =
        if max (R U).x0 (R C).x0 < min (R U).x1 (R C).x1 then
          τ * (g (min (R U).x1 (R C).x1, ys y) - g (max (R U).x0 (R C).x0, ys y)) else 0 := by
    intro y h1 h2 h3 h4
    rw [xmax, xmin]
    by_cases hlt : max (r U).a (r C).a < min (r U).b (r C).b
    · rw [if_pos (hg.mx hlt), ← sum_tele (fun i => g (xs i, ys y)) hlt.le, hSum, mul_sum]
      refine sum_congr rfl fun i hi => ?_
      rw [mem_Ico] at hi
      refine hH i y ?_ ?_ ?_ ?_
      · unfold RR.Mem; rw [← ea, ← eb, ← ec, ← ed]
        exact ⟨mono (by omega), mono (by omega), mono' (by omega), mono' (by omega)⟩
      · unfold RR.Mem; rw [← ea, ← eb, ← ec, ← ed]
        exact ⟨mono (by omega), mono (by omega), mono' (by omega), mono' (by omega)⟩
      · unfold RR.Mem; rw [← qa, ← qb, ← qc, ← qd]
        exact ⟨mono (by omega), mono (by omega), mono' (by omega), mono' (by omega)⟩
      · unfold RR.Mem; rw [← qa, ← qb, ← qc, ← qd]
        exact ⟨mono (by omega), mono (by omega), mono' (by omega), mono' (by omega)⟩
    · rw [if_neg (mt hg.mx.lt_iff_lt.1 hlt), hSum, Ico_eq_empty hlt, sum_empty]
  have vs : ∀ x, (r U).a ≤ x → x ≤ (r U).b → (r C).a ≤ x → x ≤ (r C).b →
      vSum V x (max (r U).c (r C).c) (min (r U).d (r C).d) =
        if max (R U).y0 (R C).y0 < min (R U).y1 (R C).y1 then
          τ * (g (xs x, min (R U).y1 (R C).y1) - g (xs x, max (R U).y0 (R C).y0)) else 0 := by
    intro x h1 h2 h3 h4
    rw [ymax, ymin]
    by_cases hlt : max (r U).c (r C).c < min (r U).d (r C).d
    · rw [if_pos (hg.my hlt), ← sum_tele (fun j => g (xs x, ys j)) hlt.le, vSum, mul_sum]
      refine sum_congr rfl fun j hj => ?_
      rw [mem_Ico] at hj
      refine hV x j ?_ ?_ ?_ ?_
      · unfold RR.Mem; rw [← ea, ← eb, ← ec, ← ed]
        exact ⟨mono (by omega), mono (by omega), mono' (by omega), mono' (by omega)⟩
      · unfold RR.Mem; rw [← ea, ← eb, ← ec, ← ed]
        exact ⟨mono (by omega), mono (by omega), mono' (by omega), mono' (by omega)⟩
      · unfold RR.Mem; rw [← qa, ← qb, ← qc, ← qd]
        exact ⟨mono (by omega), mono (by omega), mono' (by omega), mono' (by omega)⟩
      · unfold RR.Mem; rw [← qa, ← qb, ← qc, ← qd]
        exact ⟨mono (by omega), mono (by omega), mono' (by omega), mono' (by omega)⟩
    · rw [if_neg (mt hg.my.lt_iff_lt.1 hlt), vSum, Ico_eq_empty hlt, sum_empty]
  have t1 : ((r C).c = (r U).d) ↔ (R C).y0 = (R U).y1 := by rw [← qc, ← ed]; exact hg.my.injective.eq_iff.symm
  have t2 : ((r C).d = (r U).c) ↔ (R C).y1 = (R U).y0 := by rw [← qd, ← ec]; exact hg.my.injective.eq_iff.symm
  have t3 : ((r C).a = (r U).b) ↔ (R C).x0 = (R U).x1 := by rw [← qa, ← eb]; exact hg.mx.injective.eq_iff.symm
  have t4 : ((r C).b = (r U).a) ↔ (R C).x1 = (R U).x0 := by rw [← qb, ← ea]; exact hg.mx.injective.eq_iff.symm
  have u1 : (if (r C).c = (r U).d then hSum H (r U).d (max (r U).a (r C).a) (min (r U).b (r C).b) else 0) =
      τ * if (R C).y0 = (R U).y1 ∧ max (R U).x0 (R C).x0 < min (R U).x1 (R C).x1 then
        g (min (R U).x1 (R C).x1, (R U).y1) - g (max (R U).x0 (R C).x0, (R U).y1) else 0 := by
    by_cases h : (r C).c = (r U).d
    · rw [if_pos h, hs _ (by omega) (by omega) (by omega) (by omega), ed]
      by_cases h' : max (R U).x0 (R C).x0 < min (R U).x1 (R C).x1
      · rw [if_pos h', if_pos ⟨t1.1 h, h'⟩]
      · rw [if_neg h', if_neg fun hc => h' hc.2, mul_zero]
    · rw [if_neg h, if_neg fun hc => h (t1.2 hc.1), mul_zero]
  have u2 : (if (r C).d = (r U).c then hSum H (r U).c (max (r U).a (r C).a) (min (r U).b (r C).b) else 0) =
      τ * if (R C).y1 = (R U).y0 ∧ max (R U).x0 (R C).x0 < min (R U).x1 (R C).x1 then
        g (min (R U).x1 (R C).x1, (R U).y0) - g (max (R U).x0 (R C).x0, (R U).y0) else 0 := by
    by_cases h : (r C).d = (r U).c
    · rw [if_pos h, hs _ (by omega) (by omega) (by omega) (by omega), ec]
      by_cases h' : max (R U).x0 (R C).x0 < min (R U).x1 (R C).x1
      · rw [if_pos h', if_pos ⟨t2.1 h, h'⟩]
      · rw [if_neg h', if_neg fun hc => h' hc.2, mul_zero]
    · rw [if_neg h, if_neg fun hc => h (t2.2 hc.1), mul_zero]
  have u3 : (if (r C).a = (r U).b then vSum V (r U).b (max (r U).c (r C).c) (min (r U).d (r C).d) else 0) =
      τ * if (R C).x0 = (R U).x1 ∧ max (R U).y0 (R C).y0 < min (R U).y1 (R C).y1 then
        g ((R U).x1, min (R U).y1 (R C).y1) - g ((R U).x1, max (R U).y0 (R C).y0) else 0 := by
    by_cases h : (r C).a = (r U).b
    · rw [if_pos h, vs _ (by omega) (by omega) (by omega) (by omega), eb]
      by_cases h' : max (R U).y0 (R C).y0 < min (R U).y1 (R C).y1
      · rw [if_pos h', if_pos ⟨t3.1 h, h'⟩]
      · rw [if_neg h', if_neg fun hc => h' hc.2, mul_zero]
    · rw [if_neg h, if_neg fun hc => h (t3.2 hc.1), mul_zero]
  have u4 : (if (r C).b = (r U).a then vSum V (r U).a (max (r U).c (r C).c) (min (r U).d (r C).d) else 0) =
      τ * if (R C).x1 = (R U).x0 ∧ max (R U).y0 (R C).y0 < min (R U).y1 (R C).y1 then
        g ((R U).x0, min (R U).y1 (R C).y1) - g ((R U).x0, max (R U).y0 (R C).y0) else 0 := by
    by_cases h : (r C).b = (r U).a
    · rw [if_pos h, vs _ (by omega) (by omega) (by omega) (by omega), ea]
      by_cases h' : max (R U).y0 (R C).y0 < min (R U).y1 (R C).y1
      · rw [if_pos h', if_pos ⟨t4.1 h, h'⟩]
      · rw [if_neg h', if_neg fun hc => h' hc.2, mul_zero]
    · rw [if_neg h, if_neg fun hc => h (t4.2 hc.1), mul_zero]
  unfold edge dEdge
  rw [u1, u2, u3, u4]
  ring

/-- the differences of any function sum to zero on the boundary -/
theorem balance (hs : Setup R root L S O) (g : ℝ × ℝ → Int) :
    (S.map fun U => (O.map fun C => dEdge g (R U) (R C)).sum).sum = 0 := by
  obtain ⟨xs, ys, r, hg, -, -⟩ := exists_setup_grid hs (δ := 1) one_pos
  have h := boundary_sum hs hg (fun i j => g (xs (i + 1), ys j) - g (xs i, ys j)) (fun i j => g (xs i, ys (j + 1)) - g (xs i, ys j))
    (fun U _ i j _ => by ring)
  rw [← h]
  refine congrArg List.sum (List.map_congr_left fun U hU => congrArg List.sum (List.map_congr_left fun C hC => ?_))
  have hUL := hs.sub U (List.mem_append_left _ hU)
  have hCL := hs.sub C (List.mem_append_right _ hC)
  rw [edge_eq hg hUL hCL (hs.pos U hUL) (hs.pos C hCL) g 1 (by intros; ring) (by intros; ring), one_mul]

/-- the region -/
def region (R : α → RR) (S : List α) : Set (ℝ × ℝ) := {z | ∃ U ∈ S, (R U).Mem z}

theorem region_compact : IsCompact (region R S) := by
  have e : region R S = ⋃ U ∈ {U | U ∈ S}, Set.Icc (R U).x0 (R U).x1 ×ˢ Set.Icc (R U).y0 (R U).y1 := by
    ext z
    simp only [region, Set.mem_ofPred_eq, Set.mem_iUnion, Set.mem_prod, Set.mem_Icc, RR.Mem, exists_prop]
    constructor
    · rintro ⟨U, hU, h1, h2, h3, h4⟩; exact ⟨U, hU, ⟨h1, h2⟩, h3, h4⟩
    · rintro ⟨U, hU, ⟨h1, h2⟩, h3, h4⟩; exact ⟨U, hU, h1, h2, h3, h4⟩
  rw [e]
  exact (List.finite_toSet S).isCompact_biUnion fun U _ => isCompact_Icc.prod isCompact_Icc

/-- on small enough squares of a compact set, one of the components of a function without zero keeps its sign -/
theorem exists_step_of_compact {M : Set (ℝ × ℝ)} (hM : IsCompact M) {f₁ f₂ : ℝ × ℝ → ℝ} (h₁ : ContinuousOn f₁ M) (h₂ : ContinuousOn f₂ M)
    (h0 : ∀ z ∈ M, ¬ (f₁ z = 0 ∧ f₂ z = 0)) :
    ∃ δ > 0, ∀ z ∈ M, (∀ z' ∈ M, dist z' z < δ → 0 < f₁ z') ∨ (∀ z' ∈ M, dist z' z < δ → f₁ z' < 0) ∨
      (∀ z' ∈ M, dist z' z < δ → 0 < f₂ z') ∨ (∀ z' ∈ M, dist z' z < δ → f₂ z' < 0) := by
  obtain ⟨u1, o1, e1⟩ := continuousOn_iff'.1 h₁ (Set.Ioi 0) isOpen_Ioi
  obtain ⟨u2, o2, e2⟩ := continuousOn_iff'.1 h₁ (Set.Iio 0) isOpen_Iio
  obtain ⟨u3, o3, e3⟩ := continuousOn_iff'.1 h₂ (Set.Ioi 0) isOpen_Ioi
  obtain ⟨u4, o4, e4⟩ := continuousOn_iff'.1 h₂ (Set.Iio 0) isOpen_Iio
  have q1 : ∀ z ∈ M, (z ∈ u1 ↔ 0 < f₁ z) := fun z hz =>
    ⟨fun h => ((Set.ext_iff.1 e1 z).2 ⟨h, hz⟩).1, fun h => ((Set.ext_iff.1 e1 z).1 ⟨h, hz⟩).1⟩
  have q2 : ∀ z ∈ M, (z ∈ u2 ↔ f₁ z < 0) := fun z hz =>
    ⟨fun h => ((Set.ext_iff.1 e2 z).2 ⟨h, hz⟩).1, fun h => ((Set.ext_iff.1 e2 z).1 ⟨h, hz⟩).1⟩
  have q3 : ∀ z ∈ M, (z ∈ u3 ↔ 0 < f₂ z) := fun z hz =>
    ⟨fun h => ((Set.ext_iff.1 e3 z).2 ⟨h, hz⟩).1, fun h => ((Set.ext_iff.1 e3 z).1 ⟨h, hz⟩).1⟩
  have q4 : ∀ z ∈ M, (z ∈ u4 ↔ f₂ z < 0) := fun z hz =>
    ⟨fun h => ((Set.ext_iff.1 e4 z).2 ⟨h, hz⟩).1, fun h => ((Set.ext_iff.1 e4 z).1 ⟨h, hz⟩).1⟩
  obtain ⟨δ, hδ, hb⟩ := lebesgue_number_lemma_of_metric_sUnion (s := M) (c := {u1, u2, u3, u4}) hM
    (by rintro t (rfl | rfl | rfl | rfl) <;> assumption)
    (by
      intro z hz
      rw [Set.mem_sUnion]
      rcases lt_trichotomy (f₁ z) 0 with h | h | h
      · exact ⟨u2, by simp, (q2 z hz).2 h⟩
      · rcases lt_trichotomy (f₂ z) 0 with h' | h' | h'
        · exact ⟨u4, by simp, (q4 z hz).2 h'⟩
        · exact absurd ⟨h, h'⟩ (h0 z hz)
        · exact ⟨u3, by simp, (q3 z hz).2 h'⟩
      · exact ⟨u1, by simp, (q1 z hz).2 h⟩)
  refine ⟨δ, hδ, fun z hz => ?_⟩
  obtain ⟨t, ht, hsub⟩ := hb z hz
  rcases ht with rfl | rfl | rfl | rfl
  · exact Or.inl fun z' hz' hd => (q1 z' hz').1 (hsub hd)
  · exact Or.inr (Or.inl fun z' hz' hd => (q2 z' hz').1 (hsub hd))
  · exact Or.inr (Or.inr (Or.inl fun z' hz' hd => (q3 z' hz').1 (hsub hd)))
  · exact Or.inr (Or.inr (Or.inr fun z' hz' hd => (q4 z' hz').1 (hsub hd)))

/-- on small enough squares of the region, one of the components of a function without zero keeps its sign -/
theorem exists_step {f₁ f₂ : ℝ × ℝ → ℝ} (h₁ : ContinuousOn f₁ (region R S)) (h₂ : ContinuousOn f₂ (region R S))
    (h0 : ∀ z ∈ region R S, ¬ (f₁ z = 0 ∧ f₂ z = 0)) :
    ∃ δ > 0, ∀ z ∈ region R S, (∀ z' ∈ region R S, dist z' z < δ → 0 < f₁ z') ∨ (∀ z' ∈ region R S, dist z' z < δ → f₁ z' < 0) ∨
      (∀ z' ∈ region R S, dist z' z < δ → 0 < f₂ z') ∨ (∀ z' ∈ region R S, dist z' z < δ → f₂ z' < 0) :=
  exists_step_of_compact region_compact h₁ h₂ h0

/-- positive second component -/
noncomputable def sgn2 (f₂ : ℝ × ℝ → ℝ) (z : ℝ × ℝ) : Int := if 0 < f₂ z then 1 else 0

/-- The changes of sign of the second component, counted where the first component is known to be positive, sum to zero around a region without zero. -/
theorem no_zero_sum (hs : Setup R root L S O) {f₁ f₂ : ℝ × ℝ → ℝ} (h₁ : ContinuousOn f₁ (region R S)) (h₂ : ContinuousOn f₂ (region R S))
    (h0 : ∀ z ∈ region R S, ¬ (f₁ z = 0 ∧ f₂ z = 0)) (τ : α → Int)
    (hτ : ∀ C ∈ O, (τ C = 1 ∧ ∀ z ∈ region R S, (R C).Mem z → 0 < f₁ z) ∨ (τ C = 0 ∧ ((∀ z ∈ region R S, (R C).Mem z → f₁ z < 0) ∨
      (∀ z ∈ region R S, (R C).Mem z → 0 < f₂ z) ∨ ∀ z ∈ region R S, (R C).Mem z → f₂ z < 0))) :
    (S.map fun U => (O.map fun C => τ C * dEdge (sgn2 f₂) (R U) (R C)).sum).sum = 0 := by
  classical
  obtain ⟨δ, hδ, hstep⟩ := exists_step h₁ h₂ h0
  obtain ⟨xs, ys, r, hg, gx, gy⟩ := exists_setup_grid hs hδ
  have mono : ∀ {i j : Nat}, i ≤ j → xs i ≤ xs j := fun h => hg.mx.monotone h
  have mono' : ∀ {i j : Nat}, i ≤ j → ys i ≤ ys j := fun h => hg.my.monotone h
  have h := boundary_sum hs hg
    (fun i j => if ∀ x, xs i ≤ x → x ≤ xs (i + 1) → 0 < f₁ (x, ys j) then sgn2 f₂ (xs (i + 1), ys j) - sgn2 f₂ (xs i, ys j) else 0)
    (fun i j => if ∀ y, ys j ≤ y → y ≤ ys (j + 1) → 0 < f₁ (xs i, y) then sgn2 f₂ (xs i, ys (j + 1)) - sgn2 f₂ (xs i, ys j) else 0) ?_
  · rw [← h]
    refine congrArg List.sum (List.map_congr_left fun U hU => congrArg List.sum (List.map_congr_left fun C hC => ?_))
    have hUL := hs.sub U (List.mem_append_left _ hU)
    have hCL := hs.sub C (List.mem_append_right _ hC)
    symm
    have conv : ∀ {A : RR} {x a b y : ℝ}, A.Mem (a, y) → A.Mem (b, y) → a ≤ x → x ≤ b → A.Mem (x, y) := fun h1 h2 h3 h4 =>
      ⟨h1.1.trans h3, h4.trans h2.2.1, h1.2.2⟩
    have conv' : ∀ {A : RR} {x a b y : ℝ}, A.Mem (x, a) → A.Mem (x, b) → a ≤ y → y ≤ b → A.Mem (x, y) := fun h1 h2 h3 h4 =>
      ⟨h1.1, h1.2.1, h1.2.2.1.trans h3, h4.trans h2.2.2.2⟩
    refine edge_eq hg hUL hCL (hs.pos U hUL) (hs.pos C hCL) (sgn2 f₂) (τ C) ?_ ?_
    · intro i j m1 m2 m3 m4
      rcases hτ C hC with ⟨e, hp⟩ | ⟨e, hp⟩
      · rw [e, one_mul, if_pos]
        intro x hx1 hx2
        exact hp _ ⟨U, hU, conv m1 m2 hx1 hx2⟩ (conv m3 m4 hx1 hx2)
      · rw [e, zero_mul]
        by_cases hall : ∀ x, xs i ≤ x → x ≤ xs (i + 1) → 0 < f₁ (x, ys j)
        · rw [if_pos hall]
          rcases hp with hp | hp | hp
          · exact absurd (hp _ ⟨U, hU, m1⟩ m3) (not_lt.2 (hall (xs i) le_rfl (mono (by omega))).le)
          · rw [sgn2, sgn2, if_pos (hp _ ⟨U, hU, m1⟩ m3), if_pos (hp _ ⟨U, hU, m2⟩ m4)]; rfl
          · rw [sgn2, sgn2, if_neg (not_lt.2 (hp _ ⟨U, hU, m1⟩ m3).le), if_neg (not_lt.2 (hp _ ⟨U, hU, m2⟩ m4).le)]; rfl
        · rw [if_neg hall]
    · intro i j m1 m2 m3 m4
      rcases hτ C hC with ⟨e, hp⟩ | ⟨e, hp⟩
      · rw [e, one_mul, if_pos]
        intro x hx1 hx2
        exact hp _ ⟨U, hU, conv' m1 m2 hx1 hx2⟩ (conv' m3 m4 hx1 hx2)
      · rw [e, zero_mul]
        by_cases hall : ∀ y, ys j ≤ y → y ≤ ys (j + 1) → 0 < f₁ (xs i, y)
        · rw [if_pos hall]
          rcases hp with hp | hp | hp
          · exact absurd (hp _ ⟨U, hU, m1⟩ m3) (not_lt.2 (hall (ys j) le_rfl (mono' (by omega))).le)
          · rw [sgn2, sgn2, if_pos (hp _ ⟨U, hU, m1⟩ m3), if_pos (hp _ ⟨U, hU, m2⟩ m4)]; rfl
          · rw [sgn2, sgn2, if_neg (not_lt.2 (hp _ ⟨U, hU, m1⟩ m3).le), if_neg (not_lt.2 (hp _ ⟨U, hU, m2⟩ m4).le)]; rfl
        · rw [if_neg hall]
  · intro U hU i j hc
    have hUL := hs.sub U (List.mem_append_left _ hU)
    obtain ⟨c1, c2, c3, c4⟩ := hc
    -- the points of the cell
    have hcell : ∀ x y, xs i ≤ x → x ≤ xs (i + 1) → ys j ≤ y → y ≤ ys (j + 1) →
        (x, y) ∈ region R S ∧ dist (x, y) (xs i, ys j) < δ := by
      intro x y k1 k2 k3 k4
      constructor
      · refine ⟨U, hU, ?_⟩
        unfold RR.Mem
        rw [← hg.ra U hUL, ← hg.rb U hUL, ← hg.rc U hUL, ← hg.rd U hUL]
        exact ⟨(mono c1).trans k1, k2.trans (mono (by omega)), (mono' c3).trans k3, k4.trans (mono' (by omega))⟩
      · rw [Prod.dist_eq, max_lt_iff, Real.dist_eq, Real.dist_eq, abs_lt, abs_lt]
        have := gx i
        have := gy j
        exact ⟨⟨by simp only; linarith, by simp only; linarith⟩, ⟨by simp only; linarith, by simp only; linarith⟩⟩
    have mx : xs i ≤ xs (i + 1) := mono (by omega)
    have my : ys j ≤ ys (j + 1) := mono' (by omega)
    have pts : ∀ {P : ℝ × ℝ → Prop}, (∀ z' ∈ region R S, dist z' (xs i, ys j) < δ → P z') →
        ∀ x y, xs i ≤ x → x ≤ xs (i + 1) → ys j ≤ y → y ≤ ys (j + 1) → P (x, y) := fun hP x y k1 k2 k3 k4 =>
      hP _ (hcell x y k1 k2 k3 k4).1 (hcell x y k1 k2 k3 k4).2
    rcases hstep _ (hcell _ _ le_rfl mx le_rfl my).1 with hP | hP | hP | hP
    · have hP := pts (P := fun z => 0 < f₁ z) hP
      rw [if_pos fun x k1 k2 => hP x _ k1 k2 le_rfl my, if_pos fun y k1 k2 => hP _ y mx le_rfl k1 k2,
        if_pos fun x k1 k2 => hP x _ k1 k2 my le_rfl, if_pos fun y k1 k2 => hP _ y le_rfl mx k1 k2]
      ring
    · have hP := pts (P := fun z => f₁ z < 0) hP
      rw [if_neg fun hc => absurd (hc (xs i) le_rfl mx) (not_lt.2 (hP _ _ le_rfl mx le_rfl my).le),
        if_neg fun hc => absurd (hc (ys j) le_rfl my) (not_lt.2 (hP _ _ mx le_rfl le_rfl my).le),
        if_neg fun hc => absurd (hc (xs i) le_rfl mx) (not_lt.2 (hP _ _ le_rfl mx my le_rfl).le),
        if_neg fun hc => absurd (hc (ys j) le_rfl my) (not_lt.2 (hP _ _ le_rfl mx le_rfl my).le)]
      rfl
    · have hP := pts (P := fun z => 0 < f₂ z) hP
      have z1 : sgn2 f₂ (xs i, ys j) = 1 := if_pos (hP _ _ le_rfl mx le_rfl my)
      have z2 : sgn2 f₂ (xs (i + 1), ys j) = 1 := if_pos (hP _ _ mx le_rfl le_rfl my)
      have z3 : sgn2 f₂ (xs i, ys (j + 1)) = 1 := if_pos (hP _ _ le_rfl mx my le_rfl)
      have z4 : sgn2 f₂ (xs (i + 1), ys (j + 1)) = 1 := if_pos (hP _ _ mx le_rfl my le_rfl)
      rw [z1, z2, z3, z4]
      simp
    · have hP := pts (P := fun z => f₂ z < 0) hP
      have z1 : sgn2 f₂ (xs i, ys j) = 0 := if_neg (not_lt.2 (hP _ _ le_rfl mx le_rfl my).le)
      have z2 : sgn2 f₂ (xs (i + 1), ys j) = 0 := if_neg (not_lt.2 (hP _ _ mx le_rfl le_rfl my).le)
      have z3 : sgn2 f₂ (xs i, ys (j + 1)) = 0 := if_neg (not_lt.2 (hP _ _ le_rfl mx my le_rfl).le)
      have z4 : sgn2 f₂ (xs (i + 1), ys (j + 1)) = 0 := if_neg (not_lt.2 (hP _ _ mx le_rfl my le_rfl).le)
      rw [z1, z2, z3, z4]
      simp

end

end Codac.Deg
