import Mathlib.Algebra.BigOperators.Intervals
import Mathlib.Algebra.Order.BigOperators.Group.Finset
import Mathlib.Order.Interval.Finset.Nat
import Mathlib.Tactic.Ring
import Mathlib.Tactic.Linarith

/-!
# Sums on the boundary of a union of rectangles of a grid

A function on the edges of a grid, whose sum around each cell of a region vanishes, has a sum equal to zero on the boundary of the region. This is the
combinatorial part of the proof on the topological degree (`Verif/Paving/DegreeProofs.lean`).
-/

namespace Codac.Deg

open Finset

/-- rectangle of a grid -/
structure NR where
  a : Nat
  b : Nat
  c : Nat
  d : Nat

/-- the cell `[i,i+1] × [j,j+1]` is in the rectangle -/
def NR.HasCell (R : NR) (i j : Nat) : Prop := R.a ≤ i ∧ i < R.b ∧ R.c ≤ j ∧ j < R.d

/-- the cell is in the rectangle or shares a side with it -/
def NR.Near (R : NR) (i j : Nat) : Prop :=
  (R.a ≤ i ∧ i < R.b ∧ R.c ≤ j + 1 ∧ j ≤ R.d) ∨ (R.a ≤ i + 1 ∧ i ≤ R.b ∧ R.c ≤ j ∧ j < R.d)

variable (H V : Nat → Nat → Int)

/-- sum on a horizontal segment -/
def hSum (y lo hi : Nat) : Int := ∑ i ∈ Ico lo hi, H i y

/-- sum on a vertical segment -/
def vSum (x lo hi : Nat) : Int := ∑ j ∈ Ico lo hi, V x j

/-- sum on the common side of two rectangles, counter-clockwise around the second one -/
def edge (U C : NR) : Int :=
  (if C.c = U.d then hSum H U.d (max U.a C.a) (min U.b C.b) else 0) - (if C.d = U.c then hSum H U.c (max U.a C.a) (min U.b C.b) else 0)
    - (if C.a = U.b then vSum V U.b (max U.c C.c) (min U.d C.d) else 0) + (if C.b = U.a then vSum V U.a (max U.c C.c) (min U.d C.d) else 0)

theorem edge_antisymm (U C : NR) : edge H V U C + edge H V C U = 0 := by
  have h1 : (if U.d = C.c then hSum H C.c (max C.a U.a) (min C.b U.b) else 0) =
      if C.c = U.d then hSum H U.d (max U.a C.a) (min U.b C.b) else 0 := by
    by_cases h : C.c = U.d
    · rw [if_pos h.symm, if_pos h, h, max_comm, min_comm]
    · rw [if_neg (Ne.symm h), if_neg h]
  have h2 : (if U.c = C.d then hSum H C.d (max C.a U.a) (min C.b U.b) else 0) =
      if C.d = U.c then hSum H U.c (max U.a C.a) (min U.b C.b) else 0 := by
    by_cases h : C.d = U.c
    · rw [if_pos h.symm, if_pos h, h, max_comm, min_comm]
    · rw [if_neg (Ne.symm h), if_neg h]
  have h3 : (if U.b = C.a then vSum V C.a (max C.c U.c) (min C.d U.d) else 0) =
      if C.a = U.b then vSum V U.b (max U.c C.c) (min U.d C.d) else 0 := by
    by_cases h : C.a = U.b
    · rw [if_pos h.symm, if_pos h, h, max_comm, min_comm]
    · rw [if_neg (Ne.symm h), if_neg h]
  have h4 : (if U.a = C.b then vSum V C.b (max C.c U.c) (min C.d U.d) else 0) =
      if C.b = U.a then vSum V U.a (max U.c C.c) (min U.d C.d) else 0 := by
    by_cases h : C.b = U.a
    · rw [if_pos h.symm, if_pos h, h, max_comm, min_comm]
    · rw [if_neg (Ne.symm h), if_neg h]
  unfold edge
  rw [h1, h2, h3, h4]
  ring

theorem sum_tele (g : Nat → Int) {lo hi : Nat} (h : lo ≤ hi) : ∑ i ∈ Ico lo hi, (g (i + 1) - g i) = g hi - g lo := by
  induction hi, h using Nat.le_induction with
  | base => simp
  | succ n hn ih => rw [sum_Ico_succ_top hn, ih]; ring

/-- the sum around a cell, counter-clockwise -/
def cellSum (i j : Nat) : Int := H i j + V (i + 1) j - H i (j + 1) - V i j

/-- the sum of the sums around the cells of a rectangle -/
def rectSum (R : NR) : Int := ∑ i ∈ Ico R.a R.b, ∑ j ∈ Ico R.c R.d, cellSum H V i j

/-- the sum around a rectangle is the sum of the sums around its cells -/
theorem around_sum {R : NR} (h1 : R.a ≤ R.b) (h2 : R.c ≤ R.d) :
    hSum H R.c R.a R.b + vSum V R.b R.c R.d - hSum H R.d R.a R.b - vSum V R.a R.c R.d = rectSum H V R := by
  have e1 : hSum H R.d R.a R.b - hSum H R.c R.a R.b = ∑ i ∈ Ico R.a R.b, ∑ j ∈ Ico R.c R.d, (H i (j + 1) - H i j) := by
    unfold hSum
    rw [← sum_sub_distrib]
    exact sum_congr rfl fun i _ => (sum_tele (fun j => H i j) h2).symm
  have e2 : vSum V R.b R.c R.d - vSum V R.a R.c R.d = ∑ i ∈ Ico R.a R.b, ∑ j ∈ Ico R.c R.d, (V (i + 1) j - V i j) := by
    unfold vSum
    rw [← sum_sub_distrib, sum_comm]
    exact sum_congr rfl fun j _ => (sum_tele (fun i => V i j) h1).symm
  have e3 : rectSum H V R = ∑ i ∈ Ico R.a R.b, ∑ j ∈ Ico R.c R.d, ((V (i + 1) j - V i j) - (H i (j + 1) - H i j)) := by
    refine sum_congr rfl fun i _ => sum_congr rfl fun j _ => ?_
    unfold cellSum
    ring
  simp only [sum_sub_distrib] at e1 e2 e3
  linarith

/-- one and only one element of the list -/
def One {α : Type*} (L : List α) (P : α → Prop) : Prop := ∃ R ∈ L, P R ∧ ∀ R' ∈ L, P R' → R' = R

theorem One.sum {α : Type*} {L : List α} {P : α → Prop} [DecidablePred P] (hn : L.Nodup) (h : One L P) :
    (L.map fun R => if P R then (1 : Int) else 0).sum = 1 := by
  obtain ⟨R, hR, hP, hu⟩ := h
  induction L with
  | nil => cases hR
  | cons A L ih =>
    rw [List.nodup_cons] at hn
    rw [List.map_cons, List.sum_cons]
    by_cases hA : P A
    · have e : A = R := hu A (by simp) hA
      subst e
      rw [if_pos hA]
      have : (L.map fun R => if P R then (1 : Int) else 0).sum = 0 := by
        refine List.sum_eq_zero ?_
        intro x hx
        rw [List.mem_map] at hx
        obtain ⟨B, hB, rfl⟩ := hx
        rw [if_neg]
        intro hPB
        exact hn.1 (hu B (by simp [hB]) hPB ▸ hB)
      rw [this]; rfl
    · rw [if_neg hA, zero_add]
      refine ih hn.2 ?_ fun R' h' => hu R' (by simp [h'])
      rcases List.mem_cons.1 hR with rfl | h
      · exact absurd hP hA
      · exact h

/-- a side of a rectangle is shared between the rectangles that touch it -/
theorem sum_side {α : Type*} (L : List α) (hn : L.Nodup) (P : α → Prop) [DecidablePred P] (lo hi : α → Nat) (g : Nat → Int) (a b : Nat)
    (h : ∀ i, a ≤ i → i < b → One L fun R => P R ∧ lo R ≤ i ∧ i < hi R) :
    (L.map fun R => if P R then ∑ i ∈ Ico (max a (lo R)) (min b (hi R)), g i else 0).sum = ∑ i ∈ Ico a b, g i := by
  have e : ∀ R, (if P R then ∑ i ∈ Ico (max a (lo R)) (min b (hi R)), g i else 0) =
      ∑ i ∈ Ico a b, g i * if P R ∧ lo R ≤ i ∧ i < hi R then (1 : Int) else 0 := by
    intro R
    by_cases hP : P R
    · rw [if_pos hP]
      have hf : Ico (max a (lo R)) (min b (hi R)) = (Ico a b).filter fun i => lo R ≤ i ∧ i < hi R := by
        ext i
        simp only [mem_Ico, mem_filter, max_le_iff, lt_min_iff]
        tauto
      rw [hf, sum_filter]
      refine sum_congr rfl fun i _ => ?_
      by_cases h' : lo R ≤ i ∧ i < hi R
      · rw [if_pos h', if_pos ⟨hP, h'⟩, mul_one]
      · rw [if_neg h', if_neg fun hc => h' hc.2, mul_zero]
    · rw [if_neg hP, sum_eq_zero]
      intro i _
      rw [if_neg fun hc => hP hc.1, mul_zero]
  have swap : ∀ L' : List α, (L'.map fun R => ∑ i ∈ Ico a b, g i * if P R ∧ lo R ≤ i ∧ i < hi R then (1 : Int) else 0).sum =
      ∑ i ∈ Ico a b, g i * (L'.map fun R => if P R ∧ lo R ≤ i ∧ i < hi R then (1 : Int) else 0).sum := by
    intro L'
    induction L' with
    | nil => simp
    | cons A L' ih =>
      simp only [List.map_cons, List.sum_cons, ih, mul_add, sum_add_distrib]
  simp only [e]
  rw [swap]
  refine sum_congr rfl fun i hi' => ?_
  rw [mem_Ico] at hi'
  rw [One.sum hn (h i hi'.1 hi'.2), mul_one]

theorem sum_sum_antisymm {α : Type*} (L : List α) (e : α → α → Int) (h : ∀ a b, e a b + e b a = 0) :
    (L.map fun a => (L.map fun b => e a b).sum).sum = 0 := by
  induction L with
  | nil => simp
  | cons x L ih =>
    have hx : e x x = 0 := by have := h x x; omega
    have h2 : (L.map fun a => e x a).sum + (L.map fun a => e a x).sum = 0 := by
      rw [← List.sum_map_add]
      exact List.sum_eq_zero (by simp [h])
    simp only [List.map_cons, List.sum_cons, List.sum_map_add, hx, ih]
    omega

/-- The sum on the boundary of a region is the sum of the sums around its cells (with the other orientation). -/
theorem stokes_sum {α : Type*} (r : α → NR) (S O : List α) (hn : (S ++ O).Nodup)
    (hpos : ∀ R ∈ S ++ O, (r R).a < (r R).b ∧ (r R).c < (r R).d)
    (hcell : ∀ U ∈ S, ∀ i j, (r U).Near i j → One (S ++ O) fun R => (r R).HasCell i j)
    (hin : ∀ U ∈ S, 1 ≤ (r U).a ∧ 1 ≤ (r U).c) :
    (S.map fun U => (O.map fun C => edge H V (r U) (r C)).sum).sum = - (S.map fun U => rectSum H V (r U)).sum := by
  have key : ∀ U ∈ S, ((S ++ O).map fun C => edge H V (r U) (r C)).sum = - rectSum H V (r U) := by
    intro U hU
    have hUm : U ∈ S ++ O := List.mem_append_left _ hU
    have hp := hpos U hUm
    have hi := hin U hU
    have uniq : ∀ R ∈ S ++ O, ∀ i j, (r U).HasCell i j → (r R).HasCell i j → R = U := by
      intro R hR i j h1 h2
      obtain ⟨R0, _, _, hu⟩ := hcell U hU i j (Or.inl ⟨h1.1, h1.2.1, by have := h1.2.2.1; omega, by have := h1.2.2.2; omega⟩)
      rw [hu R hR h2, hu U hUm h1]
    -- the four sides
    have hT : ∀ i, (r U).a ≤ i → i < (r U).b → One (S ++ O) fun R => (r R).c = (r U).d ∧ (r R).a ≤ i ∧ i < (r R).b := by
      intro i h1 h2
      obtain ⟨R, hR, hc, hu⟩ := hcell U hU i (r U).d (Or.inl ⟨h1, h2, by omega, by omega⟩)
      refine ⟨R, hR, ⟨?_, hc.1, hc.2.1⟩, ?_⟩
      · by_contra hne
        have h3 := hc.2.2
        have e := uniq R hR i ((r U).d - 1) ⟨h1, h2, by omega, by omega⟩ ⟨hc.1, hc.2.1, by omega, by omega⟩
        subst e
        omega
      · rintro R' hR' ⟨h3, h4, h5⟩
        have h6 := hpos R' hR'
        exact hu R' hR' ⟨h4, h5, by omega, by omega⟩
    have hB : ∀ i, (r U).a ≤ i → i < (r U).b → One (S ++ O) fun R => (r R).d = (r U).c ∧ (r R).a ≤ i ∧ i < (r R).b := by
      intro i h1 h2
      obtain ⟨R, hR, hc, hu⟩ := hcell U hU i ((r U).c - 1) (Or.inl ⟨h1, h2, by omega, by omega⟩)
      refine ⟨R, hR, ⟨?_, hc.1, hc.2.1⟩, ?_⟩
      · by_contra hne
        have h3 := hc.2.2
        have e := uniq R hR i (r U).c ⟨h1, h2, by omega, by omega⟩ ⟨hc.1, hc.2.1, by omega, by omega⟩
        subst e
        omega
      · rintro R' hR' ⟨h3, h4, h5⟩
        have h6 := hpos R' hR'
        exact hu R' hR' ⟨h4, h5, by omega, by omega⟩
    have hR : ∀ j, (r U).c ≤ j → j < (r U).d → One (S ++ O) fun R => (r R).a = (r U).b ∧ (r R).c ≤ j ∧ j < (r R).d := by
      intro j h1 h2
      obtain ⟨R, hR, hc, hu⟩ := hcell U hU (r U).b j (Or.inr ⟨by omega, by omega, h1, h2⟩)
      refine ⟨R, hR, ⟨?_, hc.2.2.1, hc.2.2.2⟩, ?_⟩
      · by_contra hne
        have h3 := hc.1
        have h4 := hc.2.1
        have e := uniq R hR ((r U).b - 1) j ⟨by omega, by omega, h1, h2⟩ ⟨by omega, by omega, hc.2.2.1, hc.2.2.2⟩
        subst e
        omega
      · rintro R' hR' ⟨h3, h4, h5⟩
        have h6 := hpos R' hR'
        exact hu R' hR' ⟨by omega, by omega, h4, h5⟩
    have hL : ∀ j, (r U).c ≤ j → j < (r U).d → One (S ++ O) fun R => (r R).b = (r U).a ∧ (r R).c ≤ j ∧ j < (r R).d := by
      intro j h1 h2
      obtain ⟨R, hR, hc, hu⟩ := hcell U hU ((r U).a - 1) j (Or.inr ⟨by omega, by omega, h1, h2⟩)
      refine ⟨R, hR, ⟨?_, hc.2.2.1, hc.2.2.2⟩, ?_⟩
      · by_contra hne
        have h3 := hc.1
        have h4 := hc.2.1
        have e := uniq R hR (r U).a j ⟨by omega, by omega, h1, h2⟩ ⟨by omega, by omega, hc.2.2.1, hc.2.2.2⟩
        subst e
        omega
      · rintro R' hR' ⟨h3, h4, h5⟩
        have h6 := hpos R' hR'
        exact hu R' hR' ⟨by omega, by omega, h4, h5⟩
    have s1 := sum_side (S ++ O) hn (fun R => (r R).c = (r U).d) (fun R => (r R).a) (fun R => (r R).b) (fun i => H i (r U).d) _ _ hT
    have s2 := sum_side (S ++ O) hn (fun R => (r R).d = (r U).c) (fun R => (r R).a) (fun R => (r R).b) (fun i => H i (r U).c) _ _ hB
    have s3 := sum_side (S ++ O) hn (fun R => (r R).a = (r U).b) (fun R => (r R).c) (fun R => (r R).d) (fun j => V (r U).b j) _ _ hR
    have s4 := sum_side (S ++ O) hn (fun R => (r R).b = (r U).a) (fun R => (r R).c) (fun R => (r R).d) (fun j => V (r U).a j) _ _ hL
    have s0 := around_sum H V hp.1.le hp.2.le
    have dist : ∀ (L' : List α) (p q s t : α → Int), (L'.map fun R => p R - q R - s R + t R).sum =
        (L'.map p).sum - (L'.map q).sum - (L'.map s).sum + (L'.map t).sum := by
      intro L' p q s t
      induction L' with
      | nil => simp
      | cons x L' ih => simp only [List.map_cons, List.sum_cons, ih]; ring
    unfold edge
    rw [dist]
    unfold hSum vSum at s0 ⊢
    rw [s1, s2, s3, s4]
    linarith
  have split : ∀ U ∈ S, (O.map fun C => edge H V (r U) (r C)).sum = - (rectSum H V (r U) + (S.map fun C => edge H V (r U) (r C)).sum) := by
    intro U hU
    have := key U hU
    rw [List.map_append, List.sum_append] at this
    omega
  rw [List.map_congr_left split]
  have neg : ∀ (L' : List α) (p : α → Int), (L'.map fun R => - p R).sum = - (L'.map p).sum := by
    intro L' p
    induction L' with
    | nil => simp
    | cons x L' ih => simp only [List.map_cons, List.sum_cons, ih]; ring
  rw [neg, List.sum_map_add, sum_sum_antisymm S (fun a b => edge H V (r a) (r b)) fun a b => edge_antisymm H V _ _, add_zero]

/-- The sum on the boundary of a region vanishes when the sums around its cells vanish. -/
theorem stokes {α : Type*} (r : α → NR) (S O : List α) (hn : (S ++ O).Nodup)
    (hpos : ∀ R ∈ S ++ O, (r R).a < (r R).b ∧ (r R).c < (r R).d)
    (hcell : ∀ U ∈ S, ∀ i j, (r U).Near i j → One (S ++ O) fun R => (r R).HasCell i j)
    (hin : ∀ U ∈ S, 1 ≤ (r U).a ∧ 1 ≤ (r U).c)
    (hw : ∀ U ∈ S, ∀ i j, (r U).HasCell i j → H i j + V (i + 1) j - H i (j + 1) - V i j = 0) :
    (S.map fun U => (O.map fun C => edge H V (r U) (r C)).sum).sum = 0 := by
  rw [stokes_sum H V r S O hn hpos hcell hin, neg_eq_zero]
  refine List.sum_eq_zero fun x hx => ?_
  obtain ⟨U, hU, rfl⟩ := List.mem_map.1 hx
  refine sum_eq_zero fun i hi => sum_eq_zero fun j hj => ?_
  rw [mem_Ico] at hi hj
  exact hw U hU i j ⟨hi.1, hi.2, hj.1, hj.2⟩

end Codac.Deg
