import Verif.Interval
import Mathlib.Data.List.Basic
import Mathlib.Data.List.Forall2

/-!
# Boxes (`IntervalVector`)

A box is a list of intervals. The operations follow IBEX (`ibex_IntervalVector.cpp`), an external library: they are part of the
trusted base.
-/

set_option linter.unusedSectionVars false

namespace Codac

variable {K : Type*} [LinearOrder K]

/-- `IntervalVector` -/
abbrev Box (K : Type*) [LinearOrder K] := List (Itv K)

/-- a point in a box -/
def InBox (v : List K) (X : List (Itv K)) : Prop := List.Forall₂ (fun a I => a ∈ I) v X

/-- inclusion of boxes, component by component -/
def BoxLe (X Y : List (Itv K)) : Prop := List.Forall₂ (· ≤ ·) X Y

namespace Box

/-- `IntervalVector::empty(n)` (IBEX) -/
def empty (n : Nat) : Box K := List.replicate n ⊥

/-- `IntervalVector::is_empty` (IBEX): looks at the first component only -/
def isEmpty : Box K → Bool
  | [] => false
  | I :: _ => I.isEmpty

/-- `IntervalVector::set_empty` (IBEX) -/
def setEmpty (X : Box K) : Box K := empty X.length

/-- `IntervalVector::operator&=` (IBEX) -/
def inter (X Y : Box K) : Box K :=
  if X.isEmpty || Y.isEmpty then X.setEmpty
  else if (List.zipWith (· ⊓ ·) X Y).any Itv.isEmpty then X.setEmpty
  else List.zipWith (· ⊓ ·) X Y

/-- `IntervalVector::operator|=` (IBEX) -/
def hull (X Y : Box K) : Box K :=
  if Y.isEmpty then X else if X.isEmpty then Y else List.zipWith (· ⊔ ·) X Y

end Box

/-! ### Lemmas -/

theorem InBox.length {v : List K} {X : Box K} (h : InBox v X) : v.length = X.length := List.Forall₂.length_eq h

theorem InBox.of_le {v : List K} {X Y : Box K} (h : InBox v X) (hle : BoxLe X Y) : InBox v Y := by
  unfold InBox BoxLe at *
  induction h generalizing Y with
  | nil => cases hle; exact .nil
  | cons h1 _ ih =>
    cases hle with
    | cons h2 h3 => exact .cons (Itv.mem_of_le h2 h1) (ih h3)

theorem BoxLe.refl (X : Box K) : BoxLe X X := List.forall₂_same.mpr fun _ _ => le_refl _

theorem BoxLe.trans {X Y Z : Box K} (h : BoxLe X Y) (h' : BoxLe Y Z) : BoxLe X Z := by
  unfold BoxLe at *
  induction h generalizing Z with
  | nil => cases h'; exact .nil
  | cons h1 _ ih =>
    cases h' with
    | cons h2 h3 => exact .cons (le_trans h1 h2) (ih h3)

theorem BoxLe.length {X Y : Box K} (h : BoxLe X Y) : X.length = Y.length := List.Forall₂.length_eq h

theorem BoxLe.append {X Y X' Y' : Box K} (h : BoxLe X Y) (h' : BoxLe X' Y') : BoxLe (X ++ X') (Y ++ Y') :=
  List.rel_append h h'

theorem InBox.append {v w : List K} {X Y : Box K} (h : InBox v X) (h' : InBox w Y) : InBox (v ++ w) (X ++ Y) :=
  List.rel_append h h'

theorem inBox_append_iff {v w : List K} {X Y : Box K} (hl : v.length = X.length) :
    InBox (v ++ w) (X ++ Y) ↔ InBox v X ∧ InBox w Y := by
  induction v generalizing X with
  | nil =>
    cases X with
    | nil => simp [InBox]
    | cons => simp at hl
  | cons a v ih =>
    cases X with
    | nil => simp at hl
    | cons I X =>
      simp only [List.length_cons, Nat.add_right_cancel_iff] at hl
      have := ih hl
      simp only [InBox, List.cons_append, List.forall₂_cons] at this ⊢
      rw [this, and_assoc]

theorem inBox_split {v : List K} {X Y : Box K} (h : InBox v (X ++ Y)) :
    InBox (v.take X.length) X ∧ InBox (v.drop X.length) Y := by
  have hl : v.length = X.length + Y.length := by simpa using h.length
  rw [← List.take_append_drop X.length v] at h
  exact (inBox_append_iff (by simp; omega)).mp h

theorem not_inBox_of_isEmpty {v : List K} {X : Box K} (h : X.isEmpty = true) : ¬ InBox v X := by
  intro hv
  cases hv with
  | nil => simp [Box.isEmpty] at h
  | cons h1 _ =>
    simp only [Box.isEmpty, Itv.isEmpty_iff] at h
    subst h
    exact Itv.not_mem_bot _ h1

theorem InBox.not_isEmpty {v : List K} {X : Box K} (h : InBox v X) : X.isEmpty = false := by
  by_contra h'
  exact not_inBox_of_isEmpty (by simpa using h') h

theorem not_inBox_of_any {v : List K} {X : Box K} (h : X.any Itv.isEmpty = true) : ¬ InBox v X := by
  intro hv
  unfold InBox at hv
  induction hv with
  | nil => simp at h
  | cons h1 _ ih =>
    simp only [List.any_cons, Bool.or_eq_true, Itv.isEmpty_iff] at h
    rcases h with h | h
    · subst h; exact Itv.not_mem_bot _ h1
    · exact ih h

theorem empty_boxLe {X : Box K} {n : Nat} (h : n = X.length) : BoxLe (Box.empty n) X := by
  subst h
  unfold Box.empty BoxLe
  induction X with
  | nil => exact .nil
  | cons I X ih => exact .cons bot_le ih

@[simp] theorem Box.length_empty (n : Nat) : (Box.empty n : Box K).length = n := by simp [Box.empty]

@[simp] theorem Box.length_setEmpty (X : Box K) : X.setEmpty.length = X.length := by simp [Box.setEmpty]

theorem setEmpty_le (X : Box K) : BoxLe X.setEmpty X := empty_boxLe rfl

theorem not_inBox_empty {v : List K} {n : Nat} (hn : 0 < n) : ¬ InBox v (Box.empty n : Box K) := by
  obtain ⟨m, rfl⟩ := Nat.exists_eq_succ_of_ne_zero hn.ne'
  exact not_inBox_of_isEmpty (by simp [Box.empty, List.replicate_succ, Box.isEmpty])

theorem inBox_zipInf {v : List K} {X Y : Box K} (hl : X.length = Y.length) :
    InBox v (List.zipWith (· ⊓ ·) X Y) ↔ InBox v X ∧ InBox v Y := by
  induction X generalizing v Y with
  | nil =>
    cases Y with
    | nil => simp [InBox]
    | cons => simp at hl
  | cons I X ih =>
    cases Y with
    | nil => simp at hl
    | cons J Y =>
      simp only [List.length_cons, Nat.add_right_cancel_iff] at hl
      cases v with
      | nil => simp [InBox]
      | cons a v =>
        have := @ih v Y hl
        simp only [InBox, List.zipWith_cons_cons, List.forall₂_cons, Itv.mem_inf] at this ⊢
        rw [this]
        tauto

theorem zipInf_le_left {X Y : Box K} (hl : X.length = Y.length) : BoxLe (List.zipWith (· ⊓ ·) X Y) X := by
  unfold BoxLe
  induction X generalizing Y with
  | nil => simp
  | cons I X ih =>
    cases Y with
    | nil => simp at hl
    | cons J Y => exact .cons inf_le_left (ih (by simpa using hl))

/-- membership in an intersection of boxes -/
theorem inBox_inter {v : List K} {X Y : Box K} (hl : X.length = Y.length) :
    InBox v (X.inter Y) ↔ InBox v X ∧ InBox v Y := by
  unfold Box.inter
  by_cases h0 : X.length = 0
  · have hX : X = [] := List.length_eq_zero_iff.mp h0
    have hY : Y = [] := List.length_eq_zero_iff.mp (by omega)
    subst hX; subst hY
    simp [InBox, Box.isEmpty]
  have hpos : 0 < X.length := by omega
  split
  · rename_i h
    constructor
    · intro hv; exact absurd hv (not_inBox_empty hpos)
    · rintro ⟨h1, h2⟩
      simp [h1.not_isEmpty, h2.not_isEmpty] at h
  · split
    · rename_i h
      constructor
      · intro hv; exact absurd hv (not_inBox_empty hpos)
      · intro hv; exact absurd ((inBox_zipInf hl).mpr hv) (not_inBox_of_any h)
    · exact inBox_zipInf hl

theorem inter_le_left {X Y : Box K} (hl : X.length = Y.length) : BoxLe (X.inter Y) X := by
  unfold Box.inter
  split
  · exact setEmpty_le X
  · split
    · exact setEmpty_le X
    · exact zipInf_le_left hl

theorem inter_le_right {X Y : Box K} (hl : X.length = Y.length) : BoxLe (X.inter Y) Y := by
  unfold Box.inter
  split
  · exact empty_boxLe hl
  · split
    · exact empty_boxLe hl
    · have : List.zipWith (· ⊓ ·) X Y = List.zipWith (· ⊓ ·) Y X := by
        rw [List.zipWith_comm]
        congr 1
        funext a b
        exact inf_comm _ _
      rw [this]
      exact zipInf_le_left hl.symm

@[simp] theorem Box.length_inter {X Y : Box K} (hl : X.length = Y.length) : (X.inter Y).length = X.length :=
  (inter_le_left hl).length

theorem Box.length_hull {X Y : Box K} (hl : X.length = Y.length) : (X.hull Y).length = X.length := by
  unfold Box.hull
  split
  · rfl
  · split
    · exact hl.symm
    · simp [hl]

theorem inBox_zipSup_left {v : List K} {X Y : Box K} (hl : X.length = Y.length) (h : InBox v X) :
    InBox v (List.zipWith (· ⊔ ·) X Y) := by
  unfold InBox at *
  induction h generalizing Y with
  | nil => simp
  | cons h1 _ ih =>
    cases Y with
    | nil => simp at hl
    | cons J Y => exact .cons (Itv.mem_sup_left h1) (ih (by simpa using hl))

theorem inBox_zipSup_right {v : List K} {X Y : Box K} (hl : X.length = Y.length) (h : InBox v Y) :
    InBox v (List.zipWith (· ⊔ ·) X Y) := by
  unfold InBox at *
  induction h generalizing X with
  | nil => simp
  | cons h1 _ ih =>
    cases X with
    | nil => simp at hl
    | cons J Y => exact .cons (Itv.mem_sup_right h1) (ih (by simpa using hl))

theorem InBox.hull_left {v : List K} {X Y : Box K} (hl : X.length = Y.length) (h : InBox v X) : InBox v (X.hull Y) := by
  unfold Box.hull
  rw [h.not_isEmpty]
  split
  · exact h
  · simpa using inBox_zipSup_left hl h

theorem InBox.hull_right {v : List K} {X Y : Box K} (hl : X.length = Y.length) (h : InBox v Y) : InBox v (X.hull Y) := by
  unfold Box.hull
  rw [h.not_isEmpty]
  split
  · rename_i h'; cases h'
  · split
    · exact h
    · exact inBox_zipSup_right hl h

theorem zipSup_le {X Y Z : Box K} (h1 : BoxLe X Z) (h2 : BoxLe Y Z) : BoxLe (List.zipWith (· ⊔ ·) X Y) Z := by
  unfold BoxLe at *
  induction h1 generalizing Y with
  | nil => simp
  | cons c _ ih =>
    cases h2 with
    | cons d h2 => exact .cons (sup_le c d) (ih h2)

theorem hull_le {X Y Z : Box K} (h1 : BoxLe X Z) (h2 : BoxLe Y Z) : BoxLe (X.hull Y) Z := by
  unfold Box.hull
  split
  · exact h1
  · split
    · exact h2
    · exact zipSup_le h1 h2

theorem le_hull_left {X Y : Box K} (hl : X.length = Y.length) : BoxLe X (X.hull Y) ∨ X.isEmpty = true := by
  unfold Box.hull
  split
  · exact .inl (BoxLe.refl X)
  · split
    · rename_i h; exact .inr h
    · left
      unfold BoxLe
      clear * - hl
      induction X generalizing Y with
      | nil => simp
      | cons I X ih =>
        cases Y with
        | nil => simp at hl
        | cons J Y => exact .cons le_sup_left (ih (by simpa using hl))

end Codac
