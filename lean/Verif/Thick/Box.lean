import Verif.Thick.Interval

/-!
# Thick boxes

Models `/repo/src/unsupported/thickset/codac_ThickBox_impl.hpp`.
-/

set_option linter.unusedSectionVars false

namespace Codac

variable {K : Type*} [Field K] [LinearOrder K] [IsStrictOrderedRing K]

/-- `ThickBox`, codac_ThickBox.h:22-153 -/
abbrev ThickBox (K : Type*) [LinearOrder K] := List (ThickItv K)

namespace ThickBox

/-- `superset`, codac_ThickBox_impl.hpp:25-31 -/
def superset (T : ThickBox K) : Box K := T.map ThickItv.superset

/-- `intersects`, codac_ThickBox_impl.hpp:74-80 -/
def intersects : ThickBox K → Box K → Bool
  | t :: T, y :: Y => t.intersects (ThickItv.ofItv y) && intersects T Y
  | _, _ => true

/-- `is_not_subset`, codac_ThickBox_impl.hpp:82-88 -/
def isNotSubset : ThickBox K → Box K → Bool
  | t :: T, y :: Y => t.isNotSubset (ThickItv.ofItv y) || isNotSubset T Y
  | _, _ => false

/-- `is_subset(IntervalVector)`, codac_ThickBox_impl.hpp:90-96 -/
def isSubset : ThickBox K → Box K → Bool
  | t :: T, y :: Y => t.isSubset (ThickItv.ofItv y) && isSubset T Y
  | _, _ => true

/-- `is_subset(ThickBox)`, codac_ThickBox_impl.hpp:98-104: the result is `false` before the loop of `&=` -/
def isSubsetThick (T U : ThickBox K) : Bool := (T.zip U).foldl (fun res p => res && p.1.isSubset p.2) false

/-- IBEX `IntervalVector::is_subset` -/
def boxSubset (X Y : Box K) : Bool := X.isEmpty || (!Y.isEmpty && decide (X.length = Y.length) && (X.zip Y).all fun p => decide (p.1 ≤ p.2))

/-- IBEX `IntervalVector::is_disjoint` -/
def boxDisjoint (X Y : Box K) : Bool := X.isEmpty || Y.isEmpty || (X.zip Y).any fun p => (p.1 ⊓ p.2).isEmpty

/-- `is_inside`, codac_ThickBox_impl.hpp:121-134 (and `ThickfIn::test`, codac_ThickTest.cpp:140-154) -/
def isInside (T : ThickBox K) (y : Box K) : TB :=
  if boxSubset T.superset y then .in_
  else if boxDisjoint T.superset y then .out
  else
    let b1 := T.intersects y
    let b2 := T.isNotSubset y
    if b1 && b2 then .maybe
    else if !b1 && b2 then .maybeOut
    else if !b2 && b1 then .maybeIn
    else .unk

/-- specification: the box of lower corner `a` and upper corner `b` is a member of the thick box -/
def Member : ThickBox K → List (K × K) → Prop
  | [], [] => True
  | t :: T, p :: l => t.Member p.1 p.2 ∧ Member T l
  | _, _ => False

end ThickBox

/-- specification: the box of the bounds `l` is in the box `y` -/
def boundsIn (l : List (K × K)) (y : Box K) : Prop := List.Forall₂ (fun p Y => p.1 ∈ Y ∧ p.2 ∈ Y) l y

/-- specification: the box of the bounds `l` meets the box `y` -/
def boundsMeet (l : List (K × K)) (y : Box K) : Prop := List.Forall₂ (fun p Y => ∃ x, p.1 ≤ x ∧ x ≤ p.2 ∧ x ∈ Y) l y

/-- specification: no bound of the box is a bound of `y` -/
def noTouch (l : List (K × K)) (y : Box K) : Prop := List.Forall₂ (fun p Y => Y.lb? ≠ some p.1 ∧ Y.ub? ≠ some p.2) l y

namespace ThickItv

theorem mem_bound {b : Option K} {x : K} : x ∈ bound b ↔ b = some x := by
  cases b with
  | none => simp [bound]
  | some y => simp [bound, Itv.mem_point, eq_comm]

/-- what a true `intersects` with an interval says of the members -/
theorem intersects_ofItv {T : ThickItv K} {y : Itv K} (h : T.intersects (ofItv y) = true) {a b : K} (hm : T.Member a b) : ∃ x, a ≤ x ∧ x ≤ b ∧ x ∈ y := by
  have hT1 := Itv.ne_bot_of_mem hm.1
  have hT2 := Itv.ne_bot_of_mem hm.2.1
  unfold intersects at h
  rw [Bool.and_eq_true] at h
  unfold ofItv ofItvs at h
  by_cases hc : Checked (bound y.lb?) (bound y.ub?)
  · rw [if_pos hc] at h
    obtain ⟨n1, n2⟩ := hc.ne
    obtain ⟨l, hl⟩ := Itv.exists_mem n1
    obtain ⟨u, hu⟩ := Itv.exists_mem n2
    have h1 := (diffNonpos_iff n1 hT2).mp h.1 l hl b hm.2.1
    have h2 := (diffNonpos_iff hT1 n2).mp h.2 a hm.1 u hu
    rw [mem_bound] at hl hu
    cases y with
    | empty => cases hl
    | mk c d p =>
      simp only [Itv.lb?, Itv.ub?] at hl hu
      subst hl hu
      exact ⟨max a l, le_max_left _ _, max_le hm.2.2 h1, le_max_right _ _, max_le h2 p⟩
  · rw [if_neg hc] at h
    have : diffNonpos (⊥ : Itv K) T.ub = false := rfl
    rw [this] at h
    cases h.1

/-- what a true `is_not_subset` of an interval says of the members -/
theorem notSubset_ofItv {T : ThickItv K} {y : Itv K} (h : T.isNotSubset (ofItv y) = true) {a b : K} (hm : T.Member a b) : leHi a y.lb? ∧ y.lb? ≠ none ∨ loLe y.ub? b ∧ y.ub? ≠ none := by
  have hT1 := Itv.ne_bot_of_mem hm.1
  have hT2 := Itv.ne_bot_of_mem hm.2.1
  unfold isNotSubset at h
  rw [Bool.or_eq_true] at h
  unfold ofItv ofItvs at h
  by_cases hc : Checked (bound y.lb?) (bound y.ub?)
  · rw [if_pos hc] at h
    obtain ⟨n1, n2⟩ := hc.ne
    rcases h with h | h
    · obtain ⟨l, hl⟩ := Itv.exists_mem n1
      have h1 := (diffNonpos_iff hT1 n1).mp h a hm.1 l hl
      rw [mem_bound] at hl
      left; rw [hl]; exact ⟨h1, by simp⟩
    · obtain ⟨u, hu⟩ := Itv.exists_mem n2
      have h1 := (diffNonpos_iff n2 hT2).mp h u hu b hm.2.1
      rw [mem_bound] at hu
      right; rw [hu]; exact ⟨h1, by simp⟩
  · rw [if_neg hc] at h
    exfalso
    rcases h with h | h
    · have : diffNonpos T.lb (⊥ : Itv K) = false := by
        unfold diffNonpos Itv.sub
        cases T.lb <;> rfl
      rw [this] at h; cases h
    · have : diffNonpos (⊥ : Itv K) T.ub = false := rfl
      rw [this] at h; cases h

theorem not_in_of_notSubset {T : ThickItv K} {y : Itv K} (h : T.isNotSubset (ofItv y) = true) {a b : K} (hm : T.Member a b) (ht : y.lb? ≠ some a ∧ y.ub? ≠ some b) :
    ¬ (a ∈ y ∧ b ∈ y) := by
  rintro ⟨ha, hb⟩
  rcases notSubset_ofItv h hm with ⟨h1, h2⟩ | ⟨h1, h2⟩
  · have h3 := mem_ubLo ha
    cases e : y.lb? with
    | none => exact h2 e
    | some l =>
      rw [e] at h1 h3 ht
      exact ht.1 (by rw [le_antisymm h1 h3])
  · have h3 := mem_lbHi hb
    cases e : y.ub? with
    | none => exact h2 e
    | some l =>
      rw [e] at h1 h3 ht
      exact ht.2 (by rw [le_antisymm h1 h3])

theorem superset_mem {T : ThickItv K} {a b x : K} (hT : T.Ok) (hm : T.Member a b) (h1 : a ≤ x) (h2 : x ≤ b) : x ∈ T.superset :=
  (mem_superset (checked_of_member hT hm)).mpr ⟨a, b, hm, h1, h2⟩

end ThickItv

namespace ThickBox

theorem Member.length {T : ThickBox K} {l : List (K × K)} (h : Member T l) : l.length = T.length := by
  induction T generalizing l with
  | nil => cases l with
    | nil => rfl
    | cons p l => exact h.elim
  | cons t T ih => cases l with
    | nil => exact h.elim
    | cons p l => simp [ih h.2]

theorem intersects_sound {T : ThickBox K} {y : Box K} (hl : T.length = y.length) (h : T.intersects y = true) {l : List (K × K)} (hm : Member T l) : boundsMeet l y := by
  induction T generalizing y l with
  | nil =>
    cases y with
    | nil => cases l with
      | nil => exact .nil
      | cons p l => exact hm.elim
    | cons a y => simp at hl
  | cons t T ih =>
    cases y with
    | nil => simp at hl
    | cons a y => cases l with
      | nil => exact hm.elim
      | cons p l =>
        rw [intersects, Bool.and_eq_true] at h
        exact .cons (ThickItv.intersects_ofItv h.1 hm.1) (ih (by simpa using hl) h.2 hm.2)

theorem notSubset_sound {T : ThickBox K} {y : Box K} (h : T.isNotSubset y = true) {l : List (K × K)} (hm : Member T l) (ht : noTouch l y) : ¬ boundsIn l y := by
  induction T generalizing y l with
  | nil => simp [isNotSubset] at h
  | cons t T ih =>
    cases y with
    | nil => simp [isNotSubset] at h
    | cons a y => cases l with
      | nil => exact hm.elim
      | cons p l =>
        rw [isNotSubset, Bool.or_eq_true] at h
        intro hb
        cases hb with
        | cons hb1 hb2 =>
          cases ht with
          | cons ht1 ht2 =>
            rcases h with h | h
            · exact ThickItv.not_in_of_notSubset h hm.1 ht1 hb1
            · exact ih h hm.2 ht2 hb2

theorem superset_in {T : ThickBox K} (hT : ∀ t ∈ T, t.Ok) {l : List (K × K)} (hm : Member T l) :
    List.Forall₂ (fun p Y => ∀ x, p.1 ≤ x → x ≤ p.2 → x ∈ Y) l T.superset ∧ ∀ p ∈ l, p.1 ≤ p.2 := by
  induction T generalizing l with
  | nil => cases l with
    | nil => exact ⟨.nil, by simp⟩
    | cons p l => exact hm.elim
  | cons t T ih => cases l with
    | nil => exact hm.elim
    | cons p l =>
      obtain ⟨i1, i2⟩ := ih (fun t ht => hT t (by simp [ht])) hm.2
      refine ⟨.cons (fun x h1 h2 => ThickItv.superset_mem (hT t (by simp)) hm.1 h1 h2) i1, ?_⟩
      intro q hq
      rcases List.mem_cons.mp hq with rfl | hq
      · exact hm.1.2.2
      · exact i2 q hq

theorem not_empty_of_forall {l : List (K × K)} {X : Box K} (h : List.Forall₂ (fun p Y => ∀ x, p.1 ≤ x → x ≤ p.2 → x ∈ Y) l X) (hl : ∀ p ∈ l, p.1 ≤ p.2) : X.isEmpty = false := by
  have : InBox (l.map Prod.fst) X := by
    unfold InBox
    rw [List.forall₂_map_left_iff]
    induction h with
    | nil => exact .nil
    | cons h1 h2 ih => exact .cons (h1 _ le_rfl (hl _ (by simp))) (ih fun p hp => hl p (by simp [hp]))
  exact this.not_isEmpty

theorem boxSubset_sound {l : List (K × K)} {X y : Box K} (h : List.Forall₂ (fun p Y => ∀ x, p.1 ≤ x → x ≤ p.2 → x ∈ Y) l X) (hl : ∀ p ∈ l, p.1 ≤ p.2) (hs : boxSubset X y = true) :
    boundsIn l y := by
  unfold boxSubset at hs
  rw [not_empty_of_forall h hl] at hs
  simp only [Bool.false_or, Bool.and_eq_true, decide_eq_true_iff] at hs
  obtain ⟨⟨h1, h2⟩, h3⟩ := hs
  clear h1
  induction h generalizing y with
  | nil => cases y with
    | nil => exact .nil
    | cons a y => simp at h2
  | cons h4 h5 ih =>
    cases y with
    | nil => simp at h2
    | cons a y =>
      simp only [List.zip_cons_cons, List.all_cons, Bool.and_eq_true, decide_eq_true_iff] at h3
      have hp := hl _ (List.mem_cons_self)
      exact .cons ⟨Itv.mem_of_le h3.1 (h4 _ le_rfl hp), Itv.mem_of_le h3.1 (h4 _ hp le_rfl)⟩
        (ih (fun p hp => hl p (by simp [hp])) h3.2 (by simpa using h2))

theorem boxDisjoint_sound {l : List (K × K)} {X y : Box K} (h : List.Forall₂ (fun p Y => ∀ x, p.1 ≤ x → x ≤ p.2 → x ∈ Y) l X) (hl : ∀ p ∈ l, p.1 ≤ p.2) (hs : boxDisjoint X y = true) :
    ¬ boundsMeet l y := by
  intro hm
  have hy : y.isEmpty = false := by
    obtain ⟨v, hv⟩ : ∃ v, InBox v y := by
      clear hs h
      induction hm with
      | nil => exact ⟨[], .nil⟩
      | cons h1 h2 ih =>
        obtain ⟨v, hv⟩ := ih fun p hp => hl p (by simp [hp])
        obtain ⟨x, _, _, hx⟩ := h1
        exact ⟨x :: v, .cons hx hv⟩
    exact hv.not_isEmpty
  unfold boxDisjoint at hs
  rw [not_empty_of_forall h hl, hy] at hs
  simp only [Bool.false_or] at hs
  clear hy
  induction h generalizing y with
  | nil => simp at hs
  | cons h4 h5 ih =>
    cases hm with
    | cons hm1 hm2 =>
      simp only [List.zip_cons_cons, List.any_cons, Bool.or_eq_true] at hs
      rcases hs with hs | hs
      · obtain ⟨x, x1, x2, x3⟩ := hm1
        have : x ∈ _ ⊓ _ := Itv.mem_inf.mpr ⟨h4 x x1 x2, x3⟩
        exact (Itv.ne_bot_of_mem this) (Itv.isEmpty_iff.mp hs)
      · exact ih (fun p hp => hl p (by simp [hp])) hm2 hs

end ThickBox

end Codac
