import Verif.Sivia.Sound

/-!
# Operators of IBEX used by SIVIA and the pavings: concrete instances

`LargestFirst::bisect` (ibex_LargestFirst.cpp) and `IntervalVector::diff` (ibex_IntervalVector.cpp) are not part of `/repo`. These
instances, in exact arithmetic, show that the specifications `IsBis`, `IsLargestFirst` and `IsDiff` are satisfiable, and are used for the
examples and the counterexamples.
-/

set_option linter.unusedSectionVars false

namespace Codac

variable {K : Type*} [Field K] [LinearOrder K] [IsStrictOrderedRing K]

/-! ### Bisection -/

/-- point where an interval is split -/
def Itv.cut (ratio : K) : Itv K → K
  | .mk (some a) (some b) _ => a + ratio * (b - a)
  | .mk (some a) none _ => a + 1
  | .mk none (some b) _ => b - 1
  | _ => 0

/-- lower and upper parts of an interval -/
def Itv.below (m : K) (I : Itv K) : Itv K := I ⊓ Itv.ofBounds none (some m)
def Itv.above (m : K) (I : Itv K) : Itv K := I ⊓ Itv.ofBounds (some m) none

/-- index of the first component of largest width -/
def largestIdx : Box K → Nat
  | [] => 0
  | I :: X => if X.all (fun J => decide (J.width ≤ I.width)) then 0 else largestIdx X + 1

/-- `LargestFirst::bisect` (IBEX) -/
def largestFirst (ratio : K) (X : Box K) : Box K × Box K :=
  let i := largestIdx X
  let I := X.getD i ⊥
  (X.set i (I.below (I.cut ratio)), X.set i (I.above (I.cut ratio)))

theorem largestIdx_lt {X : Box K} (h : X ≠ []) : largestIdx X < X.length := by
  induction X with
  | nil => exact absurd rfl h
  | cons I X ih =>
    rw [largestIdx]
    split
    · simp
    · rename_i hf
      have : X ≠ [] := by rintro rfl; simp at hf
      simp [ih this]

theorem largestIdx_max {X : Box K} : ∀ J ∈ X, J.width ≤ (X.getD (largestIdx X) ⊥).width := by
  induction X with
  | nil => simp
  | cons I X ih =>
    intro J hJ
    rw [largestIdx]
    split
    · rename_i hf
      simp only [List.all_eq_true, decide_eq_true_eq] at hf
      rcases List.mem_cons.mp hJ with rfl | hJ
      · simp
      · simpa using hf J hJ
    · rename_i hf
      simp only [List.all_eq_true, decide_eq_true_eq] at hf
      push Not at hf
      obtain ⟨L, hL, hlt⟩ := hf
      rcases List.mem_cons.mp hJ with rfl | hJ
      · simpa using hlt.le.trans (ih L hL)
      · simpa using ih J hJ

theorem mem_ofBounds_below {m a : K} : a ∈ (Itv.ofBounds none (some m) : Itv K) ↔ a ≤ m := by
  rw [Itv.mem_ofBounds]; simp [loLe, leHi]
theorem mem_ofBounds_above {m a : K} : a ∈ (Itv.ofBounds (some m) none : Itv K) ↔ m ≤ a := by
  rw [Itv.mem_ofBounds]; simp [loLe, leHi]

theorem inInt_below {m a : K} (h : (Itv.ofBounds none (some m) : Itv K).InInt a) : a < m := by
  have hb : bLe (none : Option K) (some m) := trivial
  rw [Itv.ofBounds, dif_pos hb] at h
  exact h.2 _ rfl
theorem inInt_above {m a : K} (h : (Itv.ofBounds (some m) none : Itv K).InInt a) : m < a := by
  have hb : bLe (some m) (none : Option K) := trivial
  rw [Itv.ofBounds, dif_pos hb] at h
  exact h.1 _ rfl

theorem boxLe_set {X : Box K} {i : Nat} {I : Itv K} (h : I ≤ X.getD i ⊥) : BoxLe (X.set i I) X := by
  unfold BoxLe
  induction X generalizing i with
  | nil => simp
  | cons J X ih =>
    cases i with
    | zero => exact .cons (by simpa using h) (BoxLe.refl X)
    | succ i => exact .cons (le_refl _) (ih (by simpa using h))

theorem inBox_set {X : Box K} {i : Nat} (hi : i < X.length) {I : Itv K} {v : List K} (h : InBox v X) (hv : ∀ a, v[i]? = some a → a ∈ I) :
    InBox v (X.set i I) := by
  unfold InBox at *
  induction h generalizing i with
  | nil => simp
  | cons h1 h2 ih =>
    cases i with
    | zero => exact .cons (hv _ (by simp)) h2
    | succ i => exact .cons h1 (ih (by simpa using hi) (fun a ha => hv a (by simpa using ha)))

theorem inInterior_set {X : Box K} {i : Nat} (hi : i < X.length) {I : Itv K} {v : List K} (h : InInterior v (X.set i I)) :
    ∃ a, v[i]? = some a ∧ I.InInt a := by
  unfold InInterior at h
  induction X generalizing i v with
  | nil => simp at hi
  | cons J X ih =>
    cases i with
    | zero =>
      simp only [List.set_cons_zero] at h
      cases h with
      | cons h1 _ => exact ⟨_, by simp, h1⟩
    | succ i =>
      simp only [List.set_cons_succ] at h
      cases h with
      | cons _ h2 =>
        obtain ⟨a, h3, h4⟩ := ih (by simpa using hi) h2
        exact ⟨a, by simpa using h3, h4⟩

theorem largestFirst_isBis (ratio : K) : IsBis (largestFirst ratio) where
  le₁ X _ := boxLe_set inf_le_left
  le₂ X _ := boxLe_set inf_le_left
  cover X v hX hv := by
    have hi := largestIdx_lt hX
    have hlen := hv.length
    have hget : ∃ a, v[largestIdx X]? = some a := ⟨v[largestIdx X], by rw [List.getElem?_eq_getElem (by omega)]⟩
    obtain ⟨a, ha⟩ := hget
    have hmem : a ∈ X.getD (largestIdx X) ⊥ := by
      have h2 := List.Forall₂.get hv (i := largestIdx X) (by omega) hi
      have h3 : v[largestIdx X] = a := by
        rw [List.getElem?_eq_getElem (by omega)] at ha; simpa using ha
      rw [List.get_eq_getElem, List.get_eq_getElem, h3] at h2
      rw [List.getD_eq_getElem?_getD, List.getElem?_eq_getElem hi]
      exact h2
    rcases le_total a ((X.getD (largestIdx X) ⊥).cut ratio) with h | h
    · left
      refine inBox_set hi hv fun b hb => ?_
      rw [ha, Option.some.injEq] at hb; subst hb
      exact Itv.mem_inf.mpr ⟨hmem, mem_ofBounds_below.mpr h⟩
    · right
      refine inBox_set hi hv fun b hb => ?_
      rw [ha, Option.some.injEq] at hb; subst hb
      exact Itv.mem_inf.mpr ⟨hmem, mem_ofBounds_above.mpr h⟩
  disj X v hX h1 h2 := by
    have hi := largestIdx_lt hX
    obtain ⟨a, ha, h1⟩ := inInterior_set hi h1
    obtain ⟨b, hb, h2⟩ := inInterior_set hi h2
    rw [ha, Option.some.injEq] at hb
    subst hb
    have e1 := h1.of_le (J := Itv.ofBounds none (some _)) inf_le_right
    have e2 := h2.of_le (J := Itv.ofBounds (some _) none) inf_le_right
    exact lt_asymm (inInt_below e1) (inInt_above e2)

theorem getD_set_self {X : Box K} {i : Nat} (hi : i < X.length) (I : Itv K) : (X.set i I).getD i ⊥ = I := by
  rw [List.getD_eq_getElem?_getD, List.getElem?_set_self hi]; rfl

theorem largestFirst_spec {ratio : K} (h0 : 0 < ratio) (h1 : ratio < 1) : IsLargestFirst (max ratio (1 - ratio)) (largestFirst ratio) := by
  intro X hb ⟨I, hI, hw⟩
  have hX : X ≠ [] := by rintro rfl; simp at hI
  have hi := largestIdx_lt hX
  refine ⟨largestIdx X, largestIdx_max, ?_⟩
  have hpos : 0 < (X.getD (largestIdx X) ⊥).width := lt_of_lt_of_le hw (largestIdx_max I hI)
  simp only [largestFirst]
  rw [getD_set_self hi, getD_set_self hi]
  generalize X.getD (largestIdx X) ⊥ = J at hpos
  cases J with
  | empty => simp [Itv.width] at hpos
  | mk lo hi p =>
    cases lo with
    | none => simp [Itv.width] at hpos
    | some a =>
      cases hi with
      | none => simp [Itv.width] at hpos
      | some b =>
        simp only [Itv.width] at hpos
        have hab : a < b := by linarith
        have hm1 : a ≤ a + ratio * (b - a) := by nlinarith
        have hm2 : a + ratio * (b - a) ≤ b := by nlinarith
        have hm1' : a ≤ a + ratio * (b - a) := hm1
        have e1 : Itv.below (Itv.cut ratio (.mk (some a) (some b) p)) (.mk (some a) (some b) p) =
            .mk (some a) (some (a + ratio * (b - a))) hm1 := by
          refine Itv.ext_mem fun x => ?_
          rw [Itv.below, Itv.mem_inf, mem_ofBounds_below]
          show (a ≤ x ∧ x ≤ b) ∧ x ≤ a + ratio * (b - a) ↔ (a ≤ x ∧ x ≤ a + ratio * (b - a))
          constructor
          · rintro ⟨⟨h, _⟩, h'⟩; exact ⟨h, h'⟩
          · rintro ⟨h, h'⟩; exact ⟨⟨h, h'.trans hm2⟩, h'⟩
        have e2 : Itv.above (Itv.cut ratio (.mk (some a) (some b) p)) (.mk (some a) (some b) p) =
            .mk (some (a + ratio * (b - a))) (some b) hm2 := by
          refine Itv.ext_mem fun x => ?_
          rw [Itv.above, Itv.mem_inf, mem_ofBounds_above]
          show (a ≤ x ∧ x ≤ b) ∧ a + ratio * (b - a) ≤ x ↔ (a + ratio * (b - a) ≤ x ∧ x ≤ b)
          constructor
          · rintro ⟨⟨_, h⟩, h'⟩; exact ⟨h', h⟩
          · rintro ⟨h, h'⟩; exact ⟨⟨hm1.trans h, h'⟩, h⟩
        rw [e1, e2]
        simp only [Itv.width]
        have l1 : ratio ≤ max ratio (1 - ratio) := le_max_left _ _
        have l2 : 1 - ratio ≤ max ratio (1 - ratio) := le_max_right _ _
        constructor <;> nlinarith

/-! ### Difference -/

/-- `Interval::diff` with compactness (IBEX): closed intervals covering the difference, none of them degenerated; the closure of the
difference with a single point is the interval itself -/
def Itv.diffItv (I J : Itv K) : List (Itv K) :=
  if J.isDegenerated then [I]
  else [I ⊓ (match J.lb? with | none => ⊥ | some l => Itv.ofBounds none (some l)),
    I ⊓ (match J.ub? with | none => ⊥ | some h => Itv.ofBounds (some h) none)].filter fun D => !D.isDegenerated

/-- the pieces of the difference, direction after direction -/
def diffPieces : Box K → Box K → List (Box K)
  | I :: X, J :: Y => ((I.diffItv J).map fun D => D :: X) ++ (diffPieces X Y).map fun P => J :: P
  | _, _ => []

/-- `IntervalVector::diff` (IBEX) for an argument inside the box -/
def boxDiff (X Y : Box K) : List (Box K) := if Y.isEmpty then [X] else diffPieces X Y

theorem diffItv_le {I J D : Itv K} (h : D ∈ I.diffItv J) : D ≤ I := by
  unfold Itv.diffItv at h
  split at h
  · simp only [List.mem_cons, List.not_mem_nil, or_false] at h; subst h; exact le_refl _
  · simp only [List.mem_filter, List.mem_cons, List.not_mem_nil, or_false] at h
    rcases h.1 with rfl | rfl <;> exact inf_le_left

theorem not_degenerated_of_two {I : Itv K} {a b : K} (ha : a ∈ I) (hb : b ∈ I) (hab : a < b) : I.isDegenerated = false := by
  cases I with
  | empty => exact ha.elim
  | mk lo hi p =>
    cases lo with
    | none => rfl
    | some l =>
      cases hi with
      | none => rfl
      | some h =>
        simp only [Itv.isDegenerated, decide_eq_false_iff_not]
        intro he
        have h1 : l ≤ a := ha.1
        have h2 : b ≤ h := hb.2
        linarith

theorem diffItv_cover {I J : Itv K} (hle : J ≤ I) {a : K} (ha : a ∈ I) (hJ : ¬ a ∈ J) : ∃ D ∈ I.diffItv J, a ∈ D := by
  unfold Itv.diffItv
  split
  · exact ⟨I, by simp, ha⟩
  · rename_i hd
    cases J with
    | empty => simp [Itv.isDegenerated] at hd
    | mk lo hi p =>
      have : (∃ l, lo = some l ∧ a < l) ∨ (∃ h, hi = some h ∧ h < a) := by
        by_contra hno
        push Not at hno
        refine hJ ⟨?_, ?_⟩
        · cases lo with
          | none => trivial
          | some l => exact hno.1 l rfl
        · cases hi with
          | none => trivial
          | some h => exact hno.2 h rfl
      rcases this with ⟨l, rfl, hl⟩ | ⟨h, rfl, hl⟩
      · refine ⟨I ⊓ Itv.ofBounds none (some l), ?_, Itv.mem_inf.mpr ⟨ha, mem_ofBounds_below.mpr hl.le⟩⟩
        have hlI : l ∈ I := by
          refine Itv.mem_of_le hle ⟨le_refl _, ?_⟩
          cases hi with
          | none => trivial
          | some h => exact p
        simp only [List.mem_filter, List.mem_cons]
        refine ⟨.inl rfl, ?_⟩
        rw [not_degenerated_of_two (Itv.mem_inf.mpr ⟨ha, mem_ofBounds_below.mpr hl.le⟩)
          (Itv.mem_inf.mpr ⟨hlI, mem_ofBounds_below.mpr (le_refl l)⟩) hl]
        rfl
      · refine ⟨I ⊓ Itv.ofBounds (some h) none, ?_, Itv.mem_inf.mpr ⟨ha, mem_ofBounds_above.mpr hl.le⟩⟩
        have hlI : h ∈ I := by
          refine Itv.mem_of_le hle ⟨?_, le_refl _⟩
          cases lo with
          | none => trivial
          | some l => exact p
        simp only [List.mem_filter, List.mem_cons]
        refine ⟨.inr (.inl rfl), ?_⟩
        rw [not_degenerated_of_two (Itv.mem_inf.mpr ⟨hlI, mem_ofBounds_above.mpr (le_refl h)⟩)
          (Itv.mem_inf.mpr ⟨ha, mem_ofBounds_above.mpr hl.le⟩) hl]
        rfl

theorem diffItv_sep {I J D : Itv K} (h : D ∈ I.diffItv J) {a : K} (ha : D.InInt a) (hJ : a ∈ J) : J.isDegenerated = true := by
  unfold Itv.diffItv at h
  split at h
  · assumption
  · exfalso
    simp only [List.mem_filter, List.mem_cons, List.not_mem_nil, or_false] at h
    cases J with
    | empty => exact hJ.elim
    | mk lo hi p =>
      rcases h.1 with rfl | rfl
      · cases lo with
        | none => exact (ha.of_le inf_le_right).elim
        | some l =>
          have e := ha.of_le (J := Itv.ofBounds none (some l)) inf_le_right
          exact absurd hJ.1 (not_le.mpr (inInt_below e))
      · cases hi with
        | none => exact (ha.of_le inf_le_right).elim
        | some l =>
          have e := ha.of_le (J := Itv.ofBounds (some l) none) inf_le_right
          exact absurd hJ.2 (not_le.mpr (inInt_above e))

theorem boxDiff_isDiff : IsDiff (boxDiff (K := K)) where
  le X Y h P hP := by
    unfold boxDiff at hP
    split at hP
    · simp only [List.mem_cons, List.not_mem_nil, or_false] at hP; subst hP; exact BoxLe.refl _
    · rename_i he
      clear he
      unfold BoxLe at h ⊢
      induction h generalizing P with
      | nil => simp [diffPieces] at hP
      | @cons J I Y' X' h1 h2 ih =>
        simp only [diffPieces, List.mem_append, List.mem_map] at hP
        rcases hP with ⟨D, hD, rfl⟩ | ⟨Q, hQ, rfl⟩
        · exact .cons (diffItv_le hD) (BoxLe.refl _)
        · exact .cons h1 (ih Q hQ)
  cover X Y h v hv hn := by
    unfold boxDiff
    split
    · exact ⟨X, by simp, hv⟩
    · rename_i he
      clear he
      unfold BoxLe at h
      unfold InBox at hv hn ⊢
      induction h generalizing v with
      | nil => cases hv; exact absurd .nil hn
      | @cons J I Y' X' h1 h2 ih =>
        cases hv with
        | @cons a _ v' _ ha hv' =>
          by_cases haJ : a ∈ J
          · obtain ⟨P, hP, hin⟩ := ih v' hv' (fun h => hn (.cons haJ h))
            exact ⟨J :: P, by simp only [diffPieces, List.mem_append, List.mem_map]; exact .inr ⟨P, hP, rfl⟩, .cons haJ hin⟩
          · obtain ⟨D, hD, hin⟩ := diffItv_cover h1 ha haJ
            exact ⟨D :: X', by simp only [diffPieces, List.mem_append, List.mem_map]; exact .inl ⟨D, hD, rfl⟩, .cons hin hv'⟩
  sep X Y h P hP v hv hY := by
    unfold boxDiff at hP
    rw [hY.not_isEmpty, if_neg (by simp)] at hP
    unfold BoxLe at h
    unfold InInterior at hv
    unfold InBox at hY
    induction h generalizing v P with
    | nil => simp [diffPieces] at hP
    | @cons J I Y' X' h1 h2 ih =>
      cases hY with
      | @cons a _ v' _ haJ hY' =>
        simp only [diffPieces, List.mem_append, List.mem_map] at hP
        simp only [List.any_cons, Bool.or_eq_true]
        rcases hP with ⟨D, hD, rfl⟩ | ⟨Q, hQ, rfl⟩
        · cases hv with
          | cons h3 h4 => exact .inl (diffItv_sep hD h3 haJ)
        · cases hv with
          | cons h3 h4 => exact .inr (ih Q hQ v' h4 hY')

end Codac
