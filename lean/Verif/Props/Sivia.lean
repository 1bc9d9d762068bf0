import Verif.Sivia.Ibex
import Verif.Sivia.Term
import Verif.Props.Sep
import Mathlib.Algebra.Order.Archimedean.Basic
import Mathlib.Data.Rat.Floor

/-!
# C29, C30, C31: SIVIA

The bisection and the difference of boxes are those of IBEX, specified by `IsBis`, `IsLargestFirst` and `IsDiff`
(`Verif/Sivia/Model.lean`); `Verif/Sivia/Ibex.lean` gives instances. `fuel` bounds the number of iterations: a result `some r` is the
one of the code, whatever the fuel.
-/

set_option linter.unusedSectionVars false

namespace Codac.Props
open Codac Codac.Sivia

variable {K : Type*} [Field K] [LinearOrder K] [IsStrictOrderedRing K]

/-- every interval of a list has a length smaller than `p`, in terms of points -/
def ShorterThan (p : K) (X : Box K) : Prop := ∀ I ∈ X, ∀ a b, a ∈ I → b ∈ I → b - a < p

theorem shorterThan_of {p : K} {X : Box K} (h : Box.maxDiamLt p X = true) : ShorterThan p X := by
  intro I hI a b ha hb
  rw [Box.maxDiamLt, List.all_eq_true] at h
  have h := h I hI
  cases I with
  | empty => exact ha.elim
  | mk lo hi q =>
    cases lo with
    | none => simp [Itv.diamBelow] at h
    | some l =>
      cases hi with
      | none => simp [Itv.diamBelow] at h
      | some u =>
        simp only [Itv.diamBelow, decide_eq_true_eq] at h
        have h1 : l ≤ a := ha.1
        have h2 : b ≤ u := hb.2
        linarith

section ctc
variable {bis : Box K → Box K × Box K} {diff : Box K → Box K → List (Box K)} {c : Box K → Box K} {S : List K → Prop} {p : K}
  {regular : Bool} {x0 y0 : Box K} {fuel : Nat} {r : SivRes K}

theorem ctcStep_rem {X Z : Box K} (h : (ctcStep regular diff c X).rem = some Z) :
    (c X).isEmpty = false ∧ Z = if regular then X else c X := by
  simp only [ctcStep] at h
  cases he : (c X).isEmpty with
  | true => rw [he, if_pos rfl] at h; cases h
  | false => rw [he, if_neg (by simp), Option.some.injEq] at h; exact ⟨rfl, h.symm⟩

theorem ctcStep_le (hc : IsCtc (x0 ++ y0).length S c) {X Z : Box K} (hX : BoxLe X (x0 ++ y0))
    (h : (ctcStep regular diff c X).rem = some Z) : BoxLe Z X := by
  obtain ⟨_, rfl⟩ := ctcStep_rem h
  split
  · exact BoxLe.refl _
  · exact hc.le X hX.length

theorem ctc_queue (hb : IsBis bis) (hc : IsCtc (x0 ++ y0).length S c) (h0 : x0 ≠ []) (X Z : Box K) (hX : BoxLe X (x0 ++ y0))
    (h : (ctcStep regular diff c X).rem = some Z) : ∀ P ∈ splitXY bis x0.length y0 Z, BoxLe P (x0 ++ y0) :=
  splitXY_le hb h0 ((ctcStep_le hc hX h).trans hX)

/-- C29: every point of the initial box `x0` (`x0 × y0`) is in a returned box -/
theorem C29_cover (hb : IsBis bis) (hd : IsDiff diff) (hc : IsCtc (x0 ++ y0).length S c) (h0 : x0 ≠ [])
    (h : sivCtc bis diff c p regular x0 y0 fuel = some r) {v : List K} (hv : InBox v (x0 ++ y0)) :
    ∃ P ∈ r.out ++ r.unk, InBox v P := by
  have hs : ∀ X, BoxLe X (x0 ++ y0) → InBox v X → (True ∧ InSome v (ctcStep regular diff c X).inn) ∨
      (True ∧ InSome v (ctcStep regular diff c X).out) ∨ ∃ Z, (ctcStep regular diff c X).rem = some Z ∧ InBox v Z := by
    intro X hX hvX
    right
    cases hr : regular with
    | true =>
      cases he : (c X).isEmpty with
      | true => exact .inl ⟨trivial, X, by simp [ctcStep, he], hvX⟩
      | false => exact .inr ⟨X, by simp [ctcStep, he], hvX⟩
    | false =>
      by_cases hm : InBox v (c X)
      · exact .inr ⟨c X, by simp [ctcStep, hm.not_isEmpty], hm⟩
      · obtain ⟨P, hP, hin⟩ := hd.cover X (c X) (hc.le X hX.length) v hvX hm
        exact .inl ⟨trivial, P, by simpa [ctcStep] using hP, hin⟩
  have hinn : r.inn = [] := by
    have := (loop_all (Q := fun _ => True) (Pi := fun _ => False) (Po := fun _ => True) (Pu := fun _ => True)
      (by simp [ctcStep]) (by simp) (by simp) (by simp) h (by simp) (by simp) (by simp) (by simp)).1
    exact List.eq_nil_iff_forall_not_mem.mpr this
  have := loop_cover (wi := True) (wo := True) (Q := fun X => BoxLe X (x0 ++ y0)) hs
    (fun X Z hX hr hz => splitXY_cover hb h0 ((ctcStep_le hc hX hr).trans hX) hz)
    (fun X Z hX hr _ => ctc_queue hb hc h0 X Z hX hr) h (by simp [BoxLe.refl]) (.inl ⟨_, by simp, hv⟩)
  rcases this with ⟨_, ⟨P, hP, _⟩⟩ | ⟨_, k⟩ | k
  · rw [hinn] at hP; simp at hP
  · exact k.append_left _
  · exact k.append_right _

/-- C29: every solution of the initial box is in an undetermined box: none is lost -/
theorem C29_solutions_kept (hb : IsBis bis) (hc : IsCtc (x0 ++ y0).length S c) (h0 : x0 ≠ [])
    (h : sivCtc bis diff c p regular x0 y0 fuel = some r) {v : List K} (hv : InBox v (x0 ++ y0)) (hS : S v) :
    ∃ P ∈ r.unk, InBox v P := by
  have hs : ∀ X, BoxLe X (x0 ++ y0) → InBox v X → (False ∧ InSome v (ctcStep regular diff c X).inn) ∨
      (False ∧ InSome v (ctcStep regular diff c X).out) ∨ ∃ Z, (ctcStep regular diff c X).rem = some Z ∧ InBox v Z := by
    intro X hX hvX
    have hm := hc.keeps X v hX.length hvX hS
    refine .inr (.inr ⟨if regular then X else c X, by simp [ctcStep, hm.not_isEmpty], ?_⟩)
    split
    · exact hvX
    · exact hm
  have := loop_cover (wi := False) (wo := False) (Q := fun X => BoxLe X (x0 ++ y0)) hs
    (fun X Z hX hr hz => splitXY_cover hb h0 ((ctcStep_le hc hX hr).trans hX) hz)
    (fun X Z hX hr _ => ctc_queue hb hc h0 X Z hX hr) h (by simp [BoxLe.refl]) (.inl ⟨_, by simp, hv⟩)
  rcases this with k | k | k
  · exact k.1.elim
  · exact k.1.elim
  · exact k

/-- C29: every returned box is inside the initial box, and the undetermined boxes are smaller than the precision in the components of
`x0` -/
theorem C29_within (hb : IsBis bis) (hd : IsDiff diff) (hc : IsCtc (x0 ++ y0).length S c) (h0 : x0 ≠ [])
    (h : sivCtc bis diff c p regular x0 y0 fuel = some r) :
    (∀ P ∈ r.out ++ r.unk, BoxLe P (x0 ++ y0)) ∧ ∀ P ∈ r.unk, ShorterThan p (P.take x0.length) := by
  have := loop_all (Q := fun X => BoxLe X (x0 ++ y0)) (Pi := fun _ => True) (Po := fun P => BoxLe P (x0 ++ y0))
    (Pu := fun P => BoxLe P (x0 ++ y0) ∧ ShorterThan p (P.take x0.length)) (by simp) ?_ ?_
    (fun X Z hX hr _ => ctc_queue hb hc h0 X Z hX hr) h (by simp [BoxLe.refl]) (by simp) (by simp) (by simp)
  · refine ⟨fun P hP => ?_, fun P hP => (this.2.2 P hP).2⟩
    rcases List.mem_append.mp hP with hP | hP
    · exact this.2.1 P hP
    · exact (this.2.2 P hP).1
  · intro X hX P hP
    simp only [ctcStep] at hP
    split at hP
    · split at hP
      · simp only [List.mem_cons, List.not_mem_nil, or_false] at hP; subst hP; exact hX
      · simp at hP
    · exact (hd.le X (c X) (hc.le X hX.length) P hP).trans hX
  · intro X Z hX hr hs
    exact ⟨(ctcStep_le hc hX hr).trans hX, shorterThan_of hs⟩

/-- C29, regular paving: the boxes classified outside contain no solution -/
theorem C29_out_regular (hb : IsBis bis) (hc : IsCtc (x0 ++ y0).length S c) (h0 : x0 ≠ [])
    (h : sivCtc bis diff c p true x0 y0 fuel = some r) : ∀ P ∈ r.out, ∀ v, InBox v P → ¬ S v := by
  refine (loop_all (Q := fun X => BoxLe X (x0 ++ y0)) (Pi := fun _ => True) (Po := fun P => ∀ v, InBox v P → ¬ S v)
    (Pu := fun _ => True) (by simp) ?_ (by simp) (fun X Z hX hr _ => ctc_queue hb hc h0 X Z hX hr) h (by simp [BoxLe.refl])
    (by simp) (by simp) (by simp)).2.1
  intro X hX P hP v hv hS
  simp only [ctcStep, if_true] at hP
  split at hP
  · rename_i he
    simp only [List.mem_cons, List.not_mem_nil, or_false] at hP
    subst hP
    exact not_inBox_of_isEmpty he (hc.keeps P v hX.length hv hS)
  · simp at hP

/-- C29, non-regular paving: the interior of the boxes classified outside contains no solution (their sides may, the boxes being
closed), provided that the contractor does not return a box which is flat in some direction. What is missing: flat boxes, see
`C29_out_flat_fails`. -/
theorem C29_out_partial (hb : IsBis bis) (hd : IsDiff diff) (hc : IsCtc (x0 ++ y0).length S c) (h0 : x0 ≠ [])
    (hflat : ∀ X, BoxLe X (x0 ++ y0) → (c X).any Itv.isDegenerated = true → (c X).isEmpty = true)
    (h : sivCtc bis diff c p false x0 y0 fuel = some r) : ∀ P ∈ r.out, ∀ v, InInterior v P → ¬ S v := by
  refine (loop_all (Q := fun X => BoxLe X (x0 ++ y0)) (Pi := fun _ => True) (Po := fun P => ∀ v, InInterior v P → ¬ S v)
    (Pu := fun _ => True) (by simp) ?_ (by simp) (fun X Z hX hr _ => ctc_queue hb hc h0 X Z hX hr) h (by simp [BoxLe.refl])
    (by simp) (by simp) (by simp)).2.1
  intro X hX P hP v hv hS
  simp only [ctcStep, Bool.false_eq_true, if_false] at hP
  have hle := hc.le X hX.length
  have hm := hc.keeps X v hX.length (hv.inBox.of_le (hd.le X _ hle P hP)) hS
  exact not_inBox_of_isEmpty (hflat X hX (hd.sep X _ hle P hP v hv hm)) hm

/-- C31: with a contractor, for a bounded box and a positive precision, the loop stops (with or without parameter box `y0`, which may
be unbounded) -/
theorem C31_ctc [Archimedean K] {ρ : K} (hb : IsBis bis) (hl : IsLargestFirst ρ bis) (hρ0 : 0 ≤ ρ) (hρ1 : ρ < 1)
    (hc : ∀ X, X.length = (x0 ++ y0).length → BoxLe (c X) X) (h0 : x0 ≠ []) (hx0 : ∀ I ∈ x0, I.isUnbounded = false) (hp : 0 < p) :
    ∃ r, ∃ N, ∀ fuel, N ≤ fuel → sivCtc bis diff c p regular x0 y0 fuel = some r := by
  obtain ⟨N, hN⟩ := loop_terminates (y0 := y0) hb hl hρ0 hρ1 hp h0 hx0 (step := ctcStep regular diff c) (by
    intro X Z hX hr
    obtain ⟨_, rfl⟩ := ctcStep_rem hr
    split
    · exact BoxLe.refl _
    · exact hc X hX.length)
  obtain ⟨r, hr⟩ := hN N (le_refl _) ⟨[], [], []⟩
  exact ⟨r, N, fun fuel hf => loop_mono hf hr⟩

end ctc

section sep
variable {bis : Box K → Box K × Box K} {diff : Box K → Box K → List (Box K)} {s : Box K → Box K → Box K × Box K} {S : List K → Prop}
  {p : K} {regular : Bool} {x0 : Box K} {fuel : Nat} {r : SivRes K}

/-- the boxes returned by a separator are empty in the sense of `is_empty` (first component) as soon as one component is: true of
every box computed by intersection or union in IBEX, not of the ones assembled component by component -/
def EmptyIsSeen (X : Box K) : Prop := X.isEmpty = true ∨ ∀ I ∈ X, I ≠ ⊥

theorem sepStep_rem {X Z : Box K} (h : (sepStep regular diff s X).rem = some Z) :
    Z = if regular then X else Box.inter (s X X).1 (s X X).2 := by
  simp only [sepStep] at h
  split at h
  · cases h
  · rw [Option.some.injEq] at h; exact h.symm

theorem sepStep_le (hs : IsSep x0.length S s) {X Z : Box K} (hX : BoxLe X x0) (h : (sepStep regular diff s X).rem = some Z) :
    BoxLe Z X := by
  rw [sepStep_rem h]
  split
  · exact BoxLe.refl _
  · have h1 := hs.le_in X X hX.length hX.length
    have h2 := hs.le_out X X hX.length hX.length
    exact (inter_le_left (h1.length.trans h2.length.symm)).trans h1

theorem sep_queue (hb : IsBis bis) (hs : IsSep x0.length S s) (h0 : x0 ≠ []) (X Z : Box K) (hX : BoxLe X x0)
    (h : (sepStep regular diff s X).rem = some Z) : ∀ P ∈ splitXY bis x0.length [] Z, BoxLe P x0 := by
  have := splitXY_le (y0 := []) hb h0 (by simpa using (sepStep_le hs hX h).trans hX)
  simpa using this

theorem sep_split (hb : IsBis bis) (hs : IsSep x0.length S s) (h0 : x0 ≠ []) (X Z : Box K) (hX : BoxLe X x0)
    (h : (sepStep regular diff s X).rem = some Z) {v : List K} (hv : InBox v Z) : InSome v (splitXY bis x0.length [] Z) :=
  splitXY_cover hb h0 (by simpa using (sepStep_le hs hX h).trans hX) hv

/-- in the regular mode, a box dropped from the stack is labelled `IN` or `OUT` -/
theorem regular_dropped (hs : IsSep x0.length S s) {X : Box K} (hX : BoxLe X x0)
    (h1 : EmptyIsSeen (s X X).1) (h2 : EmptyIsSeen (s X X).2) (he : (Box.inter (s X X).1 (s X X).2).isEmpty = true) :
    (s X X).1.isEmpty = true ∨ (s X X).2.isEmpty = true := by
  rcases h1 with h1 | h1
  · exact .inl h1
  rcases h2 with h2 | h2
  · exact .inr h2
  exfalso
  have l1 := hs.le_in X X hX.length hX.length
  have l2 := hs.le_out X X hX.length hX.length
  obtain ⟨v, e1, e2⟩ := exists_common l1 l2 h1 h2 fun v hv => by
    by_cases hS : S v
    · exact .inr (hs.keeps_out X X v hX.length hX.length hv hv hS)
    · exact .inl (hs.keeps_in X X v hX.length hX.length hv hv hS)
  exact not_inBox_of_isEmpty he ((inBox_inter (l1.length.trans l2.length.symm)).mpr ⟨e1, e2⟩)

/-- C30: every solution of the initial box is in a box labelled `IN` or undetermined, every other point of the initial box is in a box
labelled `OUT` or undetermined. What is missing: regular paving with a separator assembling its boxes component by component
(`C30_cover_fails`). -/
theorem C30_cover_partial (hb : IsBis bis) (hd : IsDiff diff) (hs : IsSep x0.length S s) (h0 : x0 ≠ [])
    (hseen : regular = true → ∀ X, BoxLe X x0 → EmptyIsSeen (s X X).1 ∧ EmptyIsSeen (s X X).2)
    (h : sivSep bis diff s p regular x0 fuel = some r) {v : List K} (hv : InBox v x0) :
    (S v → ∃ P ∈ r.inn ++ r.unk, InBox v P) ∧ (¬ S v → ∃ P ∈ r.out ++ r.unk, InBox v P) := by
  have hlen : ∀ X, BoxLe X x0 → (s X X).1.length = (s X X).2.length := fun X hX =>
    (hs.le_in X X hX.length hX.length).length.trans (hs.le_out X X hX.length hX.length).length.symm
  constructor
  · intro hS
    have hst : ∀ X, BoxLe X x0 → InBox v X → (True ∧ InSome v (sepStep regular diff s X).inn) ∨
        (False ∧ InSome v (sepStep regular diff s X).out) ∨ ∃ Z, (sepStep regular diff s X).rem = some Z ∧ InBox v Z := by
      intro X hX hvX
      have hm := hs.keeps_out X X v hX.length hX.length hvX hvX hS
      cases hr : regular with
      | true =>
        cases he : (Box.inter (s X X).1 (s X X).2).isEmpty with
        | true =>
          rcases regular_dropped hs hX (hseen hr X hX).1 (hseen hr X hX).2 he with e | e
          · exact .inl ⟨trivial, X, by simp [sepStep, e], hvX⟩
          · exact absurd hm (not_inBox_of_isEmpty e)
        | false => exact .inr (.inr ⟨X, by simp [sepStep, he], hvX⟩)
      | false =>
        by_cases hi : InBox v (s X X).1
        · have := (inBox_inter (hlen X hX)).mpr ⟨hi, hm⟩
          exact .inr (.inr ⟨_, by simp [sepStep, this.not_isEmpty], this⟩)
        · obtain ⟨P, hP, hin⟩ := hd.cover X _ (hs.le_in X X hX.length hX.length) v hvX hi
          exact .inl ⟨trivial, P, by simpa [sepStep] using hP, hin⟩
    have := loop_cover (wi := True) (wo := False) (Q := fun X => BoxLe X x0) hst
      (fun X Z hX hr hz => sep_split hb hs h0 X Z hX hr hz)
      (fun X Z hX hr _ => sep_queue hb hs h0 X Z hX hr) h (by simp [BoxLe.refl]) (.inl ⟨_, by simp, hv⟩)
    rcases this with k | k | k
    · exact k.2.append_left _
    · exact k.1.elim
    · exact k.append_right _
  · intro hS
    have hst : ∀ X, BoxLe X x0 → InBox v X → (False ∧ InSome v (sepStep regular diff s X).inn) ∨
        (True ∧ InSome v (sepStep regular diff s X).out) ∨ ∃ Z, (sepStep regular diff s X).rem = some Z ∧ InBox v Z := by
      intro X hX hvX
      have hm := hs.keeps_in X X v hX.length hX.length hvX hvX hS
      cases hr : regular with
      | true =>
        cases he : (Box.inter (s X X).1 (s X X).2).isEmpty with
        | true =>
          rcases regular_dropped hs hX (hseen hr X hX).1 (hseen hr X hX).2 he with e | e
          · exact absurd hm (not_inBox_of_isEmpty e)
          · exact .inr (.inl ⟨trivial, X, by simp [sepStep, e], hvX⟩)
        | false => exact .inr (.inr ⟨X, by simp [sepStep, he], hvX⟩)
      | false =>
        by_cases hi : InBox v (s X X).2
        · have := (inBox_inter (hlen X hX)).mpr ⟨hm, hi⟩
          exact .inr (.inr ⟨_, by simp [sepStep, this.not_isEmpty], this⟩)
        · obtain ⟨P, hP, hin⟩ := hd.cover X _ (hs.le_out X X hX.length hX.length) v hvX hi
          exact .inr (.inl ⟨trivial, P, by simpa [sepStep] using hP, hin⟩)
    have := loop_cover (wi := False) (wo := True) (Q := fun X => BoxLe X x0) hst
      (fun X Z hX hr hz => sep_split hb hs h0 X Z hX hr hz)
      (fun X Z hX hr _ => sep_queue hb hs h0 X Z hX hr) h (by simp [BoxLe.refl]) (.inl ⟨_, by simp, hv⟩)
    rcases this with k | k | k
    · exact k.1.elim
    · exact k.2.append_left _
    · exact k.append_right _

/-- C30: every returned box is inside the initial box, and the undetermined boxes are smaller than the precision -/
theorem C30_within (hb : IsBis bis) (hd : IsDiff diff) (hs : IsSep x0.length S s) (h0 : x0 ≠ [])
    (h : sivSep bis diff s p regular x0 fuel = some r) :
    (∀ P ∈ r.inn ++ r.out ++ r.unk, BoxLe P x0) ∧ ∀ P ∈ r.unk, ShorterThan p P := by
  have := loop_all (Q := fun X => BoxLe X x0) (Pi := fun P => BoxLe P x0) (Po := fun P => BoxLe P x0)
    (Pu := fun P => BoxLe P x0 ∧ ShorterThan p P) ?_ ?_ ?_
    (fun X Z hX hr _ => sep_queue hb hs h0 X Z hX hr) h (by simp [BoxLe.refl]) (by simp) (by simp) (by simp)
  · refine ⟨fun P hP => ?_, fun P hP => (this.2.2 P hP).2⟩
    simp only [List.mem_append] at hP
    rcases hP with (hP | hP) | hP
    · exact this.1 P hP
    · exact this.2.1 P hP
    · exact (this.2.2 P hP).1
  · intro X hX P hP
    simp only [sepStep] at hP
    split at hP
    · split at hP
      · simp only [List.mem_cons, List.not_mem_nil, or_false] at hP; subst hP; exact hX
      · simp at hP
    · exact (hd.le X _ (hs.le_in X X hX.length hX.length) P hP).trans hX
  · intro X hX P hP
    simp only [sepStep] at hP
    split at hP
    · split at hP
      · simp only [List.mem_cons, List.not_mem_nil, or_false] at hP; subst hP; exact hX
      · simp at hP
    · exact (hd.le X _ (hs.le_out X X hX.length hX.length) P hP).trans hX
  · intro X Z hX hr hsm
    exact ⟨(sepStep_le hs hX hr).trans hX, shorterThan_of hsm⟩

/-- C30, regular paving: the boxes labelled `IN` only contain solutions, the ones labelled `OUT` none -/
theorem C30_labels_regular (hb : IsBis bis) (hs : IsSep x0.length S s) (h0 : x0 ≠ [])
    (h : sivSep bis diff s p true x0 fuel = some r) :
    (∀ P ∈ r.inn, ∀ v, InBox v P → S v) ∧ ∀ P ∈ r.out, ∀ v, InBox v P → ¬ S v := by
  have := loop_all (Q := fun X => BoxLe X x0) (Pi := fun P => ∀ v, InBox v P → S v) (Po := fun P => ∀ v, InBox v P → ¬ S v)
    (Pu := fun _ => True) ?_ ?_ (by simp) (fun X Z hX hr _ => sep_queue hb hs h0 X Z hX hr) h (by simp [BoxLe.refl])
    (by simp) (by simp) (by simp)
  · exact ⟨this.1, this.2.1⟩
  · intro X hX P hP v hv
    simp only [sepStep, if_true] at hP
    split at hP
    · rename_i he
      simp only [List.mem_cons, List.not_mem_nil, or_false] at hP
      subst hP
      by_contra hS
      exact not_inBox_of_isEmpty he (hs.keeps_in P P v hX.length hX.length hv hv hS)
    · simp at hP
  · intro X hX P hP v hv hS
    simp only [sepStep, if_true] at hP
    split at hP
    · rename_i he
      simp only [List.mem_cons, List.not_mem_nil, or_false] at hP
      subst hP
      exact not_inBox_of_isEmpty he (hs.keeps_out P P v hX.length hX.length hv hv hS)
    · simp at hP

/-- C30, non-regular paving: the interior of the boxes labelled `IN` only contains solutions, the interior of those labelled `OUT` none,
provided that the separator returns no box which is flat in some direction (missing: flat boxes, as for C29) -/
theorem C30_labels_partial (hb : IsBis bis) (hd : IsDiff diff) (hs : IsSep x0.length S s) (h0 : x0 ≠ [])
    (hflat : ∀ X, BoxLe X x0 → ((s X X).1.any Itv.isDegenerated = true → (s X X).1.isEmpty = true) ∧
      ((s X X).2.any Itv.isDegenerated = true → (s X X).2.isEmpty = true))
    (h : sivSep bis diff s p false x0 fuel = some r) :
    (∀ P ∈ r.inn, ∀ v, InInterior v P → S v) ∧ ∀ P ∈ r.out, ∀ v, InInterior v P → ¬ S v := by
  have := loop_all (Q := fun X => BoxLe X x0) (Pi := fun P => ∀ v, InInterior v P → S v)
    (Po := fun P => ∀ v, InInterior v P → ¬ S v)
    (Pu := fun _ => True) ?_ ?_ (by simp) (fun X Z hX hr _ => sep_queue hb hs h0 X Z hX hr) h (by simp [BoxLe.refl])
    (by simp) (by simp) (by simp)
  · exact ⟨this.1, this.2.1⟩
  · intro X hX P hP v hv
    simp only [sepStep, Bool.false_eq_true, if_false] at hP
    by_contra hS
    have hle := hs.le_in X X hX.length hX.length
    have hvX := hv.inBox.of_le (hd.le X _ hle P hP)
    have hm := hs.keeps_in X X v hX.length hX.length hvX hvX hS
    exact not_inBox_of_isEmpty ((hflat X hX).1 (hd.sep X _ hle P hP v hv hm)) hm
  · intro X hX P hP v hv hS
    simp only [sepStep, Bool.false_eq_true, if_false] at hP
    have hle := hs.le_out X X hX.length hX.length
    have hvX := hv.inBox.of_le (hd.le X _ hle P hP)
    have hm := hs.keeps_out X X v hX.length hX.length hvX hvX hS
    exact not_inBox_of_isEmpty ((hflat X hX).2 (hd.sep X _ hle P hP v hv hm)) hm

/-- C31: with a separator, for a bounded box and a positive precision, the loop stops -/
theorem C31_sep [Archimedean K] {ρ : K} (hb : IsBis bis) (hl : IsLargestFirst ρ bis) (hρ0 : 0 ≤ ρ) (hρ1 : ρ < 1)
    (hs : ∀ X, X.length = x0.length → BoxLe (s X X).1 X ∧ BoxLe (s X X).2 X) (h0 : x0 ≠ [])
    (hx0 : ∀ I ∈ x0, I.isUnbounded = false) (hp : 0 < p) :
    ∃ r, ∃ N, ∀ fuel, N ≤ fuel → sivSep bis diff s p regular x0 fuel = some r := by
  obtain ⟨N, hN⟩ := loop_terminates (y0 := []) hb hl hρ0 hρ1 hp h0 hx0 (step := sepStep regular diff s) (by
    intro X Z hX hr
    rw [sepStep_rem hr]
    have hX : X.length = x0.length := by simpa using hX.length
    obtain ⟨h1, h2⟩ := hs X hX
    split
    · exact BoxLe.refl _
    · exact (inter_le_left (h1.length.trans h2.length.symm)).trans h1)
  -- the precision test is on the whole box
  have hsame : ∀ (n : Nat) (q : List (Box K)) (r : SivRes K), (∀ X ∈ q, X.length = x0.length) →
      loop (sepStep regular diff s) (fun Z => Box.maxDiamLt p (Z.take x0.length)) (splitXY bis x0.length []) n q r =
        loop (sepStep regular diff s) (Box.maxDiamLt p) (splitXY bis x0.length []) n q r := by
    intro n
    induction n with
    | zero => intro q r _; cases q <;> rfl
    | succ n ih =>
      intro q r hq
      cases q with
      | nil => rfl
      | cons X q =>
        have hq' : ∀ Y ∈ q, Y.length = x0.length := fun Y hY => hq Y (List.mem_cons_of_mem _ hY)
        have hX := hq X (by simp)
        rw [loop, loop]
        dsimp only
        cases hr : (sepStep regular diff s X).rem with
        | none => exact ih q _ hq'
        | some Z =>
          have hZ : Z.length = x0.length := by
            rw [sepStep_rem hr]
            obtain ⟨h1, h2⟩ := hs X hX
            split
            · exact hX
            · rw [Box.length_inter (h1.length.trans h2.length.symm), h1.length, hX]
          have ht : Z.take x0.length = Z := by rw [← hZ, List.take_length]
          dsimp only
          rw [ht]
          split
          · exact ih q _ hq'
          · refine ih _ _ fun Y hY => ?_
            rcases List.mem_append.mp hY with hY | hY
            · exact hq' Y hY
            · have hne : Z ≠ [] := by
                rintro rfl; simp at hZ; exact h0 (List.length_eq_zero_iff.mp hZ.symm)
              simp only [splitXY, ht, List.append_nil, List.mem_cons, List.not_mem_nil, or_false] at hY
              rcases hY with rfl | rfl
              · rw [(hb.le₁ Z hne).length, hZ]
              · rw [(hb.le₂ Z hne).length, hZ]
  obtain ⟨r, hr⟩ := hN N (le_refl _) ⟨[], [], []⟩
  rw [hsame N _ _ (by simp), List.append_nil] at hr
  exact ⟨r, N, fun fuel hf => loop_mono hf hr⟩

end sep

/-! ### Examples and counterexamples -/

/-- `[0,2] × [0,2]` -/
def siviaX : Box ℚ := [.icc 0 2, .icc 0 2]
/-- `[0,1] × [0,1]` -/
def siviaB : Box ℚ := [.icc 0 1, .icc 0 1]

theorem ctcBox_isCtc (b : Box ℚ) : IsCtc b.length (fun v => InBox v b) (ctcBox b) where
  le _ hX := inter_le_left hX
  keeps _ _ hX hv hS := (inBox_inter hX).mpr ⟨hv, hS⟩

/-- the hypotheses of C29 and C31 are met, and the loop computes something: two boxes outside, one undetermined box -/
example : IsBis (largestFirst (1/2 : ℚ)) ∧ IsDiff (boxDiff (K := ℚ)) ∧ IsLargestFirst (max (1/2 : ℚ) (1 - 1/2)) (largestFirst (1/2)) ∧
    IsCtc (siviaX ++ []).length (fun v => InBox v siviaB) (ctcBox siviaB) :=
  ⟨largestFirst_isBis _, boxDiff_isDiff, largestFirst_spec (by norm_num) (by norm_num), ctcBox_isCtc siviaB⟩

example : (sivCtc (largestFirst (1/2 : ℚ)) boxDiff (ctcBox siviaB) (3/2) false siviaX [] 10).map (fun r => (r.out, r.unk)) =
    some ([[.icc 0 1, .icc 1 2], [.icc 1 2, .icc 0 2]], [[.icc 0 1, .icc 0 1]]) := by decide +kernel

example : (sivCtc (largestFirst (1/2 : ℚ)) boxDiff (ctcBox [.icc 0 (1/2), .icc 0 (1/2)]) (3/2) true siviaX [] 10).map
    (fun r => (r.out.length, r.unk.length)) = some (2, 1) := by decide +kernel

/-- with a parameter box: `x` in `[0,2]`, `y` in `[0,4]` -/
example : (sivCtc (largestFirst (1/2 : ℚ)) boxDiff (ctcBox [.icc 0 (1/2), .icc 0 (1/2)]) (3/4) true [.icc 0 2] [.icc 0 4] 10).map
    (fun r => (r.out, r.unk)) = some ([[.icc 1 2, .icc 0 4]], [[.icc (1/2) 1, .icc 0 4], [.icc 0 (1/2), .icc 0 4]]) := by decide +kernel

/-- C29: with the difference of IBEX (closure), a box classified outside may contain a solution in its interior when the contractor
returns a flat box: here the solutions are the points with `x = 1`, the contractor is the exact one, and the whole
box `[0,2] × [0,2]` is classified outside -/
theorem C29_out_flat_fails : IsDiff (boxDiff (K := ℚ)) ∧
    IsCtc 2 (fun v : List ℚ => InBox v [.icc 1 1, .icc 0 2]) (ctcBox [.icc 1 1, .icc 0 2]) ∧
    (∃ r, sivCtc (largestFirst (1/2 : ℚ)) boxDiff (ctcBox [.icc 1 1, .icc 0 2]) 3 false siviaX [] 10 = some r ∧ siviaX ∈ r.out) ∧
    InInterior [(1 : ℚ), 1] siviaX ∧ InBox [(1 : ℚ), 1] [.icc 1 1, .icc 0 2] := by
  refine ⟨boxDiff_isDiff, ctcBox_isCtc [.icc 1 1, .icc 0 2], ?_, ?_, ?_⟩
  · refine ⟨⟨[], [siviaX], [[.icc 1 1, .icc 0 2]]⟩, ?_, by simp⟩
    have h1 : (sivCtc (largestFirst (1/2 : ℚ)) boxDiff (ctcBox [.icc 1 1, .icc 0 2]) 3 false siviaX [] 10).map
      (fun r => (r.inn, r.out, r.unk)) = some ([], [siviaX], [[.icc 1 1, .icc 0 2]]) := by decide +kernel
    cases h : sivCtc (largestFirst (1/2 : ℚ)) boxDiff (ctcBox [.icc 1 1, .icc 0 2]) 3 false siviaX [] 10 with
    | none => rw [h] at h1; cases h1
    | some r =>
      rw [h] at h1
      simp only [Option.map_some, Option.some.injEq, Prod.mk.injEq] at h1
      obtain ⟨a, b, c⟩ := r
      simp only at h1
      obtain ⟨rfl, rfl, rfl⟩ := h1
      rfl
  · unfold siviaX InInterior
    rw [Itv.icc_eq_mk (by norm_num)]
    refine .cons ⟨?_, ?_⟩ (.cons ⟨?_, ?_⟩ .nil) <;> · intro l hl; cases hl; norm_num
  · unfold InBox
    rw [Itv.icc_eq_mk (by norm_num), Itv.icc_eq_mk (by norm_num)]
    exact .cons ⟨le_refl _, le_refl _⟩ (.cons ⟨by norm_num [loLe], by norm_num [leHi]⟩ .nil)

/-- an intersection of boxes of IBEX is empty in the sense of `is_empty` as soon as one component is -/
theorem emptyIsSeen_inter {X Y : Box K} (hX : X ≠ []) : EmptyIsSeen (Box.inter X Y) := by
  have he : (X.setEmpty).isEmpty = true := by
    cases X with
    | nil => exact absurd rfl hX
    | cons I X => simp [Box.setEmpty, Box.empty, List.replicate_succ, Box.isEmpty]
  unfold Box.inter EmptyIsSeen
  split
  · exact .inl he
  · split
    · exact .inl he
    · rename_i h
      right
      intro I hI hb
      exact h (List.any_eq_true.mpr ⟨I, hI, by rw [hb]; rfl⟩)

/-- the hypotheses of C30 are met by `SepBox` -/
example : IsSep siviaX.length (fun v => InBox v siviaB) (sepBox siviaB) ∧
    ∀ X, BoxLe X siviaX → EmptyIsSeen (sepBox siviaB X X).1 ∧ EmptyIsSeen (sepBox siviaB X X).2 := by
  refine ⟨C35_sep_box siviaB (by decide +kernel), fun X hX => ?_⟩
  have hne : X ≠ [] := by rintro rfl; have := hX.length; simp [siviaX] at this
  exact ⟨emptyIsSeen_inter hne, emptyIsSeen_inter hne⟩

/-- the separator `SepBox`, `[0,1] × [0,1]` on `[0,2] × [0,2]`, both modes -/
example : (sivSep (largestFirst (1/2 : ℚ)) boxDiff (sepBox siviaB) (3/4) true siviaX 100).map
    (fun r => (r.inn.length, r.out.length, r.unk.length)) = some (1, 5, 5) := by decide +kernel

example : (sivSep (largestFirst (1/2 : ℚ)) boxDiff (sepBox siviaB) (3/4) false siviaX 100).map (fun r => (r.inn, r.out, r.unk)) =
    some ([[.icc (1/2) 1, .icc 0 1], [.icc 0 (1/2), .icc 0 1]], [[.icc 0 1, .icc 1 2], [.icc 1 2, .icc 0 2]], []) := by decide +kernel

/-- a separator made of an inner contractor which is a Cartesian product of contractors (`CtcCartProd`, codac_CtcCartProd.cpp:17-29) and
of the identity: the set is the complement of `[0,1] × [10,11]` -/
def cartSep (X Y : Box ℚ) : Box ℚ × Box ℚ := (ctcCartProd [(1, ctcBox [.icc 0 1]), (1, ctcBox [.icc 10 11])] X, Y)

theorem cartSep_isSep : IsSep 2 (fun v => ¬ InBox v [Itv.icc (0 : ℚ) 1, .icc 10 11]) cartSep := by
  have hlist : ∀ X : Box ℚ, X.length = 2 → ∃ I J, X = [I, J] := by
    intro X hX
    match X, hX with
    | [I, J], _ => exact ⟨I, J, rfl⟩
  have hval : ∀ I J : Itv ℚ, ctcCartProd [(1, ctcBox [.icc 0 1]), (1, ctcBox [.icc 10 11])] [I, J] =
      ctcBox [.icc 0 1] [I] ++ ctcBox [.icc 10 11] [J] := by
    intro I J; simp [ctcCartProd]
  refine ⟨?_, fun X Y _ _ => BoxLe.refl _, ?_, fun X Y v _ _ _ hv _ => hv⟩
  · intro X Y hX _
    obtain ⟨I, J, rfl⟩ := hlist X hX
    simp only [cartSep]
    rw [hval]
    exact BoxLe.append (X := ctcBox [.icc 0 1] [I]) (Y := [I]) (X' := ctcBox [.icc 10 11] [J]) (Y' := [J])
      (inter_le_left rfl) (inter_le_left rfl)
  · intro X Y v hX _ hv _ hS
    obtain ⟨I, J, rfl⟩ := hlist X hX
    simp only [not_not] at hS
    simp only [cartSep]
    rw [hval]
    cases hv with
    | cons h1 hv =>
      cases hv with
      | cons h2 hv =>
        cases hv
        cases hS with
        | cons h3 hS =>
          cases hS with
          | cons h4 _ =>
            refine InBox.append (v := [_]) (w := [_]) ?_ ?_
            · exact (inBox_inter (X := [I]) (Y := [.icc 0 1]) rfl).mpr ⟨.cons h1 .nil, .cons h3 .nil⟩
            · exact (inBox_inter (X := [J]) (Y := [.icc 10 11]) rfl).mpr ⟨.cons h2 .nil, .cons h4 .nil⟩

/-- C30: in the regular mode, with the sound separator `cartSep`, the box `[0,1] × [0,1]` is returned in no list: `is_empty` does not see
that the inner box is empty, the intersection of the two boxes is empty, and the box is dropped -/
theorem C30_cover_fails : IsSep 2 (fun v => ¬ InBox v [Itv.icc (0 : ℚ) 1, .icc 10 11]) cartSep ∧
    (∃ r, sivSep (largestFirst (1/2 : ℚ)) boxDiff cartSep (1/10) true siviaB 10 = some r ∧ r.inn = [] ∧ r.out = [] ∧ r.unk = []) ∧
    InBox [(0 : ℚ), 0] siviaB := by
  refine ⟨cartSep_isSep, ?_, ?_⟩
  · have h1 : (sivSep (largestFirst (1/2 : ℚ)) boxDiff cartSep (1/10) true siviaB 10).map
      (fun r => (r.inn, r.out, r.unk)) = some ([], [], []) := by decide +kernel
    cases h : sivSep (largestFirst (1/2 : ℚ)) boxDiff cartSep (1/10) true siviaB 10 with
    | none => rw [h] at h1; cases h1
    | some r =>
      rw [h] at h1
      simp only [Option.map_some, Option.some.injEq, Prod.mk.injEq] at h1
      exact ⟨r, rfl, h1⟩
  · unfold siviaB InBox
    rw [Itv.icc_eq_mk (by norm_num)]
    exact .cons ⟨by norm_num [loLe], by norm_num [leHi]⟩ (.cons ⟨by norm_num [loLe], by norm_num [leHi]⟩ .nil)

end Codac.Props
