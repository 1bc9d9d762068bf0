import Verif.Ctc.PairProj
import Mathlib.Data.Rat.Floor

/-!
# C137 — projection of a pair of contractors
-/

set_option linter.unusedSectionVars false

namespace Codac.Props
open Codac.PairProj

variable {K : Type*} [LinearOrder K]

/-- what is assumed of `CtcExist` and `CtcForAll` of IBEX, for the box `y` of the parameters: a contractor for `S` gives contractors for the points which have a parameter
in `S`, resp. all of whose parameters are in `S` -/
structure QuantOk (Q : Quant K) (n m : Nat) (y : Box K) : Prop where
  exist : ∀ (S : List K → Prop) c, IsCtc (n + m) S c → IsCtc n (fun v => ∃ w, InBox w y ∧ S (v ++ w)) (Q.exist c y)
  forAll : ∀ (S : List K → Prop) c, IsCtc (n + m) S c → IsCtc n (fun v => ∀ w, InBox w y → S (v ++ w)) (Q.forAll c y)

/-- C137: with an inner contractor (which loses only points of `S`) and an outer one (which loses only points out of `S`), the results are correct for the projection of
`S`: each point of the box with a parameter in `S` stays in the outer result, all others in the inner one; no point is lost by both -/
theorem C137_pair {Q : Quant K} {n m : Nat} {y : Box K} (hQ : QuantOk Q n m y) {S : List K → Prop} {cin cout : Box K → Box K}
    (hin : IsCtc (n + m) (fun v => ¬ S v) cin) (hout : IsCtc (n + m) S cout) {X : Box K} (hX : X.length = n) :
    ∃ r, separate (ofCtcs Q (n + m) cin cout y) X X = some r ∧ BoxLe r.1 X ∧ BoxLe r.2 X ∧
      (∀ v, InBox v X → (∃ w, InBox w y ∧ S (v ++ w)) → InBox v r.2) ∧ (∀ v, InBox v X → (¬ ∃ w, InBox w y ∧ S (v ++ w)) → InBox v r.1) ∧
      ∀ v, InBox v X → InBox v r.1 ∨ InBox v r.2 := by
  have he := hQ.exist _ _ hout
  have hf := hQ.forAll _ _ hin
  have k1 : ∀ v, InBox v X → (∃ w, InBox w y ∧ S (v ++ w)) → InBox v (Q.exist cout y X) := fun v hv h => he.keeps X v hX hv h
  have k2 : ∀ v, InBox v X → (¬ ∃ w, InBox w y ∧ S (v ++ w)) → InBox v (Q.forAll cin y X) := fun v hv h =>
    hf.keeps X v hX hv fun w hw hs => h ⟨w, hw, hs⟩
  refine ⟨(Q.forAll cin y X, Q.exist cout y X), by simp [separate, ofCtcs], hf.le X hX, he.le X hX, k1, k2, fun v hv => ?_⟩
  by_cases h : ∃ w, InBox w y ∧ S (v ++ w)
  · exact .inr (k1 v hv h)
  · exact .inl (k2 v hv h)

/-- C137: the two contractors taken from a separator of `S` are an inner and an outer contractor of `S` -/
theorem C137_from_sep {n : Nat} {S : List K → Prop} {s : Box K → Box K → Box K × Box K} (hs : IsSep n S s) :
    IsCtc n (fun v => ¬ S v) (ctcFromSep s true) ∧ IsCtc n S (ctcFromSep s false) := by
  constructor
  · have hl : ∀ X : Box K, X.length = n → X.length = (s X X).1.length := fun X hX => (hs.le_in X X hX hX).length.symm
    refine ⟨fun X hX => ?_, fun X v hX hv h => ?_⟩
    · exact inter_le_left (hl X hX)
    · exact (inBox_inter (hl X hX)).mpr ⟨hv, hs.keeps_in X X v hX hX hv hv h⟩
  · have hl : ∀ X : Box K, X.length = n → X.length = (s X X).2.length := fun X hX => (hs.le_out X X hX hX).length.symm
    refine ⟨fun X hX => ?_, fun X v hX hv h => ?_⟩
    · exact inter_le_left (hl X hX)
    · exact (inBox_inter (hl X hX)).mpr ⟨hv, hs.keeps_out X X v hX hX hv hv h⟩

/-- C137: the separators built from a pair or from a separator cannot be used: a pointer which was never set is followed, for every box -/
theorem C137_constructors_fails (Q : Quant K) (n : Nat) (cin cout : Box K → Box K) (s : Box K → Box K → Box K × Box K) (y X : Box K) :
    separate (ofSepPair Q n cin cout y) X X = none ∧ separate (ofSep Q n s y) X X = none := by
  simp [separate, ofSepPair, ofSep]

/-- C137: the dimension given by the separator is that of the variables and of the parameters, not that of the boxes it works on -/
theorem C137_nb_var_fails (Q : Quant K) (n m : Nat) (hm : 0 < m) (cin cout : Box K → Box K) (y X : Box K) (hX : X.length = n) :
    (ofCtcs Q (n + m) cin cout y).nbVar ≠ X.length := by
  show n + m ≠ X.length
  omega

/-! ## a case: the contractors of IBEX before any bisection -/

/-- one parameter: the lower bound when there is one -/
def atLower : Itv K → Itv K
  | .mk (some l) _ _ => .point l
  | I => I

/-- the contraction with the whole box of parameters, resp. with one value of the parameters -/
def oneStep (n : Nat) : Quant K where
  exist c y X := (c (X ++ y)).take n
  forAll c y X := (c (X ++ y.map atLower)).take n

theorem inBox_app {v w : List K} {X Y : Box K} (h1 : InBox v X) (h2 : InBox w Y) : InBox (v ++ w) (X ++ Y) := List.rel_append h1 h2

theorem inBox_pre {v w : List K} {Z : Box K} (h : InBox (v ++ w) Z) {n : Nat} (hn : v.length = n) : InBox v (Z.take n) := by
  have := List.forall₂_take n h
  rwa [List.take_left' hn] at this

theorem boxLe_pre {X Y Z : Box K} {n : Nat} (hn : X.length = n) (h : BoxLe Z (X ++ Y)) : BoxLe (Z.take n) X := by
  have := List.forall₂_take n h
  rwa [List.take_left' hn] at this

theorem atLower_mem : ∀ {y : Box K} {w : List K}, InBox w y → ∃ w', InBox w' (y.map atLower) ∧ InBox w' y
  | [], _, .nil => ⟨[], .nil, .nil⟩
  | I :: y, a :: w, .cons h t => by
    obtain ⟨w', h1, h2⟩ := atLower_mem t
    cases I with
    | empty => exact absurd h (Itv.not_mem_empty _)
    | mk l u p =>
      cases l with
      | none => exact ⟨a :: w', .cons h h1, .cons h h2⟩
      | some l =>
        refine ⟨l :: w', .cons (Itv.mem_point.mpr rfl) h1, .cons ⟨le_rfl, ?_⟩ h2⟩
        cases u with
        | none => trivial
        | some u => exact p

/-- the assumptions on IBEX can be met, by contractors which do contract -/
theorem oneStep_ok {n m : Nat} {y : Box K} (hy : y.length = m) (hne : ∃ w, InBox w y) : QuantOk (oneStep n) n m y where
  exist S c hc := by
    refine ⟨fun X hX => boxLe_pre hX (hc.le (X ++ y) (by simp [hX, hy])), fun X v hX hv ⟨w, hw, hs⟩ => ?_⟩
    exact inBox_pre (hc.keeps (X ++ y) (v ++ w) (by simp [hX, hy]) (inBox_app hv hw) hs) (hv.length.trans hX)
  forAll S c hc := by
    refine ⟨fun X hX => boxLe_pre hX (hc.le (X ++ y.map atLower) (by simp [hX, hy])), fun X v hX hv h => ?_⟩
    obtain ⟨w0, h0⟩ := hne
    obtain ⟨w, hw, hw'⟩ := atLower_mem h0
    exact inBox_pre (hc.keeps (X ++ y.map atLower) (v ++ w) (by simp [hX, hy]) (inBox_app hv hw) (h w hw')) (hv.length.trans hX)

/-- the projection of the square `[0,1]²`, as a pair of contractors, on the box `[-1,2]` of its first variable: the outer result is `[0,1]` -/
example : separate (ofCtcs (oneStep 1) 2 id (fun X => X.inter [Itv.icc (0 : ℚ) 1, Itv.icc 0 1]) [Itv.icc 0 5]) [Itv.icc (-1) 2] [Itv.icc (-1) 2] =
    some ([Itv.icc (-1) 2], [Itv.icc 0 1]) := by decide +kernel

example : IsCtc 2 (fun v : List ℚ => InBox v [Itv.icc (0 : ℚ) 1, Itv.icc 0 1]) (fun X => X.inter [Itv.icc (0 : ℚ) 1, Itv.icc 0 1]) ∧
    IsCtc 2 (fun v : List ℚ => ¬ InBox v [Itv.icc (0 : ℚ) 1, Itv.icc 0 1]) id :=
  ⟨⟨fun _ hX => inter_le_left (by simpa using hX), fun _ _ hX hv h => (inBox_inter (by simpa using hX)).mpr ⟨hv, h⟩⟩,
    ⟨fun X _ => List.forall₂_same.mpr fun _ _ => le_rfl, fun _ _ _ hv _ => hv⟩⟩

end Codac.Props
