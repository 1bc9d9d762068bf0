import Verif.Box

/-!
# Combined static contractors

Sources: `src/core/contractors/static/codac_CtcUnion.h`, `codac_CtcCartProd.cpp`, `codac_CtcBox.cpp`,
`src/core/separators/codac_CtcTransform.cpp`, `codac_SepCtcPairProj.h`. A contractor is a function on boxes, a separator a function
on pairs of boxes `(x_in, x_out)`.
-/

set_option linter.unusedSectionVars false

namespace Codac

variable {K : Type*} [LinearOrder K]

/-- one iteration of the loops of `CtcUnion::contract`, codac_CtcUnion.h:45-57 -/
def ctcUnionStep (x : Box K) (result : Box K) (c : Box K → Box K) : Box K := result.hull (c x)

/-- `CtcUnion::contract`, codac_CtcUnion.h:41-60; `cs` the objects followed by the raw pointers -/
def ctcUnion (n : Nat) (cs : List (Box K → Box K)) (x : Box K) : Box K := cs.foldl (ctcUnionStep x) (Box.empty n)

/-- `CtcBox::contract`, codac_CtcBox.cpp:17-24 -/
def ctcBox (b x : Box K) : Box K := x.inter b

/-- `CtcCartProd::contract`, codac_CtcCartProd.cpp:17-29: each contractor, of given dimension, is applied on its part of the box
(a dimension larger than the rest of the box is not modelled: out of bounds in the code) -/
def ctcCartProd : List (Nat × (Box K → Box K)) → Box K → Box K
  | [], x => x
  | (n, c) :: cs, x => c (x.take n) ++ ctcCartProd cs (x.drop n)

/-- `CtcTransform::contract`, codac_CtcTransform.cpp:22-35 -/
def ctcTransform (ctc ffwd fbwd : Box K → Box K) (box : Box K) : Box K :=
  if (ctc (ffwd box)).isEmpty then box.setEmpty else box.inter (fbwd box)

/-- `CtcFromSep::contract`, codac_SepCtcPairProj.h:58-62 -/
def ctcFromSep (sep : Box K → Box K → Box K × Box K) (in? : Bool) (x : Box K) : Box K :=
  x.inter (if in? then (sep x x).1 else (sep x x).2)

/-! ### Specification -/

/-- `c` is a contractor for the set `S` of points of dimension `n`: the result is inside the box and no point of `S` is lost -/
structure IsCtc (n : Nat) (S : List K → Prop) (c : Box K → Box K) : Prop where
  le : ∀ X, X.length = n → BoxLe (c X) X
  keeps : ∀ X v, X.length = n → InBox v X → S v → InBox v (c X)

/-- `s` is a separator for the set `S`: both results are inside the boxes, the points of `S` (resp. not in `S`) which are in the two
boxes are kept in `x_out` (resp. `x_in`) -/
structure IsSep (n : Nat) (S : List K → Prop) (s : Box K → Box K → Box K × Box K) : Prop where
  le_in : ∀ X Y, X.length = n → Y.length = n → BoxLe (s X Y).1 X
  le_out : ∀ X Y, X.length = n → Y.length = n → BoxLe (s X Y).2 Y
  keeps_in : ∀ X Y v, X.length = n → Y.length = n → InBox v X → InBox v Y → ¬ S v → InBox v (s X Y).1
  keeps_out : ∀ X Y v, X.length = n → Y.length = n → InBox v X → InBox v Y → S v → InBox v (s X Y).2

/-! ### Proofs -/

theorem IsCtc.length {n : Nat} {S : List K → Prop} {c : Box K → Box K} (h : IsCtc n S c) {X : Box K} (hX : X.length = n) :
    (c X).length = n := (h.le X hX).length.trans hX

theorem unionFold_length {n : Nat} {cs : List (Box K → Box K)} {X R : Box K} (hc : ∀ c ∈ cs, (c X).length = n)
    (hR : R.length = n) : (cs.foldl (ctcUnionStep X) R).length = n := by
  induction cs generalizing R with
  | nil => exact hR
  | cons c cs ih =>
    refine ih (fun c' h => hc c' (List.mem_cons_of_mem _ h)) ?_
    rw [ctcUnionStep, Box.length_hull (by rw [hR, hc c (by simp)]), hR]

theorem unionFold_keeps {n : Nat} {cs : List (Box K → Box K)} {X R : Box K} (hc : ∀ c ∈ cs, (c X).length = n)
    (hR : R.length = n) {v : List K} (h : InBox v R ∨ ∃ c ∈ cs, InBox v (c X)) : InBox v (cs.foldl (ctcUnionStep X) R) := by
  induction cs generalizing R with
  | nil => simpa using h
  | cons c cs ih =>
    have hl : R.length = (c X).length := by rw [hR, hc c (by simp)]
    refine ih (fun c' h => hc c' (List.mem_cons_of_mem _ h)) ?_ ?_
    · rw [ctcUnionStep, Box.length_hull hl, hR]
    · rcases h with h | ⟨c', hm, h⟩
      · exact .inl (h.hull_left hl)
      · rcases List.mem_cons.mp hm with rfl | hm
        · exact .inl (h.hull_right hl)
        · exact .inr ⟨c', hm, h⟩

theorem unionFold_le {cs : List (Box K → Box K)} {X R Z : Box K} (hc : ∀ c ∈ cs, BoxLe (c X) Z) (hR : BoxLe R Z) :
    BoxLe (cs.foldl (ctcUnionStep X) R) Z := by
  induction cs generalizing R with
  | nil => exact hR
  | cons c cs ih => exact ih (fun c' h => hc c' (List.mem_cons_of_mem _ h)) (hull_le hR (hc c (by simp)))

end Codac
