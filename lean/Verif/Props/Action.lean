import Verif.C2.Action

/-!
# C88: symmetries of the hypercube acting on boxes and contractors (`OctaSym`, `CtcAction`)
-/

namespace Codac.Props

open Codac.Oct

variable {K : Type*} [Field K] [LinearOrder K] [IsStrictOrderedRing K]

/-- the quarter of turn `(x, y, z) ↦ (-y, x, z)` is a signed permutation, and moves points -/
example : SignedPerm [-2, 1, 3] ∧ Acts [-2, 1, 3] [(5 : ℚ), 7, 9] [-7, 5, 9] := by
  refine ⟨⟨by decide, by decide⟩, rfl, rfl, fun i a h => ?_⟩
  match i, h with
  | 0, h => cases h; exact ⟨7, rfl, rfl⟩
  | 1, h => cases h; exact ⟨5, rfl, rfl⟩
  | 2, h => cases h; exact ⟨9, rfl, rfl⟩

/-- **C88 (boxes).** The image of a box by a signed permutation is defined, and its points are exactly the images of the points of the box. -/
theorem C88_box {s : List Int} (hs : SignedPerm s) {X : Box K} (hX : X.length = s.length) :
    ∃ Y, apply s X = some Y ∧ Y.length = s.length ∧ ∀ q, InBox q Y ↔ ∃ p, InBox p X ∧ Acts s p q := by
  obtain ⟨R, Y, hY, hR, -, h⟩ := ctcAction_spec hs (ctc := id) (fun _ h => h) hX
  obtain ⟨Y', hY', lY, gY⟩ := apply_spec (accepted_of hs) hX
  rw [hY] at hY'
  cases hY'
  refine ⟨Y, hY, lY, fun q => ⟨fun hq => ?_, fun ⟨p, hp, ha⟩ => apply_sound hY hp ha⟩⟩
  obtain ⟨p, hp⟩ := acts_exists (accepted_of (invert_signedPerm hs)) (p := q) (by rw [hq.length, lY, invert_length])
  have hqp : Acts s p q := by
    have := acts_invert (invert_signedPerm hs) hp
    rwa [invert_invert hs] at this
  refine ⟨p, inBox_iff.mpr ⟨by rw [hqp.1, hX], fun j y I hy hI => ?_⟩, hqp⟩
  obtain ⟨k, a, hk, rfl⟩ := exists_pos hs (j := j) (by rw [← hX]; exact (List.getElem?_eq_some_iff.mp hI).1)
  obtain ⟨w, hw, hqw⟩ := hqp.2.2 k a hk
  obtain ⟨J, hJ, hYJ⟩ := gY k a hk
  rw [hy] at hw
  rw [hI] at hJ
  cases hw
  cases hJ
  exact signed_mem.mp ((inBox_iff.mp hq).2 k _ _ hqw hYJ)

/-- **C88 (each point has one image).** -/
theorem C88_image {s : List Int} (hs : SignedPerm s) {p : List K} (hp : p.length = s.length) : ∃! q, Acts s p q := by
  obtain ⟨q, hq⟩ := acts_exists (accepted_of hs) hp
  exact ⟨q, hq, fun q' h => acts_unique h hq⟩

/-- **C88 (inverse).** `invert` gives the symmetry that undoes `s`: on points, on boxes, and as a list (`s * s.invert()` and `s.invert() * s` are the identity, and
`s.invert().invert() = s`). -/
theorem C88_inverse {s : List Int} (hs : SignedPerm s) :
    SignedPerm (invert s) ∧ (∀ p q : List K, Acts (invert s) q p ↔ Acts s p q) ∧ (∀ X : Box K, X.length = s.length → (apply s X).bind (apply (invert s)) = some X) ∧
    invert (invert s) = s ∧ mul s (invert s) = some ((List.range s.length).map fun (i : Nat) => (i : Int) + 1) ∧
    mul (invert s) s = some ((List.range s.length).map fun (i : Nat) => (i : Int) + 1) := by
  have hi := invert_signedPerm hs
  have hacts : ∀ p q : List K, Acts (invert s) q p ↔ Acts s p q := fun p q => ⟨fun h => by
    have := acts_invert hi h
    rwa [invert_invert hs] at this, acts_invert hs⟩
  refine ⟨hi, hacts, fun X hX => ?_, invert_invert hs, mul_invert hs, ?_⟩
  · rw [← mul_apply (accepted_of hs) (accepted_of hi) (invert_length s).symm (mul_invert hs) hX]
    exact apply_identity hX
  · have := mul_invert hi
    rwa [invert_invert hs, invert_length] at this

/-- the inverse of the quarter of turn is not itself -/
example : invert [-2, 1, 3] = [2, -1, 3] := by decide

/-- **C88 (product).** The product of two symmetries is defined, is a symmetry, and acts as the first one followed by the second one, on points and on boxes. -/
theorem C88_product {s1 s2 : List Int} (h1 : SignedPerm s1) (h2 : SignedPerm s2) (hl : s1.length = s2.length) :
    ∃ s3, mul s1 s2 = some s3 ∧ s3.length = s1.length ∧ SignedPerm s3 ∧ (∀ p q r : List K, Acts s1 p q → Acts s2 q r → Acts s3 p r) ∧
    ∀ X : Box K, X.length = s1.length → apply s3 X = (apply s1 X).bind (apply s2) := by
  obtain ⟨s3, h3, l3, g3⟩ := mul_spec (accepted_of h2) hl
  refine ⟨s3, h3, l3, ⟨accepted_iff.mp (mul_accepted (accepted_of h1) (accepted_of h2) hl h3), ?_⟩, fun p q r => mul_acts (accepted_of h1) (accepted_of h2) hl h3,
    fun X hX => mul_apply (accepted_of h1) (accepted_of h2) hl h3 hX⟩
  rw [List.nodup_iff_injective_get]
  intro i j e
  have hi : i.1 < s3.length := by simpa using i.2
  have hj : j.1 < s3.length := by simpa using j.2
  simp only [List.get_eq_getElem, List.getElem_map] at e
  have hi2 : i.1 < s2.length := by omega
  have hj2 : j.1 < s2.length := by omega
  obtain ⟨c, hc, e1⟩ := g3 i.1 _ (List.getElem?_eq_getElem hi2)
  obtain ⟨d, hd, e2⟩ := g3 j.1 _ (List.getElem?_eq_getElem hj2)
  rw [List.getElem?_eq_getElem hi] at e1
  rw [List.getElem?_eq_getElem hj] at e2
  rw [Option.some.inj e1, Option.some.inj e2, isigned_natAbs, isigned_natAbs] at e
  have key : ∀ {s : List Int}, SignedPerm s → ∀ {k l : Nat} {a b : Int}, s[k]? = some a → s[l]? = some b → a.natAbs = b.natAbs → k = l := by
    intro s hs k l a b ha hb hab
    have ka := (List.getElem?_eq_some_iff.mp ha).1
    obtain ⟨kb, eb⟩ := List.getElem?_eq_some_iff.mp hb
    have ea := (List.getElem?_eq_some_iff.mp ha).2
    have := (List.Nodup.getElem_inj_iff hs.2 (i := k) (j := l) (hi := by simpa using ka) (hj := by simpa using kb)).mp (by simp only [List.getElem_map]; rw [ea, eb, hab])
    exact this
  have hcd := key h1 hc hd e
  have m1 := h2.1 _ (List.getElem_mem hi2)
  have m2 := h2.1 _ (List.getElem_mem hj2)
  exact Fin.ext (key h2 (List.getElem?_eq_getElem hi2) (List.getElem?_eq_getElem hj2) (by omega))

/-- the order of the product matters -/
example : mul [-2, 1, 3] [1, 3, 2] = some [-2, 3, 1] ∧ mul [1, 3, 2] [-2, 1, 3] = some [-3, 1, 2] := by decide

/-- **C88 (contractor).** If `ctc` is a contractor for the set `S`, then `CtcAction(ctc, s)` is defined on every box of its dimension, is inside it, keeps all the points whose
image is in `S`, and removes exactly the points whose image is removed by `ctc` from the image of the box. -/
theorem C88_ctc {s : List Int} (hs : SignedPerm s) {S : List K → Prop} {ctc : Box K → Box K} (hc : IsCtc s.length S ctc) {X : Box K} (hX : X.length = s.length) :
    ∃ R Y, ctcAction ctc s X = some R ∧ apply s X = some Y ∧ BoxLe R X ∧ (∀ p q, InBox p X → Acts s p q → S q → InBox p R) ∧
      ∀ p, InBox p R ↔ InBox p X ∧ ∃ q, Acts s p q ∧ InBox q (ctc Y) := by
  obtain ⟨R, Y, hY, hR, hle, h⟩ := ctcAction_spec hs (fun Y hY => hc.length hY) hX
  refine ⟨R, Y, hR, hY, hle, fun p q hp hq hS => (h p).mpr ⟨hp, q, hq, hc.keeps Y q ?_ (apply_sound hY hp hq) hS⟩, h⟩
  rw [← (apply_sound hY hp hq).length, hq.2.1]

/-- the contractor for the half plane `y₁ ≤ 1` of the first coordinate -/
def belowOne (X : Box ℚ) : Box ℚ := match X with
  | [] => []
  | I :: X => (I ⊓ Itv.mk none (some 1) trivial) :: X

theorem belowOne_ctc (n : Nat) : IsCtc n (fun v : List ℚ => ∀ y ∈ v.head?, y ≤ 1) belowOne := by
  refine ⟨fun X _ => ?_, fun X v _ hv hS => ?_⟩
  · cases X with
    | nil => exact .nil
    | cons I X => exact .cons inf_le_left (by exact List.forall₂_same.mpr fun _ _ => le_rfl)
  · cases hv with
    | nil => exact .nil
    | cons h1 h2 => exact .cons (Itv.mem_inf.mpr ⟨h1, trivial, hS _ rfl⟩) h2

/-- by the quarter of turn, the half plane `y₁ ≤ 1` becomes `-x₂ ≤ 1` -/
example : ctcAction belowOne [-2, 1] [Itv.icc 0 3, Itv.icc (-4) 5] = some [Itv.icc (0 : ℚ) 3, Itv.icc (-1) 5] := by decide +kernel

/-- **C88 (negation).** The assertion of the constructor also accepts lists that are not permutations, such as `(1, 1)`. Then `CtcAction` with the contractor that removes nothing
empties the box `[0,1] × [5,6]`, although the image of each point is kept: all the solutions are lost. -/
theorem C88_not_permutation_fails : accepted [1, 1] = true ∧ IsCtc 2 (fun _ : List ℚ => True) id ∧ InBox [(0 : ℚ), 5] [Itv.icc 0 1, Itv.icc 5 6] ∧
    Acts [1, 1] [(0 : ℚ), 5] [0, 0] ∧ ctcAction id [1, 1] [Itv.icc (0 : ℚ) 1, Itv.icc 5 6] = some [Itv.empty, Itv.empty] := by
  refine ⟨by decide, ⟨fun X _ => List.forall₂_same.mpr fun _ _ => le_rfl, fun X v _ h _ => h⟩, ?_, ⟨rfl, rfl, fun i a h => ?_⟩, by decide +kernel⟩
  · exact .cons (Itv.mem_icc.mpr (by norm_num)) (.cons (Itv.mem_icc.mpr (by norm_num)) .nil)
  · match i, h with
    | 0, h => cases h; exact ⟨0, rfl, rfl⟩
    | 1, h => cases h; exact ⟨0, rfl, rfl⟩

end Codac.Props
