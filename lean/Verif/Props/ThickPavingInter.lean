import Verif.Thick.PavingInterProofs
import Verif.Props.ThickPaving

/-!
# C109: the value of a thick box in a thick paving

`ThickPaving::Intersect(Xm, Xp)` is asked about all the boxes whose lower corner is in `Xm` and whose upper corner is in `Xp`, for instance the
enclosures of `f(x)` for the points `x` of a box. Each of these boxes has a value: `yes` when all its points are in the subset, `no` when all of them are
out of the superset, `maybe` otherwise; the points out of the paved box have the value `maybe`. The answer must contain the value of each of these boxes.
-/

set_option linter.unusedSectionVars false

namespace Codac.Props

open SPav TPav TPav.TNode

section
variable {K : Type*} [Field K] [LinearOrder K] [IsStrictOrderedRing K]

/-- the box of lower corner `a` and of upper corner `b` is one of those of the question -/
def Asked (Xm Xp : Box K) (a b : List K) : Prop := InBox a Xm ∧ InBox b Xp ∧ List.Forall₂ (· ≤ ·) a b

/-- a proper question: in each direction, the bounds of `Xm` are at most those of `Xp`, and none is empty -/
def Question (Xm Xp : Box K) : Prop := List.Forall₂ ThickItv.Checked Xm Xp

/-- there are not two directions or more in which `Xm` and `Xp` meet, except when they meet in all of them -/
def AtMostOneMeets (Xm Xp : Box K) : Prop :=
  (∀ I ∈ List.zipWith (· ⊓ ·) Xm Xp, I.isEmpty = false) ∨
    ∀ i j : Nat, (Xm.getD i ⊥ ⊓ Xp.getD i ⊥).isEmpty = false → (Xm.getD j ⊥ ⊓ Xp.getD j ⊥).isEmpty = false → i = j

/-- each box has a value, and only one -/
theorem C109_value (S : List K → V3) {a b : List K} (hab : List.Forall₂ (· ≤ ·) a b) : ∃! v, BoxValue S a b v := by
  obtain ⟨v, hv⟩ := boxValue_exists S a b
  refine ⟨v, hv, fun w hw => ?_⟩
  have h0 := between_left hab
  cases v <;> cases w <;> try rfl
  · obtain ⟨_, x, x1, x2⟩ := hw; exact absurd (hv x x1) x2
  · have := (hv a h0).symm.trans (hw a h0); cases this
  · obtain ⟨_, x, x1, x2⟩ := hv; exact absurd (hw x x1) x2
  · obtain ⟨⟨x, x1, x2⟩, _⟩ := hv; exact absurd (hw x x1) x2
  · have := (hv a h0).symm.trans (hw a h0); cases this
  · obtain ⟨⟨x, x1, x2⟩, _⟩ := hw; exact absurd (hv x x1) x2

/-- C109 inside the paved box (partial): the question ends, and the answer contains the value of each box of the question. Missing: it is limited to
questions whose hull is not flat (`C109_flat_fails`) and which do not meet in two directions or more but not in all (`C109_directions_fails`). -/
theorem C109_inside_partial {n : Nat} {S : List K → V3} {t : TNode K} (hr : Regular n t) (hS : RightLeaves S t)
    {diff : Itv K → Itv K → Itv K × Itv K} (hd : DiffCovers diff) {Xm Xp : Box K} (hm : Xm.length = n) (hq : Question Xm Xp)
    (hin : BoxLe (Xm.hull Xp) t.box) (hf : isFlat (Xm.hull Xp) = false) (hcross : AtMostOneMeets Xm Xp) :
    ∃ r, intersect diff t Xm Xp = some r ∧ ∀ a b v, Asked Xm Xp a b → BoxValue S a b v → r.has v = true := by
  classical
  have hlen : Xm.length = Xp.length := List.Forall₂.length_eq hq
  have hS' : RightLeaves (fun x => if InBox x t.box then S x else .maybe) t := by
    intro p hp x hx
    dsimp only
    rw [if_pos (hx.of_le (regular_leaf_le hr hp))]
    exact hS p hp x hx
  obtain ⟨hne, hsol⟩ : (Xm.hull Xp).isEmpty = false ∧ Solid (Xm.hull Xp) := by
    unfold isFlat at hf
    rwa [Bool.or_eq_false_iff] at hf
  have hi : t.box.inter (Xm.hull Xp) = Xm.hull Xp := by
    have hx := (midBox_interior hsol).inBox
    rw [inter_eq_zip (hx.of_le hin) hx]
    clear hx hsol hne hf
    unfold BoxLe at hin
    generalize Xm.hull Xp = Z at hin ⊢
    generalize t.box = Y at hin ⊢
    induction hin with
    | nil => rfl
    | cons h1 h2 ih => rw [List.zipWith_cons_cons, ih, inf_eq_right.2 h1]
  have hbs : ThickBox.boxSubset (ThickBox.superset (thickBox Xm Xp)) t.box = true := by
    have h1 := superset_le hq
    rw [← hull_eq_zip hq] at h1
    exact boxSubset_of_le (h1.trans hin) ((midBox_interior hsol).inBox.of_le hin).not_isEmpty
  obtain ⟨r, e, h⟩ := intersect_ok hr hS' (fun x hx => if_neg hx) hd hm hq (.inr (by rw [hi]; exact hf)) hcross
  refine ⟨r, e, fun a b v ⟨ha, hb, hab⟩ hv => h a b v ha hb hab (.inr hbs) ?_⟩
  have hSx : ∀ x, Between a b x → (if InBox x t.box then S x else .maybe) = S x := fun x hx => if_pos ((between_hull hlen ha hb hx).of_le hin)
  cases v with
  | yes => exact fun x hx => (hSx x hx).trans (hv x hx)
  | no => exact fun x hx => (hSx x hx).trans (hv x hx)
  | maybe =>
    obtain ⟨⟨x, x1, x2⟩, y, y1, y2⟩ := hv
    exact ⟨⟨x, x1, fun h => x2 ((hSx x x1).symm.trans h)⟩, y, y1, fun h => y2 ((hSx y y1).symm.trans h)⟩

/-- C109 in general (partial): the boxes of the question may leave the paved box. Missing: the same as for `C109_inside_partial`, and the boxes with a bound in
common with the paved box (`C109_touch_fails`). -/
theorem C109_intersect_partial {n : Nat} {S : List K → V3} {t : TNode K} (hr : Regular n t) (hS : RightLeaves S t)
    (hout : ∀ x, ¬ InBox x t.box → S x = .maybe) {diff : Itv K → Itv K → Itv K × Itv K} (hd : DiffCovers diff) {Xm Xp : Box K} (hm : Xm.length = n)
    (hq : Question Xm Xp) (hf : (t.box.inter (Xm.hull Xp)).isEmpty = true ∨ isFlat (t.box.inter (Xm.hull Xp)) = false)
    (hcross : AtMostOneMeets Xm Xp) :
    ∃ r, intersect diff t Xm Xp = some r ∧
      ∀ a b v, Asked Xm Xp a b → noTouch (a.zip b) t.box → BoxValue S a b v → r.has v = true := by
  obtain ⟨r, e, h⟩ := intersect_ok hr hS hout hd hm hq hf hcross
  exact ⟨r, e, fun a b v ⟨ha, hb, hab⟩ ht hv => h a b v ha hb hab (.inl ht) hv⟩

/-- C109: on the line and in the plane there is no limit on the directions -/
theorem C109_plane {Xm Xp : Box K} (hq : Question Xm Xp) (h2 : Xm.length ≤ 2) : AtMostOneMeets Xm Xp :=
  crossing_of_le_two (List.Forall₂.length_eq hq) h2

/-- C109: the difference of two intervals of IBEX is fit for it -/
theorem C109_diff : DiffCovers (ibexDiff (K := K)) := ibexDiff_covers

end

/-! ### Cases -/

/-- the answers for the set `stair` on the line: in the subset, out of the superset, at least a part of the superset, around the paved box -/
example : (stairTree.bind fun t => intersect ibexDiff t [Itv.icc 0 (1 / 4)] [Itv.icc (1 / 2) (3 / 4)]) = some .in_ ∧
    (stairTree.bind fun t => intersect ibexDiff t [Itv.icc (11 / 4) 3] [Itv.icc (7 / 2) 4]) = some .out ∧
    (stairTree.bind fun t => intersect ibexDiff t [Itv.icc 0 (1 / 4)] [Itv.icc (5 / 4) 2]) = some .maybeIn ∧
    (stairTree.bind fun t => intersect ibexDiff t [Itv.icc 0 (1 / 4)] [Itv.icc 3 4]) = some .maybe ∧
    (stairTree.bind fun t => intersect ibexDiff t [Itv.icc (-2) (-1)] [Itv.icc 3 5]) = some .maybe ∧
    (stairTree.bind fun t => intersect ibexDiff t [Itv.icc (-3) (-2)] [Itv.icc (-2) (-1)]) = some .maybe := by decide +kernel

/-- the hypotheses are met by a question where `Xm` and `Xp` are apart, and by one where they meet -/
example : Question [Itv.icc (0 : ℚ) (1 / 4)] [Itv.icc 3 4] ∧ Question [Itv.icc (0 : ℚ) 2] [Itv.icc 1 3] ∧
    Asked [Itv.icc (0 : ℚ) (1 / 4)] [Itv.icc 3 4] [1 / 8] [7 / 2] ∧ isFlat (Box.hull [Itv.icc (0 : ℚ) (1 / 4)] [Itv.icc 3 4]) = false := by
  refine ⟨.cons (by decide +kernel) .nil, .cons (by decide +kernel) .nil, ⟨.cons (by decide +kernel) .nil, .cons (by decide +kernel) .nil,
    .cons (by norm_num) .nil⟩, by decide +kernel⟩

/-- a point of the plane on a border of the squares of side 1 of `[0,2]²`, or in one of them -/
def checker : List ℚ → V3
  | [x, y, _] =>
    if x < 1 ∧ y < 1 ∨ 1 < x ∧ 1 < y then .yes else if x < 1 ∧ 1 < y ∨ 1 < x ∧ y < 1 then .no else .maybe
  | _ => .maybe

/-- a paving of `[0,2] × [0,2] × [0,1]` for it, with four leaves -/
def checkerTree : TNode ℚ :=
  node [Itv.icc 0 2, Itv.icc 0 2, Itv.icc 0 1] .unk
    (node [Itv.icc 0 1, Itv.icc 0 2, Itv.icc 0 1] .unk (leaf [Itv.icc 0 1, Itv.icc 0 1, Itv.icc 0 1] .maybeIn) (leaf [Itv.icc 0 1, Itv.icc 1 2, Itv.icc 0 1] .maybeOut))
    (node [Itv.icc 1 2, Itv.icc 0 2, Itv.icc 0 1] .unk (leaf [Itv.icc 1 2, Itv.icc 0 1, Itv.icc 0 1] .maybeOut) (leaf [Itv.icc 1 2, Itv.icc 1 2, Itv.icc 0 1] .maybeIn))

theorem checkerTree_regular : Regular 3 checkerTree := by
  have c1 : IsCut [Itv.icc (0 : ℚ) 2, Itv.icc 0 2, Itv.icc 0 1] [Itv.icc 0 1, Itv.icc 0 2, Itv.icc 0 1] [Itv.icc 1 2, Itv.icc 0 2, Itv.icc 0 1] :=
    IsCut.here (I := Itv.icc (0 : ℚ) 2) (m := 1) (p := 0) (q := 2) (by decide +kernel) (by decide +kernel) (by norm_num) (by norm_num)
  have c2 : ∀ I : Itv ℚ, IsCut [I, Itv.icc (0 : ℚ) 2, Itv.icc 0 1] [I, Itv.icc 0 1, Itv.icc 0 1] [I, Itv.icc 1 2, Itv.icc 0 1] := fun I =>
    .there (IsCut.here (I := Itv.icc (0 : ℚ) 2) (m := 1) (p := 0) (q := 2) (by decide +kernel) (by decide +kernel) (by norm_num) (by norm_num))
  have hb : ∀ b : Box ℚ, b.length = 3 → (∀ I ∈ b, I.isUnbounded = false) → b.any Itv.isDegenerated = false → b.length = 3 ∧ Bnd b ∧ Solid b :=
    fun b h1 h2 h3 => ⟨h1, h2, h3⟩
  refine ⟨hb _ rfl (by decide +kernel) (by decide +kernel), c1, ⟨hb _ rfl (by decide +kernel) (by decide +kernel), c2 _, ?_, ?_⟩,
    ⟨hb _ rfl (by decide +kernel) (by decide +kernel), c2 _, ?_, ?_⟩⟩ <;> exact hb _ rfl (by decide +kernel) (by decide +kernel)

theorem checkerTree_right : RightLeaves checker checkerTree := by
  intro p hp x hx
  simp only [checkerTree, TNode.leaves, List.cons_append, List.nil_append, List.mem_cons, List.not_mem_nil, or_false] at hp
  rcases hp with rfl | rfl | rfl | rfl <;> (
    cases hx with
    | @cons a _ x _ ha hx =>
      cases hx with
      | @cons b _ x _ hb hx =>
        cases hx with
        | @cons c _ x _ hc hx =>
          cases hx
          rw [Itv.mem_icc] at ha hb
          unfold checker
          simp only
          split_ifs with h1 h2 <;> first | rfl | (exfalso; rcases h1 with ⟨h1, h3⟩ | ⟨h1, h3⟩ <;> linarith) |
            (exfalso; rcases h2 with ⟨h1, h3⟩ | ⟨h1, h3⟩ <;> linarith))

/-- C109 fails when `Xm` and `Xp` meet in two directions out of three: a box out of the superset is asked, and the answer is `MAYBE`. The two projections
of the squares of the superset cover `[0,2]`, but these squares do not cover `[0,2]²`. -/
theorem C109_directions_fails : ∃ Xm Xp : Box ℚ, Regular 3 checkerTree ∧ RightLeaves checker checkerTree ∧ Question Xm Xp ∧
    BoxLe (Xm.hull Xp) checkerTree.box ∧ isFlat (Xm.hull Xp) = false ∧ Asked Xm Xp [1 / 2, 3 / 2, 1 / 4] [1 / 2, 3 / 2, 3 / 4] ∧
    BoxValue checker [1 / 2, 3 / 2, 1 / 4] [1 / 2, 3 / 2, 3 / 4] .no ∧
    ∃ r, intersect ibexDiff checkerTree Xm Xp = some r ∧ r.has .no = false := by
  refine ⟨[Itv.icc 0 2, Itv.icc 0 2, Itv.icc (1 / 4) (1 / 3)], [Itv.icc 0 2, Itv.icc 0 2, Itv.icc (2 / 3) (3 / 4)], checkerTree_regular, checkerTree_right,
    .cons (by decide +kernel) (.cons (by decide +kernel) (.cons (by decide +kernel) .nil)),
    .cons (by decide +kernel) (.cons (by decide +kernel) (.cons (by decide +kernel) .nil)), by decide +kernel,
    ⟨.cons (by decide +kernel) (.cons (by decide +kernel) (.cons (by decide +kernel) .nil)),
      .cons (by decide +kernel) (.cons (by decide +kernel) (.cons (by decide +kernel) .nil)), .cons le_rfl (.cons le_rfl (.cons (by norm_num) .nil))⟩,
    ?_, .maybe, by decide +kernel, rfl⟩
  rintro x ⟨h1, h2⟩
  cases h1 with
  | @cons _ a _ x h1 h3 =>
    cases h3 with
    | @cons _ b _ x h3 h4 =>
      cases h4 with
      | @cons _ c _ x h4 h5 =>
        cases h5
        cases h2 with
        | cons k1 h2 =>
          cases h2 with
          | cons k2 _ =>
            have e1 : a = 1 / 2 := le_antisymm k1 h1
            have e2 : b = 3 / 2 := le_antisymm k2 h3
            subst e1 e2
            unfold checker
            simp only
            norm_num

/-- C109 fails for a flat hull: the point `1/2`, in the subset, gets the answer `OUT` -/
theorem C109_flat_fails : ∃ t : TNode ℚ, Regular 1 t ∧ RightLeaves stair t ∧ BoxLe (Box.hull [Itv.point (1 / 2)] [Itv.point (1 / 2)]) t.box ∧
    Asked [Itv.point (1 / 2 : ℚ)] [Itv.point (1 / 2)] [1 / 2] [1 / 2] ∧ BoxValue stair [1 / 2] [1 / 2] .yes ∧
    intersect ibexDiff t [Itv.point (1 / 2)] [Itv.point (1 / 2)] = some .out := by
  cases h : stairTree with
  | none => exact absurd h (by decide +kernel)
  | some t =>
    obtain ⟨_, _, hb, hr, hS⟩ := C106_build stairTest_ok (C106_bisector (1 / 2) (by norm_num)) stairBox_ok h
    have e : (stairTree.bind fun t => intersect ibexDiff t [Itv.point (1 / 2)] [Itv.point (1 / 2)]) = some .out := by decide +kernel
    rw [h] at e
    refine ⟨t, hr, hS.leaves, ?_, ⟨.cons (by decide +kernel) .nil, .cons (by decide +kernel) .nil, .cons le_rfl .nil⟩, ?_, e⟩
    · rw [hb]; exact .cons (by decide +kernel) .nil
    · rintro x ⟨h1, h2⟩
      cases h1 with
      | @cons _ a _ x h1 h3 =>
        cases h3
        cases h2 with
        | cons k1 _ =>
          obtain rfl : a = 1 / 2 := le_antisymm k1 h1
          decide +kernel

/-- the set `stair` in `[0,4]`, unknown elsewhere -/
def stairIn : List ℚ → V3
  | [a] => if 0 ≤ a ∧ a ≤ 4 then stair [a] else .maybe
  | _ => .maybe

/-- C109 fails for a box with a bound in common with the paved box: `[0, 1/2]`, in the subset, is one of the boxes of the question, and the answer is `MAYBE` -/
theorem C109_touch_fails : ∃ t : TNode ℚ, Regular 1 t ∧ RightLeaves stairIn t ∧ (∀ x, ¬ InBox x t.box → stairIn x = .maybe) ∧
    Question [Itv.point (0 : ℚ)] [Itv.icc (1 / 2) 5] ∧ Asked [Itv.point (0 : ℚ)] [Itv.icc (1 / 2) 5] [0] [1 / 2] ∧ BoxValue stairIn [0] [1 / 2] .yes ∧
    intersect ibexDiff t [Itv.point 0] [Itv.icc (1 / 2) 5] = some .maybe := by
  cases h : stairTree with
  | none => exact absurd h (by decide +kernel)
  | some t =>
    obtain ⟨_, _, hb, hr, hS⟩ := C106_build stairTest_ok (C106_bisector (1 / 2) (by norm_num)) stairBox_ok h
    have e : (stairTree.bind fun t => intersect ibexDiff t [Itv.point 0] [Itv.icc (1 / 2) 5]) = some .maybe := by decide +kernel
    rw [h] at e
    have hbox : ∀ x, InBox x t.box ↔ ∃ a, x = [a] ∧ 0 ≤ a ∧ a ≤ 4 := by
      intro x
      rw [hb]
      constructor
      · intro hx
        cases hx with
        | @cons a _ x _ ha hx => cases hx; exact ⟨a, rfl, Itv.mem_icc.1 ha⟩
      · rintro ⟨a, rfl, ha⟩
        exact .cons (Itv.mem_icc.2 ha) .nil
    refine ⟨t, hr, fun p hp x hx => ?_, fun x hx => ?_, .cons (by decide +kernel) .nil,
      ⟨.cons (by decide +kernel) .nil, .cons (by decide +kernel) .nil, .cons (by norm_num) .nil⟩, ?_, e⟩
    · obtain ⟨a, rfl, ha⟩ := (hbox x).1 (hx.of_le (regular_leaf_le hr hp))
      have : stairIn [a] = stair [a] := if_pos ha
      rw [this]
      exact hS.leaves p hp _ hx
    · unfold stairIn
      split
      · rename_i a
        exact if_neg fun ha => hx ((hbox _).2 ⟨a, rfl, ha⟩)
      · rfl
    · rintro x ⟨h1, h2⟩
      cases h1 with
      | @cons _ a _ x h1 h3 =>
        cases h3
        cases h2 with
        | cons k1 _ =>
          have e1 : stairIn [a] = stair [a] := if_pos ⟨h1, by linarith⟩
          rw [e1]
          unfold stair
          exact if_pos (by linarith)

end Codac.Props
