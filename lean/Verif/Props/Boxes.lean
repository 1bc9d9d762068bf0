import Verif.Ctc.Boxes
import Verif.Ctc.QInter
import Mathlib.Algebra.Order.Field.Rat

/-!
# Combined static contractors: C23 and the q-intersection C47

`IsCtc n S c`: on every box of dimension `n`, the result of `c` is inside the box and keeps every point of `S`.
-/

set_option linter.unusedSectionVars false

namespace Codac.Props

variable {K : Type*} [LinearOrder K]

/-! ## C23 -/

/-- C23, `CtcBox`: the result contains exactly the points of the box which are in the box given to the constructor -/
theorem C23_box_exact (b X : Box K) (hl : X.length = b.length) (v : List K) :
    InBox v (ctcBox b X) ↔ InBox v X ∧ InBox v b := inBox_inter hl

theorem C23_box (b : Box K) : IsCtc b.length (fun v => InBox v b) (ctcBox b) where
  le := fun _ h => inter_le_left h
  keeps := fun _ _ h hv hb => (inBox_inter h).mpr ⟨hv, hb⟩

/-- C23, `CtcUnion`: a contractor for the union of the sets of its operands -/
theorem C23_union (n : Nat) (ops : List ((List K → Prop) × (Box K → Box K))) (h : ∀ p ∈ ops, IsCtc n p.1 p.2) :
    IsCtc n (fun v => ∃ p ∈ ops, p.1 v) (ctcUnion n (ops.map Prod.snd)) where
  le := by
    intro X hX
    refine unionFold_le ?_ (empty_boxLe hX.symm)
    intro c hc
    obtain ⟨p, hp, rfl⟩ := List.mem_map.mp hc
    exact (h p hp).le X hX
  keeps := by
    rintro X v hX hv ⟨p, hp, hS⟩
    refine unionFold_keeps (n := n) ?_ (by simp) (.inr ⟨p.2, List.mem_map_of_mem hp, (h p hp).keeps X v hX hv hS⟩)
    intro c hc
    obtain ⟨p, hp, rfl⟩ := List.mem_map.mp hc
    exact (h p hp).length hX

/-- C23, `CtcUnion` gives the smallest box containing the results of its operands -/
theorem C23_union_least (n : Nat) (cs : List (Box K → Box K)) (X Z : Box K) (hc : ∀ c ∈ cs, BoxLe (c X) Z) (hZ : Z.length = n) :
    BoxLe (ctcUnion n cs X) Z := unionFold_le hc (empty_boxLe hZ.symm)

/-- the points whose consecutive parts are in the given sets -/
def InProduct : List (Nat × (List K → Prop)) → List K → Prop
  | [], _ => True
  | (n, S) :: l, v => S (v.take n) ∧ InProduct l (v.drop n)

/-- C23, `CtcCartProd`: a contractor for the product of the sets of its operands -/
theorem C23_cart_prod (ops : List (Nat × (List K → Prop) × (Box K → Box K))) (h : ∀ p ∈ ops, IsCtc p.1 p.2.1 p.2.2) :
    IsCtc (ops.map Prod.fst).sum (InProduct (ops.map fun p => (p.1, p.2.1))) (ctcCartProd (ops.map fun p => (p.1, p.2.2))) := by
  induction ops with
  | nil => exact ⟨fun X _ => BoxLe.refl X, fun X v _ hv _ => hv⟩
  | cons p ops ih =>
    obtain ⟨n, S, c⟩ := p
    have h1 := h (n, S, c) (by simp)
    have h2 := ih fun p hp => h p (List.mem_cons_of_mem _ hp)
    constructor
    · intro X hX
      simp only [List.map_cons, List.sum_cons] at hX
      have h3 : (X.take n).length = n := by simp; omega
      have h4 : (X.drop n).length = (ops.map Prod.fst).sum := by simp; omega
      have := (h1.le _ h3).append (h2.le _ h4)
      rwa [List.take_append_drop] at this
    · intro X v hX hv hS
      simp only [List.map_cons, List.sum_cons] at hX
      have h3 : (X.take n).length = n := by simp; omega
      have h4 : (X.drop n).length = (ops.map Prod.fst).sum := by simp; omega
      have hv' : InBox v (X.take n ++ X.drop n) := by rwa [List.take_append_drop]
      have hsp := inBox_split hv'
      rw [h3] at hsp
      simp only [List.map_cons, InProduct] at hS
      have := (h1.keeps _ _ h3 hsp.1 hS.1).append (h2.keeps _ _ h4 hsp.2 hS.2)
      rw [List.take_append_drop] at this
      exact this

/-- C23, `CtcFromSep`: the contractor for the complement of the set (inner) or for the set (outer) -/
theorem C23_from_sep (n : Nat) (S : List K → Prop) (s : Box K → Box K → Box K × Box K) (hs : IsSep n S s) :
    IsCtc n (fun v => ¬ S v) (ctcFromSep s true) ∧ IsCtc n S (ctcFromSep s false) := by
  refine ⟨⟨fun X hX => ?_, fun X v hX hv h => ?_⟩, ⟨fun X hX => ?_, fun X v hX hv h => ?_⟩⟩
  · exact inter_le_left (hs.le_in X X hX hX).length.symm
  · exact (inBox_inter (hs.le_in X X hX hX).length.symm).mpr ⟨hv, hs.keeps_in X X v hX hX hv hv h⟩
  · exact inter_le_left (hs.le_out X X hX hX).length.symm
  · exact (inBox_inter (hs.le_out X X hX hX).length.symm).mpr ⟨hv, hs.keeps_out X X v hX hX hv hv h⟩

/-- the set described by `CtcTransform`: the points sent in `S` by the function `f` -/
def Preimage (f : List K → List K) (S : List K → Prop) : List K → Prop := fun v => S (f v)

/-- C23, `CtcTransform`: contracting; sound on the boxes without solution, and on the boxes which are in their own image by the inverse
function. Missing: the soundness on the other boxes, which does not hold (see `C23_transform_fails`). -/
theorem C23_transform_partial (n : Nat) (S : List K → Prop) (c ffwd fbwd : Box K → Box K) (X : Box K) (hX : X.length = n)
    (hb : (fbwd X).length = n) :
    BoxLe (ctcTransform c ffwd fbwd X) X ∧
    ∀ f : List K → List K, (∀ v, InBox v X → InBox (f v) (ffwd X)) → (∀ w, InBox w (ffwd X) → S w → InBox w (c (ffwd X))) →
      ∀ v, InBox v X → Preimage f S v → InBox v (fbwd X) → InBox v (ctcTransform c ffwd fbwd X) := by
  constructor
  · unfold ctcTransform
    split
    · exact setEmpty_le X
    · exact inter_le_left (by omega)
  · intro f hf hc v hv hS hv'
    unfold ctcTransform
    rw [(hc _ (hf v hv) hS).not_isEmpty]
    simpa using (inBox_inter (by omega)).mpr ⟨hv, hv'⟩

/-- the translations by 10 and -10 on boxes of dimension 1 -/
def shiftBox (d : ℚ) (X : Box ℚ) : Box ℚ :=
  X.map fun I => match I with
    | .empty => ⊥
    | .mk lo hi _ => .ofBounds (lo.map (· + d)) (hi.map (· + d))

theorem shiftBox_encl (d : ℚ) (X : Box ℚ) (v : List ℚ) (h : InBox v X) : InBox (v.map (· + d)) (shiftBox d X) := by
  unfold InBox shiftBox at *
  rw [List.forall₂_map_left_iff, List.forall₂_map_right_iff]
  refine h.imp fun a I ha => ?_
  cases I with
  | empty => exact ha
  | mk lo hi p =>
    rw [Itv.mem_mk] at ha
    simp only [Itv.mem_ofBounds]
    constructor
    · cases lo with
      | none => trivial
      | some l => simpa using ha.1
    · cases hi with
      | none => trivial
      | some l => simpa using ha.2

/-- C23 fails for `CtcTransform`: the box is intersected with its own image by the inverse function, instead of the image of the
contracted box. With the translation `f(x) = x + 10` of inverse `x - 10`, and a contractor which does nothing (the set is the whole
space), the box `[0,1]` is emptied, although all its points are solutions. -/
theorem C23_transform_fails :
    ∃ (f g : List ℚ → List ℚ) (ffwd fbwd c : Box ℚ → Box ℚ) (X : Box ℚ) (v : List ℚ),
      (∀ w, g (f w) = w) ∧ (∀ X v, InBox v X → InBox (f v) (ffwd X)) ∧ (∀ X v, InBox v X → InBox (g v) (fbwd X)) ∧
      IsCtc 1 (fun _ => True) c ∧ InBox v X ∧ Preimage f (fun _ => True) v ∧ ¬ InBox v (ctcTransform c ffwd fbwd X) := by
  refine ⟨fun v => v.map (· + 10), fun v => v.map (· + -10), shiftBox 10, shiftBox (-10), id, [.icc 0 1], [0], ?_,
    shiftBox_encl 10, shiftBox_encl (-10), ⟨fun X _ => BoxLe.refl X, fun X v _ h _ => h⟩, ?_, trivial, ?_⟩
  · intro w
    simp [List.map_map, Function.comp_def]
  · simp [InBox]
  · have : ctcTransform id (shiftBox 10) (shiftBox (-10)) [Itv.icc 0 1] = [⊥] := by decide +kernel
    rw [this]
    simp [InBox]

/-! ## C47 -/

/-- at least `q` of the boxes contain the point -/
def InAtLeast (q : Int) (v : List K) (boxes : List (Box K)) : Prop :=
  ∃ L : List (Box K), L.Sublist boxes ∧ q ≤ L.length ∧ ∀ X ∈ L, InBox v X

/-- C47: for `q > 0` and at least one box, `qinter_projf` always returns a box (no variable is used without a value) -/
theorem C47_qinter_total (q : Int) (hq : 0 < q) (boxes : List (Box K)) (hb : boxes ≠ []) : ∃ X, qinter q boxes = some X :=
  qinter_total hq hb

/-- C47: the q-intersection keeps every point of at least `q` boxes -/
theorem C47_qinter_sound (q : Int) (hq : 0 < q) (n : Nat) (boxes : List (Box K)) (hn : ∀ X ∈ boxes, X.length = n) (Y : Box K)
    (h : qinter q boxes = some Y) (v : List K) (hv : InAtLeast q v boxes) : InBox v Y := by
  obtain ⟨L, h1, h2, h3⟩ := hv
  exact qinter_keeps hq hn h1 h2 h3 h

/-- C47: the result is in every box containing all the boxes -/
theorem C47_qinter_within (q : Int) (boxes : List (Box K)) (Y Z : Box K) (h : qinter q boxes = some Y)
    (hZ : ∀ X ∈ boxes, BoxLe X Z) : BoxLe Y Z := qinter_le hZ h

/-- at least `q` of the intervals contain the number -/
def InAtLeast₁ (q : Int) (a : K) (Is : List (Itv K)) : Prop :=
  ∃ L : List (Itv K), L.Sublist Is ∧ q ≤ L.length ∧ ∀ I ∈ L, a ∈ I

theorem inAtLeast₁_iff (q : Int) (a : K) (Is : List (Itv K)) :
    InAtLeast₁ q a Is ↔ q ≤ QInter.cnt ((a : WithTop K) : EBnd K) Is := by
  constructor
  · rintro ⟨L, h1, h2, h3⟩
    have h4 : L.countP (QInter.memE ((a : WithTop K) : EBnd K)) = L.length :=
      List.countP_eq_length.mpr fun I hI => QInter.memE_coe.mpr (h3 I hI)
    have h5 := h1.countP_le (p := QInter.memE ((a : WithTop K) : EBnd K))
    unfold QInter.cnt
    omega
  · intro h
    refine ⟨Is.filter (QInter.memE ((a : WithTop K) : EBnd K)), List.filter_sublist, ?_, ?_⟩
    · rwa [QInter.cnt, List.countP_eq_length_filter] at h
    · intro I hI
      exact QInter.memE_coe.mp (List.mem_filter.mp hI).2

/-- C47, exactness in one dimension: the bounds which are finite are themselves in at least `q` of the intervals, so that the result is the
smallest interval containing the numbers in at least `q` of the intervals -/
theorem C47_qinter_exact (q : Int) (hq : 0 < q) (Is : List (Itv K)) :
    (QInter.dim q Is = some none ∧ ∀ a, ¬ InAtLeast₁ q a Is) ∨
    ∃ I, QInter.dim q Is = some (some I) ∧ (∀ a, InAtLeast₁ q a Is → a ∈ I) ∧
      (∀ a, I.lb? = some a → InAtLeast₁ q a Is) ∧ (∀ b, I.ub? = some b → InAtLeast₁ q b Is) := by
  rcases QInter.dim_spec hq Is with ⟨h1, h2⟩ | ⟨lo, hi, p, h1, h2, h3, h4⟩
  · exact .inl ⟨h1, fun a ha => h2 _ ((inAtLeast₁_iff q a Is).mp ha)⟩
  · refine .inr ⟨.mk lo hi p, h1, ?_, ?_, ?_⟩
    · intro a ha
      have := h4 _ ((inAtLeast₁_iff q a Is).mp ha)
      rw [QInter.extLo_le_coe, QInter.coe_le_extHi] at this
      exact this
    · intro a ha
      simp only [Itv.lb?] at ha
      subst ha
      exact (inAtLeast₁_iff q a Is).mpr h2
    · intro a ha
      simp only [Itv.ub?] at ha
      subst ha
      exact (inAtLeast₁_iff q a Is).mpr h3

/-- C23 and C47, `CtcQInterProjF`: a contractor for the points which are in at least `q` of the sets -/
theorem C23_qinter (n : Nat) (q : Int) (hq : 0 < q) (ops : List ((List K → Prop) × (Box K → Box K))) (h : ∀ p ∈ ops, IsCtc n p.1 p.2)
    (X Y : Box K) (hX : X.length = n) (hr : ctcQInter q (ops.map Prod.snd) X = some Y) :
    BoxLe Y X ∧ ∀ v, InBox v X →
      (∃ L : List ((List K → Prop) × (Box K → Box K)), L.Sublist ops ∧ q ≤ L.length ∧ ∀ p ∈ L, p.1 v) → InBox v Y := by
  unfold ctcQInter at hr
  rw [List.map_map] at hr
  constructor
  · refine qinter_le ?_ hr
    intro B hB
    obtain ⟨p, hp, rfl⟩ := List.mem_map.mp hB
    exact (h p hp).le X hX
  · rintro v hv ⟨L, h1, h2, h3⟩
    refine qinter_keeps (n := n) hq ?_ (h1.map _) (by simpa using h2) ?_ hr
    · intro B hB
      obtain ⟨p, hp, rfl⟩ := List.mem_map.mp hB
      exact (h p hp).length hX
    · intro B hB
      obtain ⟨p, hp, rfl⟩ := List.mem_map.mp hB
      exact (h p (h1.subset hp)).keeps X v hX hv (h3 p hp)

/-! ### Examples: the hypotheses are met -/

/-- three boxes of dimension 2 -/
def qBoxes : List (Box ℚ) := [[.icc 0 4, .icc 0 4], [.icc 3 6, .ofBounds none (some 2)], [.icc 5 8, .icc 1 3]]

example : qinter 2 qBoxes = some [.icc 3 6, .icc 0 3] := by decide +kernel
example : qinter 3 qBoxes = some [⊥, ⊥] := by decide +kernel
example : qinter 1 qBoxes = some [.icc 0 8, .ofBounds none (some 4)] := by decide +kernel
example : InAtLeast 2 [3, 1] qBoxes := by
  refine ⟨[[.icc 0 4, .icc 0 4], [.icc 3 6, .ofBounds none (some 2)]], ?_, by simp, ?_⟩
  · unfold qBoxes
    simp
  · simp only [List.mem_cons, List.not_mem_nil, or_false, forall_eq_or_imp, forall_eq, InBox]
    exact ⟨by norm_num [Itv.mem_ofBounds], by norm_num [Itv.mem_ofBounds]⟩

example : ctcUnion 1 [ctcBox [.icc 0 1], ctcBox [.icc 5 9]] [.icc (1 : ℚ) 7] = [.icc 1 7] := by decide +kernel
example : ctcUnion 1 [ctcBox [.icc 0 1], ctcBox [.icc 5 9]] [.icc (2 : ℚ) 7] = [.icc 5 7] := by decide +kernel
example : ctcCartProd [(1, ctcBox [.icc 0 1]), (2, ctcBox [.icc 5 9, .icc 0 3])] [.icc (0 : ℚ) 7, .icc 2 6, .icc 1 4] =
    [.icc 0 1, .icc 5 6, .icc 1 3] := by decide +kernel

/-- C23, `CtcCartProd`: when an operand other than the first empties its part, the box has no point but `is_empty` (which only looks at
the first component) answers false -/
theorem C23_cart_prod_is_empty_fails :
    ∃ X : Box ℚ, (ctcCartProd [(1, ctcBox [.icc 0 1]), (1, ctcBox [.icc 5 9])] X).isEmpty = false ∧
      ∀ v, ¬ InBox v (ctcCartProd [(1, ctcBox [.icc 0 1]), (1, ctcBox [.icc 5 9])] X) := by
  refine ⟨[.icc 0 1, .icc 0 1], by decide +kernel, fun v => not_inBox_of_any (by decide +kernel)⟩

end Codac.Props
