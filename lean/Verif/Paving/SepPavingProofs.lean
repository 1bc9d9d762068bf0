import Verif.Paving.SepPaving
import Verif.Sivia.Ibex
import Verif.Ctc.Boxes

/-!
# Proofs about `SepPaving`

`P` is what has to stay in the boxes `m_box_out` (the set, and possibly its frontier), `Q` what has to stay in the boxes `m_box_in`.
-/

set_option linter.unusedSectionVars false

namespace Codac
namespace SPav

variable {K : Type*} [Field K] [LinearOrder K] [IsStrictOrderedRing K]

/-! ### Specifications -/

/-- a separator which keeps `Q` in the first box and `P` in the second one -/
structure Keeps (n : Nat) (P Q : List K → Prop) (s : Box K → Box K → Box K × Box K) : Prop where
  le_in : ∀ X Y, X.length = n → Y.length = n → BoxLe (s X Y).1 X
  le_out : ∀ X Y, X.length = n → Y.length = n → BoxLe (s X Y).2 Y
  keeps_in : ∀ X Y v, X.length = n → Y.length = n → InBox v X → InBox v Y → Q v → InBox v (s X Y).1
  keeps_out : ∀ X Y v, X.length = n → Y.length = n → InBox v X → InBox v Y → P v → InBox v (s X Y).2

/-- what is used of `IntervalVector::diff` for an argument inside the box or empty, see `IsDiff` -/
structure DiffOk (n : Nat) (diff : Box K → Box K → List (Box K)) : Prop where
  le : ∀ X Y : Box K, X.length = n → (BoxLe Y X ∨ Y.isEmpty = true) → ∀ D ∈ diff X Y, BoxLe D X
  cover : ∀ X Y : Box K, X.length = n → (BoxLe Y X ∨ Y.isEmpty = true) → ∀ v, InBox v X → ¬ InBox v Y → ∃ D ∈ diff X Y, InBox v D
  sep : ∀ X Y : Box K, X.length = n → (BoxLe Y X ∨ Y.isEmpty = true) → ∀ D ∈ diff X Y, ∀ v, InInterior v D → InBox v Y →
    Y.any Itv.isDegenerated = true

theorem boxDiff_ok (n : Nat) : DiffOk n (boxDiff (K := K)) where
  le X Y _ h D hD := by
    rcases h with h | h
    · exact boxDiff_isDiff.le X Y h D hD
    · rw [boxDiff, if_pos h] at hD
      simp only [List.mem_cons, List.not_mem_nil, or_false] at hD; subst hD; exact BoxLe.refl _
  cover X Y _ h v hv hn := by
    rcases h with h | h
    · exact boxDiff_isDiff.cover X Y h v hv hn
    · rw [boxDiff, if_pos h]; exact ⟨X, by simp, hv⟩
  sep X Y _ h D hD v hv hY := by
    rcases h with h | h
    · exact boxDiff_isDiff.sep X Y h D hD v hv hY
    · exact absurd hY (not_inBox_of_isEmpty h)

/-! ### Boxes -/

theorem contains_iff {X : Box K} {p : List K} : contains X p = true ↔ InBox p X := by
  induction X generalizing p with
  | nil => cases p <;> simp [contains, InBox]
  | cons I X ih =>
    cases p with
    | nil => simp [contains, InBox]
    | cons a p =>
      have := @ih p
      simp only [InBox] at this
      simp only [contains, InBox, Bool.and_eq_true, decide_eq_true_eq, List.forall₂_cons, this]

theorem not_contains_iff {X : Box K} {p : List K} : contains X p = false ↔ ¬ InBox p X := by
  rw [← contains_iff]; simp

theorem boxLe_isEmpty {a b : Box K} (h : BoxLe a b) (hb : b.isEmpty = true) : a.isEmpty = true := by
  cases h with
  | nil => simp [Box.isEmpty] at hb
  | cons h1 _ =>
    simp only [Box.isEmpty, Itv.isEmpty_iff] at hb ⊢
    subst hb
    exact le_bot_iff.1 h1

theorem zipSup_mono {a b a' b' : Box K} (h : BoxLe a a') (h' : BoxLe b b') :
    BoxLe (List.zipWith (· ⊔ ·) a b) (List.zipWith (· ⊔ ·) a' b') := by
  unfold BoxLe at *
  induction h generalizing b b' with
  | nil => simp
  | cons h1 _ ih =>
    cases h' with
    | nil => simp
    | cons h2 h3 => exact .cons (sup_le_sup h1 h2) (ih h3)

theorem inBox_hull_mono {a b a' b' : Box K} {p : List K} (hl : a'.length = b'.length) (h : BoxLe a a') (h' : BoxLe b b')
    (hp : InBox p (a.hull b)) : InBox p (a'.hull b') := by
  unfold Box.hull at hp
  by_cases hb : b.isEmpty = true
  · rw [if_pos hb] at hp
    exact InBox.hull_left hl (hp.of_le h)
  · rw [if_neg hb] at hp
    by_cases ha : a.isEmpty = true
    · rw [if_pos ha] at hp
      exact InBox.hull_right hl (hp.of_le h')
    · rw [if_neg ha] at hp
      have hb' : ¬ b'.isEmpty = true := fun h0 => hb (boxLe_isEmpty h' h0)
      have ha' : ¬ a'.isEmpty = true := fun h0 => ha (boxLe_isEmpty h h0)
      rw [Box.hull, if_neg hb', if_neg ha']
      exact hp.of_le (zipSup_mono h h')

theorem le_hull_or {X Y : Box K} (hl : X.length = Y.length) : BoxLe X (X.hull Y) ∨ X.isEmpty = true := le_hull_left hl

theorem le_hull_or' {X Y : Box K} (hl : X.length = Y.length) : BoxLe Y (X.hull Y) ∨ Y.isEmpty = true := by
  unfold Box.hull
  by_cases hY : Y.isEmpty = true
  · exact .inr hY
  · rw [if_neg hY]
    by_cases hX : X.isEmpty = true
    · rw [if_pos hX]; exact .inl (BoxLe.refl _)
    · rw [if_neg hX]
      left
      unfold BoxLe
      clear * - hl
      induction X generalizing Y with
      | nil => cases Y with
        | nil => simp
        | cons => simp at hl
      | cons I X ih =>
        cases Y with
        | nil => simp at hl
        | cons J Y => exact .cons le_sup_right (ih (by simpa using hl))

theorem foldl_hull {n : Nat} (L : List (Box K)) {a B : Box K} (ha : a.length = n) (haB : BoxLe a B) (hL : ∀ D ∈ L, BoxLe D B) :
    BoxLe (L.foldl (fun a b : Box K => a.hull b) a) B ∧ (∀ p, InBox p a → InBox p (L.foldl (fun a b : Box K => a.hull b) a)) ∧
      ∀ D ∈ L, ∀ p, InBox p D → InBox p (L.foldl (fun a b : Box K => a.hull b) a) := by
  induction L generalizing a with
  | nil => exact ⟨haB, fun _ h => h, by simp⟩
  | cons D L ih =>
    have hD := hL D (by simp)
    have hlen : a.length = D.length := by rw [haB.length, hD.length]
    have ha' : (a.hull D).length = n := by rw [Box.length_hull hlen, ha]
    obtain ⟨h1, h2, h3⟩ := ih ha' (hull_le haB hD) fun E hE => hL E (List.mem_cons_of_mem _ hE)
    refine ⟨h1, fun p hp => h2 p (InBox.hull_left hlen hp), fun E hE p hp => ?_⟩
    rcases List.mem_cons.1 hE with rfl | hE
    · exact h2 p (InBox.hull_right hlen hp)
    · exact h3 E hE p hp

/-! ### Invariants -/

/-- the boxes of a node keep the points of the node -/
def Loc (P Q : List K → Prop) (i o : Box K) : Prop := ∀ p, InBox p i ∨ InBox p o → (P p → InBox p o) ∧ (Q p → InBox p i)

/-- the boxes of a node keep the points of their hull -/
def Reg (P Q : List K → Prop) (i o : Box K) : Prop := ∀ p, InBox p (i.hull o) → (P p → InBox p o) ∧ (Q p → InBox p i)

/-- the boxes of a node are in a box and keep its points -/
structure Base (n : Nat) (P Q : List K → Prop) (B i o : Box K) : Prop where
  len : B.length = n
  le_in : BoxLe i B
  le_out : BoxLe o B
  keep : ∀ p, InBox p B → (P p → InBox p o) ∧ (Q p → InBox p i)

/-- in both boxes of a node -/
def Both (p : List K) (t : PNode K) : Prop := InBox p t.inn ∧ InBox p t.out

/-- every node keeps its points -/
def Good (n : Nat) (P Q : List K → Prop) : PNode K → Prop
  | .leaf i o => (i.length = n ∧ o.length = n) ∧ Loc P Q i o
  | .node i o l r => ((i.length = n ∧ o.length = n) ∧ Loc P Q i o) ∧ Good n P Q l ∧ Good n P Q r

/-- every node keeps the points of its hull -/
def Sound (n : Nat) (P Q : List K → Prop) : PNode K → Prop
  | .leaf i o => (i.length = n ∧ o.length = n) ∧ Reg P Q i o
  | .node i o l r => ((i.length = n ∧ o.length = n) ∧ Reg P Q i o) ∧ Sound n P Q l ∧ Sound n P Q r

/-- the points of `P` and `Q` are followed down to the leaves -/
def Cov (P Q : List K → Prop) : PNode K → Prop
  | .leaf _ _ => True
  | .node i o l r => (∀ p, P p → Q p → InBox p i → InBox p o → Both p l ∨ Both p r) ∧ Cov P Q l ∧ Cov P Q r

/-- a tree over a box: the children are trees over two boxes which cover the undecided part -/
def Strong (n : Nat) (P Q : List K → Prop) : Box K → PNode K → Prop
  | B, .leaf i o => Base n P Q B i o
  | B, .node i o l r => Base n P Q B i o ∧ ∃ B1 B2, BoxLe B1 B ∧ BoxLe B2 B ∧ (∀ p, InBox p i → InBox p o → InBox p B1 ∨ InBox p B2) ∧
      Strong n P Q B1 l ∧ Strong n P Q B2 r

/-- the leaves of a tree -/
def leaves : PNode K → List (Box K × Box K)
  | .leaf i o => [(i, o)]
  | .node _ _ l r => leaves l ++ leaves r

theorem Base.lens {n : Nat} {P Q : List K → Prop} {B i o : Box K} (h : Base n P Q B i o) : i.length = n ∧ o.length = n :=
  ⟨h.le_in.length.trans h.len, h.le_out.length.trans h.len⟩

theorem Base.reg {n : Nat} {P Q : List K → Prop} {B i o : Box K} (h : Base n P Q B i o) : Reg P Q i o :=
  fun p hp => h.keep p (hp.of_le (hull_le h.le_in h.le_out))

theorem Reg.loc {P Q : List K → Prop} {i o : Box K} (hl : i.length = o.length) (h : Reg P Q i o) : Loc P Q i o :=
  fun p hp => h p (hp.elim (InBox.hull_left hl) (InBox.hull_right hl))

theorem Sound.good {n : Nat} {P Q : List K → Prop} {t : PNode K} (h : Sound n P Q t) : Good n P Q t := by
  induction t with
  | leaf i o => exact ⟨h.1, h.2.loc (h.1.1.trans h.1.2.symm)⟩
  | node i o l r ihl ihr => exact ⟨⟨h.1.1, h.1.2.loc (h.1.1.1.trans h.1.1.2.symm)⟩, ihl h.2.1, ihr h.2.2⟩

theorem Strong.base {n : Nat} {P Q : List K → Prop} {B : Box K} {t : PNode K} (h : Strong n P Q B t) : Base n P Q B t.inn t.out := by
  cases t with
  | leaf i o => exact h
  | node i o l r => exact h.1

theorem Strong.sound {n : Nat} {P Q : List K → Prop} {B : Box K} {t : PNode K} (h : Strong n P Q B t) : Sound n P Q t := by
  induction t generalizing B with
  | leaf i o => exact ⟨Base.lens h, Base.reg h⟩
  | node i o l r ihl ihr =>
    obtain ⟨hb, B1, B2, _, _, _, hl, hr⟩ := h
    exact ⟨⟨hb.lens, hb.reg⟩, ihl hl, ihr hr⟩

theorem Base.both {n : Nat} {P Q : List K → Prop} {B : Box K} {t : PNode K} (h : Base n P Q B t.inn t.out) {p : List K}
    (hp : InBox p B) (hP : P p) (hQ : Q p) : Both p t := ⟨(h.keep p hp).2 hQ, (h.keep p hp).1 hP⟩

theorem Strong.cov {n : Nat} {P Q : List K → Prop} {B : Box K} {t : PNode K} (h : Strong n P Q B t) : Cov P Q t := by
  induction t generalizing B with
  | leaf i o => trivial
  | node i o l r ihl ihr =>
    obtain ⟨hb, B1, B2, _, _, hc, hl, hr⟩ := h
    refine ⟨fun p hP hQ hi ho => ?_, ihl hl, ihr hr⟩
    rcases hc p hi ho with h1 | h1
    · exact .inl (hl.base.both h1 hP hQ)
    · exact .inr (hr.base.both h1 hP hQ)

/-! ### The answers -/

theorem isInside_sound {n : Nat} {P Q : List K → Prop} {t : PNode K} (h : Good n P Q t) (p : List K) :
    (isInside t p = .yes → ¬ Q p) ∧ (isInside t p = .no → ¬ P p) := by
  induction t with
  | leaf i o =>
    have hL := h.2 p
    cases hi : contains i p <;> cases ho : contains o p <;> simp only [isInside, hi, ho] <;>
      simp only [contains_iff, not_contains_iff] at hi ho <;> simp_all
  | node i o l r ihl ihr =>
    have hL := h.1.2 p
    cases hi : contains i p <;> cases ho : contains o p <;> simp only [isInside, hi, ho]
    · simp
    · simp only [contains_iff, not_contains_iff] at hi ho; simp_all
    · simp only [contains_iff, not_contains_iff] at hi ho; simp_all
    · split
      · exact ihl h.2.1
      · split
        · exact ihr h.2.2
        · simp

/-- the test before each call on a child: no answer is empty below the root -/
theorem isInside_ne_empty {t : PNode K} {p : List K} (h : InBox p t.inn ∨ InBox p t.out) : isInside t p ≠ .empty := by
  induction t with
  | leaf i o =>
    simp only [PNode.inn, PNode.out, ← contains_iff] at h
    cases hi : contains i p <;> cases ho : contains o p <;> simp_all [isInside]
  | node i o l r ihl ihr =>
    simp only [PNode.inn, PNode.out, ← contains_iff] at h
    cases hi : contains i p <;> cases ho : contains o p
    · simp_all
    · simp [isInside, hi, ho]
    · simp [isInside, hi, ho]
    · simp only [isInside, hi, ho]
      by_cases h1 : (contains l.inn p || contains l.out p) = true
      · rw [if_pos h1]
        refine ihl ?_
        simpa [contains_iff] using h1
      · rw [if_neg h1]
        by_cases h2 : (contains r.inn p || contains r.out p) = true
        · rw [if_pos h2]
          refine ihr ?_
          simpa [contains_iff] using h2
        · rw [if_neg h2]; simp

/-- with a tree over a box, the points without an answer are in both boxes of a leaf -/
theorem isInside_maybe {n : Nat} {P Q : List K → Prop} (hPQ : ∀ p, P p ∨ Q p) {B : Box K} {t : PNode K} (h : Strong n P Q B t)
    {p : List K} (hm : isInside t p = .maybe) : ∃ b ∈ leaves t, InBox p b.1 ∧ InBox p b.2 := by
  induction t generalizing B with
  | leaf i o =>
    cases hi : contains i p <;> cases ho : contains o p <;> simp only [isInside, hi, ho] at hm <;> try cases hm
    exact ⟨(i, o), by simp [leaves], contains_iff.1 hi, contains_iff.1 ho⟩
  | node i o l r ihl ihr =>
    obtain ⟨hb, B1, B2, _, _, hc, hl, hr⟩ := h
    cases hi : contains i p <;> cases ho : contains o p <;> simp only [isInside, hi, ho] at hm <;> try cases hm
    by_cases h1 : (contains l.inn p || contains l.out p) = true
    · rw [if_pos h1] at hm
      obtain ⟨b, hb, h⟩ := ihl hl hm
      exact ⟨b, by simp [leaves, hb], h⟩
    · rw [if_neg h1] at hm
      by_cases h2 : (contains r.inn p || contains r.out p) = true
      · rw [if_pos h2] at hm
        obtain ⟨b, hb, h⟩ := ihr hr hm
        exact ⟨b, by simp [leaves, hb], h⟩
      · exfalso
        simp only [Bool.or_eq_true, contains_iff, not_or] at h1 h2
        rcases hc p (contains_iff.1 hi) (contains_iff.1 ho) with h3 | h3
        · rcases hPQ p with h4 | h4
          · exact h1.2 ((hl.base.keep p h3).1 h4)
          · exact h1.1 ((hl.base.keep p h3).2 h4)
        · rcases hPQ p with h4 | h4
          · exact h2.2 ((hr.base.keep p h3).1 h4)
          · exact h2.1 ((hr.base.keep p h3).2 h4)

/-! ### Sivia -/

theorem withBoxes_inn (i o : Box K) (t : PNode K) : (t.withBoxes i o).inn = i := by cases t <;> rfl
theorem withBoxes_out (i o : Box K) (t : PNode K) : (t.withBoxes i o).out = o := by cases t <;> rfl

theorem Loc.sep {n : Nat} {P Q : List K → Prop} {s : Box K → Box K → Box K × Box K} (hs : Keeps n P Q s) {i o : Box K}
    (hl : i.length = n ∧ o.length = n) (h : Loc P Q i o) : Loc P Q (s i o).1 (s i o).2 := by
  have e1 := hs.le_in i o hl.1 hl.2
  have e2 := hs.le_out i o hl.1 hl.2
  intro p hp
  have h1 := h p (hp.imp (·.of_le e1) (·.of_le e2))
  refine ⟨fun hP => ?_, fun hQ => ?_⟩
  · rcases hp with hp | hp
    · exact hs.keeps_out i o p hl.1 hl.2 (hp.of_le e1) (h1.1 hP) hP
    · exact hp
  · rcases hp with hp | hp
    · exact hp
    · exact hs.keeps_in i o p hl.1 hl.2 (h1.2 hQ) (hp.of_le e2) hQ

theorem loc_same (P Q : List K → Prop) (b : Box K) : Loc P Q b b := fun _ hp => ⟨fun _ => hp.elim id id, fun _ => hp.elim id id⟩

theorem Good.dims {n : Nat} {P Q : List K → Prop} {t : PNode K} (h : Good n P Q t) : t.inn.length = n ∧ t.out.length = n := by
  cases t with
  | leaf i o => exact h.1
  | node i o l r => exact h.1.1

theorem Good.loc {n : Nat} {P Q : List K → Prop} {t : PNode K} (h : Good n P Q t) : Loc P Q t.inn t.out := by
  cases t with
  | leaf i o => exact h.2
  | node i o l r => exact h.1.2

theorem Good.withBoxes {n : Nat} {P Q : List K → Prop} {t : PNode K} (h : Good n P Q t) {i o : Box K} (hl : i.length = n ∧ o.length = n)
    (hL : Loc P Q i o) : Good n P Q (t.withBoxes i o) := by
  cases t with
  | leaf _ _ => exact ⟨hl, hL⟩
  | node _ _ l r => exact ⟨⟨hl, hL⟩, h.2.1, h.2.2⟩

theorem ne_nil_of_pos {n : Nat} (hn : 0 < n) {X : Box K} (h : X.length = n) : X ≠ [] := by
  rintro rfl; simp at h; omega

theorem sivia_leaf (s : Box K → Box K → Box K × Box K) (bis : Box K → Box K × Box K) (eps : K) (fuel : Nat) (i o : Box K) :
    sivia s bis eps (fuel + 1) (.leaf i o) =
      if (!((s i o).1.inter (s i o).2).isEmpty && maxDiamGt eps ((s i o).1.inter (s i o).2)) = true then
        (sivia s bis eps fuel (.leaf (bis ((s i o).2.inter (s i o).1)).1 (bis ((s i o).2.inter (s i o).1)).1)).bind fun l =>
          (sivia s bis eps fuel (.leaf (bis ((s i o).2.inter (s i o).1)).2 (bis ((s i o).2.inter (s i o).1)).2)).map fun r =>
            .node (s i o).1 (s i o).2 l r
      else some (.leaf (s i o).1 (s i o).2) := rfl

theorem sivia_node (s : Box K → Box K → Box K × Box K) (bis : Box K → Box K × Box K) (eps : K) (fuel : Nat) (i o : Box K) (l r : PNode K) :
    sivia s bis eps (fuel + 1) (.node i o l r) =
      if (!((s i o).1.inter (s i o).2).isEmpty && maxDiamGt eps ((s i o).1.inter (s i o).2)) = true then
        (sivia s bis eps fuel l).bind fun l' => (sivia s bis eps fuel r).map fun r' => .node (s i o).1 (s i o).2 l' r'
      else some (.node (s i o).1 (s i o).2 l r) := rfl

theorem sivia_good {n : Nat} (hn : 0 < n) {P Q : List K → Prop} {s : Box K → Box K → Box K × Box K} (hs : Keeps n P Q s)
    {bis : Box K → Box K × Box K} (hb : IsBis bis) {eps : K} {fuel : Nat} {t t' : PNode K} (h : Good n P Q t)
    (he : sivia s bis eps fuel t = some t') : Good n P Q t' := by
  induction fuel generalizing t t' with
  | zero => simp [sivia] at he
  | succ fuel ih =>
    have hd := h.dims
    have hl1 := (hs.le_in _ _ hd.1 hd.2).length.trans hd.1
    have hl2 := (hs.le_out _ _ hd.1 hd.2).length.trans hd.2
    have hL := h.loc.sep hs hd
    cases t with
    | leaf i o =>
      simp only [PNode.inn, PNode.out] at hl1 hl2 hL
      rw [sivia_leaf] at he
      by_cases hc : (!((s i o).1.inter (s i o).2).isEmpty && maxDiamGt eps ((s i o).1.inter (s i o).2)) = true
      · rw [if_pos hc] at he
        have hX : ((s i o).2.inter (s i o).1).length = n := by rw [Box.length_inter (hl2.trans hl1.symm)]; exact hl2
        have hne := ne_nil_of_pos hn hX
        simp only [Option.bind_eq_some_iff, Option.map_eq_some_iff] at he
        obtain ⟨l, el, r, er, rfl⟩ := he
        have e1 := (hb.le₁ _ hne).length.trans hX
        have e2 := (hb.le₂ _ hne).length.trans hX
        exact ⟨⟨⟨hl1, hl2⟩, hL⟩, ih (t := .leaf _ _) ⟨⟨e1, e1⟩, loc_same _ _ _⟩ el, ih (t := .leaf _ _) ⟨⟨e2, e2⟩, loc_same _ _ _⟩ er⟩
      · rw [if_neg hc] at he
        cases he
        exact h.withBoxes ⟨hl1, hl2⟩ hL
    | node i o l r =>
      simp only [PNode.inn, PNode.out] at hl1 hl2 hL
      rw [sivia_node] at he
      by_cases hc : (!((s i o).1.inter (s i o).2).isEmpty && maxDiamGt eps ((s i o).1.inter (s i o).2)) = true
      · rw [if_pos hc] at he
        simp only [Option.bind_eq_some_iff, Option.map_eq_some_iff] at he
        obtain ⟨l', el, r', er, rfl⟩ := he
        exact ⟨⟨⟨hl1, hl2⟩, hL⟩, ih h.2.1 el, ih h.2.2 er⟩
      · rw [if_neg hc] at he
        cases he
        exact h.withBoxes ⟨hl1, hl2⟩ hL

theorem base_sep {n : Nat} {P Q : List K → Prop} {s : Box K → Box K → Box K × Box K} (hs : Keeps n P Q s) {B : Box K} (hB : B.length = n) :
    Base n P Q B (s B B).1 (s B B).2 :=
  ⟨hB, hs.le_in B B hB hB, hs.le_out B B hB hB, fun p hp => ⟨hs.keeps_out B B p hB hB hp hp, hs.keeps_in B B p hB hB hp hp⟩⟩

/-- the first call of `Sivia` gives a tree over the box, whose leaves are decided or small -/
theorem build_strong {n : Nat} (hn : 0 < n) {P Q : List K → Prop} {s : Box K → Box K → Box K × Box K} (hs : Keeps n P Q s)
    {bis : Box K → Box K × Box K} (hb : IsBis bis) {eps : K} {fuel : Nat} {B : Box K} (hB : B.length = n) {t : PNode K}
    (he : build s bis eps fuel B = some t) :
    Strong n P Q B t ∧ ∀ b ∈ leaves t, (b.1.inter b.2).isEmpty = true ∨ maxDiamGt eps (b.1.inter b.2) = false := by
  unfold build at he
  induction fuel generalizing B t with
  | zero => simp [sivia] at he
  | succ fuel ih =>
    have hbase := base_sep hs hB
    have hlen := hbase.lens
    rw [sivia_leaf] at he
    by_cases hc : (!((s B B).1.inter (s B B).2).isEmpty && maxDiamGt eps ((s B B).1.inter (s B B).2)) = true
    · rw [if_pos hc] at he
      have hX : ((s B B).2.inter (s B B).1).length = n := by rw [Box.length_inter (hlen.2.trans hlen.1.symm)]; exact hlen.2
      have hne := ne_nil_of_pos hn hX
      simp only [Option.bind_eq_some_iff, Option.map_eq_some_iff] at he
      obtain ⟨l, el, r, er, rfl⟩ := he
      have hXB : BoxLe ((s B B).2.inter (s B B).1) B := (inter_le_left (hlen.2.trans hlen.1.symm)).trans hbase.le_out
      obtain ⟨h1, h2⟩ := ih ((hb.le₁ _ hne).length.trans hX) el
      obtain ⟨h3, h4⟩ := ih ((hb.le₂ _ hne).length.trans hX) er
      refine ⟨⟨hbase, _, _, (hb.le₁ _ hne).trans hXB, (hb.le₂ _ hne).trans hXB, fun p hi ho => ?_, h1, h3⟩, ?_⟩
      · exact hb.cover _ p hne ((inBox_inter (hlen.2.trans hlen.1.symm)).2 ⟨ho, hi⟩)
      · intro b hb
        simp only [leaves, List.mem_append] at hb
        exact hb.elim (h2 b) (h4 b)
    · rw [if_neg hc] at he
      cases he
      refine ⟨hbase, fun b hb => ?_⟩
      simp only [leaves, List.mem_cons, List.not_mem_nil, or_false] at hb
      subst hb
      simp only [Bool.and_eq_true, Bool.not_eq_true', not_and, Bool.not_eq_true] at hc
      by_cases h0 : ((s B B).1.inter (s B B).2).isEmpty = true
      · exact .inl h0
      · exact .inr (hc (by simpa using h0))

/-! ### Reunite -/

theorem Reg.inter {n : Nat} {P Q : List K → Prop} {i o X : Box K} (hi : i.length = n) (ho : o.length = n) (hX : X.length = n)
    (h : Reg P Q i o) : Reg P Q (i.inter X) (o.inter X) := by
  intro p hp
  have e1 := inter_le_left (hi.trans hX.symm)
  have e2 := inter_le_left (ho.trans hX.symm)
  have hpX : InBox p X := hp.of_le (hull_le (inter_le_right (hi.trans hX.symm)) (inter_le_right (ho.trans hX.symm)))
  have h1 := h p (inBox_hull_mono (hi.trans ho.symm) e1 e2 hp)
  exact ⟨fun hP => (inBox_inter (ho.trans hX.symm)).2 ⟨h1.1 hP, hpX⟩, fun hQ => (inBox_inter (hi.trans hX.symm)).2 ⟨h1.2 hQ, hpX⟩⟩

theorem Sound.dims {n : Nat} {P Q : List K → Prop} {t : PNode K} (h : Sound n P Q t) : t.inn.length = n ∧ t.out.length = n := h.good.dims

theorem Sound.reg {n : Nat} {P Q : List K → Prop} {t : PNode K} (h : Sound n P Q t) : Reg P Q t.inn t.out := by
  cases t with
  | leaf i o => exact h.2
  | node i o l r => exact h.1.2

theorem Sound.withBoxes {n : Nat} {P Q : List K → Prop} {t : PNode K} (h : Sound n P Q t) {i o : Box K} (hl : i.length = n ∧ o.length = n)
    (hL : Reg P Q i o) : Sound n P Q (t.withBoxes i o) := by
  cases t with
  | leaf _ _ => exact ⟨hl, hL⟩
  | node _ _ l r => exact ⟨⟨hl, hL⟩, h.2.1, h.2.2⟩

theorem cov_interBoxes {n : Nat} {P Q : List K → Prop} {t : PNode K} (hd : t.inn.length = n ∧ t.out.length = n) {X Y : Box K}
    (hX : X.length = n) (hY : Y.length = n) (h : Cov P Q t) : Cov P Q (t.interBoxes X Y) := by
  cases t with
  | leaf _ _ => trivial
  | node i o l r =>
    refine ⟨fun p hP hQ hi ho => h.1 p hP hQ ?_ ?_, h.2.1, h.2.2⟩
    · exact hi.of_le (inter_le_left (hd.1.trans hX.symm))
    · exact ho.of_le (inter_le_left (hd.2.trans hY.symm))

theorem both_interBoxes {n : Nat} {t : PNode K} (hd : t.inn.length = n ∧ t.out.length = n) {X Y : Box K} (hX : X.length = n)
    (hY : Y.length = n) {p : List K} (h : Both p t) (hpX : InBox p X) (hpY : InBox p Y) : Both p (t.interBoxes X Y) := by
  unfold Both PNode.interBoxes
  rw [withBoxes_inn, withBoxes_out]
  exact ⟨(inBox_inter (hd.1.trans hX.symm)).2 ⟨h.1, hpX⟩, (inBox_inter (hd.2.trans hY.symm)).2 ⟨h.2, hpY⟩⟩

theorem not_both_of_isEmpty {n : Nat} {t : PNode K} (hd : t.inn.length = n ∧ t.out.length = n) (he : t.isEmpty = true) (p : List K) :
    ¬ Both p t := by
  intro h
  exact not_inBox_of_isEmpty he ((inBox_inter (hd.1.trans hd.2.symm)).2 ⟨h.1, h.2⟩)

/-- a node with the children of another one -/
theorem mkNode_children {n : Nat} {P Q : List K → Prop} {i o : Box K} (hl : i.length = n ∧ o.length = n) (hr : Reg P Q i o)
    {t : PNode K} (ht : Sound n P Q t) (hc : Cov P Q t) (hb : ∀ p, P p → Q p → InBox p i → InBox p o → Both p t) :
    Sound n P Q (mkNode i o (children t)) ∧ Cov P Q (mkNode i o (children t)) ∧ (mkNode i o (children t)).inn = i ∧
      (mkNode i o (children t)).out = o := by
  cases t with
  | leaf a b => exact ⟨⟨hl, hr⟩, trivial, rfl, rfl⟩
  | node a b l r =>
    refine ⟨⟨⟨hl, hr⟩, ht.2.1, ht.2.2⟩, ⟨fun p hP hQ hi ho => ?_, hc.2.1, hc.2.2⟩, rfl, rfl⟩
    have := hb p hP hQ hi ho
    exact hc.1 p hP hQ this.1 this.2

theorem reunite_ok {n : Nat} {P Q : List K → Prop} {diff : Box K → Box K → List (Box K)} (hdiff : DiffOk n diff)
    {B : Box K} {t : PNode K} (h : Strong n P Q B t) :
    Sound n P Q (reunite diff t) ∧ Cov P Q (reunite diff t) ∧ Base n P Q B (reunite diff t).inn (reunite diff t).out := by
  induction t generalizing B with
  | leaf i o => exact ⟨Strong.sound (t := .leaf i o) h, trivial, h⟩
  | node i o l r ihl ihr =>
    obtain ⟨hb, B1, B2, hB1, hB2, hc, hl, hr⟩ := h
    obtain ⟨sl, cl, bl⟩ := ihl hl
    obtain ⟨sr, cr, br⟩ := ihr hr
    have hio := hb.lens
    have hlen : i.length = o.length := hio.1.trans hio.2.symm
    have dl := sl.dims
    have dr := sr.dims
    have hX0 : (i.hull o).length = n := by rw [Box.length_hull hlen]; exact hio.1
    have hX0B : BoxLe (i.hull o) B := hull_le hb.le_in hb.le_out
    have hcin : ∀ D ∈ diff (i.hull o) i, BoxLe D B := fun D hD => (hdiff.le _ _ hX0 (le_hull_or hlen) D hD).trans hX0B
    have hcout : ∀ D ∈ diff (i.hull o) o, BoxLe D B := fun D hD => (hdiff.le _ _ hX0 (le_hull_or' hlen) D hD).trans hX0B
    have hli : ((reunite diff l).inn.hull (reunite diff r).inn).length = n := by
      rw [Box.length_hull (dl.1.trans dr.1.symm)]; exact dl.1
    have hlo : ((reunite diff l).out.hull (reunite diff r).out).length = n := by
      rw [Box.length_hull (dl.2.trans dr.2.symm)]; exact dl.2
    obtain ⟨a1, a2, a3⟩ := foldl_hull (diff (i.hull o) o) hli (hull_le (bl.le_in.trans hB1) (br.le_in.trans hB2)) hcout
    obtain ⟨b1, b2, b3⟩ := foldl_hull (diff (i.hull o) i) hlo (hull_le (bl.le_out.trans hB1) (br.le_out.trans hB2)) hcin
    have hbase : Base n P Q B ((diff (i.hull o) o).foldl (fun a b : Box K => a.hull b) ((reunite diff l).inn.hull (reunite diff r).inn))
        ((diff (i.hull o) i).foldl (fun a b : Box K => a.hull b) ((reunite diff l).out.hull (reunite diff r).out)) := by
      refine ⟨hb.len, a1, b1, fun p hp => ⟨fun hP => ?_, fun hQ => ?_⟩⟩
      · have ho := (hb.keep p hp).1 hP
        by_cases hi : InBox p i
        · refine b2 p ?_
          rcases hc p hi ho with h1 | h1
          · exact InBox.hull_left (dl.2.trans dr.2.symm) ((bl.keep p h1).1 hP)
          · exact InBox.hull_right (dl.2.trans dr.2.symm) ((br.keep p h1).1 hP)
        · obtain ⟨D, hD, hpD⟩ := hdiff.cover _ _ hX0 (le_hull_or hlen) p (InBox.hull_right hlen ho) hi
          exact b3 D hD p hpD
      · have hi := (hb.keep p hp).2 hQ
        by_cases ho : InBox p o
        · refine a2 p ?_
          rcases hc p hi ho with h1 | h1
          · exact InBox.hull_left (dl.1.trans dr.1.symm) ((bl.keep p h1).2 hQ)
          · exact InBox.hull_right (dl.1.trans dr.1.symm) ((br.keep p h1).2 hQ)
        · obtain ⟨D, hD, hpD⟩ := hdiff.cover _ _ hX0 (le_hull_or' hlen) p (InBox.hull_left hlen hi) ho
          exact a3 D hD p hpD
    have hboth : ∀ p, P p → Q p → InBox p B → Both p (reunite diff l) ∨ Both p (reunite diff r) := by
      intro p hP hQ hp
      rcases hc p ((hb.keep p hp).2 hQ) ((hb.keep p hp).1 hP) with h1 | h1
      · exact .inl (bl.both h1 hP hQ)
      · exact .inr (br.both h1 hP hQ)
    have hi' := hbase.lens
    have hreg := hbase.reg
    simp only [reunite]
    generalize hgi : (diff (i.hull o) o).foldl (fun a b : Box K => a.hull b) ((reunite diff l).inn.hull (reunite diff r).inn) = i' at *
    generalize hgo : (diff (i.hull o) i).foldl (fun a b : Box K => a.hull b) ((reunite diff l).out.hull (reunite diff r).out) = o' at *
    by_cases el : (reunite diff l).isEmpty = true
    · rw [if_pos el]
      by_cases er : (reunite diff r).isEmpty = true
      · rw [if_pos er]; exact ⟨⟨hi', hreg⟩, trivial, hbase⟩
      · rw [if_neg er]
        obtain ⟨c1, c2, c3, c4⟩ := mkNode_children hi' hreg sr cr fun p hP hQ hi _ =>
          (hboth p hP hQ (hi.of_le hbase.le_in)).resolve_left (not_both_of_isEmpty dl el p)
        rw [c3, c4]; exact ⟨c1, c2, hbase⟩
    · rw [if_neg el]
      by_cases er : (reunite diff r).isEmpty = true
      · rw [if_pos er]
        obtain ⟨c1, c2, c3, c4⟩ := mkNode_children hi' hreg sl cl fun p hP hQ hi _ =>
          (hboth p hP hQ (hi.of_le hbase.le_in)).resolve_right (not_both_of_isEmpty dr er p)
        rw [c3, c4]; exact ⟨c1, c2, hbase⟩
      · rw [if_neg er]
        have hX : (i'.inter o').length = n := by rw [Box.length_inter (hi'.1.trans hi'.2.symm)]; exact hi'.1
        refine ⟨⟨⟨hi', hreg⟩, ?_, ?_⟩, ⟨fun p hP hQ hi ho => ?_, cov_interBoxes dl hX hX cl, cov_interBoxes dr hX hX cr⟩, hbase⟩
        · refine sl.withBoxes ⟨?_, ?_⟩ (sl.reg.inter dl.1 dl.2 hX)
          · rw [Box.length_inter (dl.1.trans hX.symm)]; exact dl.1
          · rw [Box.length_inter (dl.2.trans hX.symm)]; exact dl.2
        · refine sr.withBoxes ⟨?_, ?_⟩ (sr.reg.inter dr.1 dr.2 hX)
          · rw [Box.length_inter (dr.1.trans hX.symm)]; exact dr.1
          · rw [Box.length_inter (dr.2.trans hX.symm)]; exact dr.2
        · have hpX : InBox p (i'.inter o') := (inBox_inter (hi'.1.trans hi'.2.symm)).2 ⟨hi, ho⟩
          exact (hboth p hP hQ (hi.of_le hbase.le_in)).imp (both_interBoxes dl hX hX · hpX hpX) (both_interBoxes dr hX hX · hpX hpX)

/-! ### The separator -/

theorem hull_self (X : Box K) : X.hull X = X := by
  unfold Box.hull
  by_cases h : X.isEmpty = true
  · rw [if_pos h]
  · rw [if_neg h, if_neg h]
    clear h
    induction X with
    | nil => rfl
    | cons I X ih => simp

/-- no component is empty or a single point -/
def Solid (X : Box K) : Prop := X.any Itv.isDegenerated = false

theorem Solid.tail {I : Itv K} {X : Box K} (h : Solid (I :: X)) : I.isDegenerated = false ∧ Solid X := by
  unfold Solid at *
  simpa [List.any_cons] using h

theorem not_isEmpty_of_solid {I : Itv K} (h : I.isDegenerated = false) : I.isEmpty = false := by
  cases I with
  | empty => simp [Itv.isDegenerated] at h
  | mk lo hi p => rfl

theorem inter_self_of_solid {X : Box K} (h : Solid X) : X.inter X = X := by
  have h1 : X.isEmpty = false := by
    cases X with
    | nil => rfl
    | cons I X => exact not_isEmpty_of_solid h.tail.1
  have h2 : List.zipWith (· ⊓ ·) X X = X := by
    clear h h1
    induction X with
    | nil => rfl
    | cons I X ih => simp
  have h3 : X.any Itv.isEmpty = false := by
    clear h1 h2
    induction X with
    | nil => rfl
    | cons I X ih => simp [not_isEmpty_of_solid h.tail.1, ih h.tail.2]
  unfold Box.inter
  rw [h1, h2, h3]
  simp

theorem mem_of_isSubset {v : List K} {X Y : Box K} (hl : X.length = Y.length) (h : Box.isSubset X Y = true) (hv : InBox v X) :
    InBox v Y := by
  unfold Box.isSubset at h
  rw [hv.not_isEmpty, Bool.false_or, Bool.and_eq_true] at h
  have h := h.2
  clear * - hl h hv
  unfold InBox at *
  induction hv generalizing Y with
  | nil => cases Y with
    | nil => exact .nil
    | cons => simp at hl
  | cons h1 h2 ih =>
    cases Y with
    | nil => simp at hl
    | cons J Y =>
      simp only [List.zipWith_cons_cons, List.all_cons, id, Bool.and_eq_true, decide_eq_true_eq] at h
      exact .cons (Itv.mem_of_le h.1 h1) (ih (by simpa using hl) h.2)

theorem both_meet {n : Nat} {t : PNode K} (hd : t.inn.length = n ∧ t.out.length = n) {X : Box K} (hX : X.length = n) {p : List K}
    (h : Both p t) (hp : InBox p X) : InBox p (t.meet.inter X) := by
  have h1 : t.meet.length = n := by
    unfold PNode.meet; rw [Box.length_inter (hd.1.trans hd.2.symm)]; exact hd.1
  exact (inBox_inter (h1.trans hX.symm)).2 ⟨(inBox_inter (hd.1.trans hd.2.symm)).2 ⟨h.1, h.2⟩, hp⟩

theorem size_pos (t : PNode K) : 0 < t.size := by cases t <;> simp only [PNode.size] <;> omega

/-- the loop ends -/
theorem borderLoop_some (X : Box K) {fuel : Nat} {L : List (PNode K)} {xb : Box K} (h : (L.map PNode.size).sum ≤ fuel) :
    ∃ R, borderLoop X fuel L xb = some R := by
  induction fuel generalizing L xb with
  | zero =>
    cases L with
    | nil => exact ⟨xb, rfl⟩
    | cons t L =>
      have := size_pos t
      simp only [List.map_cons, List.sum_cons] at h
      omega
  | succ fuel ih =>
    cases L with
    | nil => exact ⟨xb, rfl⟩
    | cons t L =>
      cases t with
      | leaf i o =>
        simp only [List.map_cons, List.sum_cons, PNode.size] at h
        exact ih (by omega)
      | node i o l r =>
        simp only [List.map_cons, List.sum_cons, PNode.size] at h
        rw [borderLoop]
        refine ih ?_
        split <;> split <;> (try simp only [List.map_append, List.map_cons, List.map_nil, List.sum_append, List.sum_cons, List.sum_nil]) <;> omega

theorem borderLoop_ok {n : Nat} {P Q : List K → Prop} {X : Box K} (hX : X.length = n) {fuel : Nat} {L : List (PNode K)} {xb R : Box K}
    (hL : ∀ t ∈ L, Sound n P Q t ∧ Cov P Q t) (hxb : BoxLe xb X) (h : borderLoop X fuel L xb = some R) :
    BoxLe R X ∧ ∀ p, InBox p X → P p → Q p → (InBox p xb ∨ ∃ t ∈ L, Both p t) → InBox p R := by
  induction fuel generalizing L xb with
  | zero =>
    cases L with
    | nil => cases h; exact ⟨hxb, fun p _ _ _ hp => hp.elim id (by simp)⟩
    | cons t L => cases h
  | succ fuel ih =>
    cases L with
    | nil => cases h; exact ⟨hxb, fun p _ _ _ hp => hp.elim id (by simp)⟩
    | cons t L =>
      obtain ⟨hs, hc⟩ := hL t (by simp)
      have hL' : ∀ t ∈ L, Sound n P Q t ∧ Cov P Q t := fun t ht => hL t (List.mem_cons_of_mem _ ht)
      have hxl := hxb.length
      cases t with
      | leaf i o =>
        have hio : i.length = o.length := hs.1.1.trans hs.1.2.symm
        have h1 : X.length = (i.inter o).length := by rw [Box.length_inter hio, hX]; exact hs.1.1.symm
        have h2 : xb.length = (X.inter (i.inter o)).length := by rw [Box.length_inter h1, hxl]
        rw [borderLoop] at h
        obtain ⟨e1, e2⟩ := ih hL' (hull_le hxb (inter_le_left h1)) h
        refine ⟨e1, fun p hp hP hQ hor => e2 p hp hP hQ ?_⟩
        rcases hor with h3 | ⟨t, ht, hb⟩
        · exact .inl (InBox.hull_left h2 h3)
        · rcases List.mem_cons.1 ht with rfl | ht
          · exact .inl (InBox.hull_right h2 ((inBox_inter h1).2 ⟨hp, (inBox_inter hio).2 ⟨hb.1, hb.2⟩⟩))
          · exact .inr ⟨t, ht, hb⟩
      | node i o l r =>
        rw [borderLoop] at h
        have dl := hs.2.1.dims
        have dr := hs.2.2.dims
        have key : ∀ c : PNode K, c.inn.length = n ∧ c.out.length = n → ∀ p, InBox p X → Both p c →
            (!(c.meet.inter X).isEmpty && !(c.meet.inter X).isSubset xb) = true ∨ InBox p xb := by
          intro c dc p hp hb
          have h1 := both_meet dc hX hb hp
          have h2 : (c.meet.inter X).length = xb.length := by rw [← h1.length, hp.length, hxl]
          by_cases h3 : (c.meet.inter X).isSubset xb = true
          · exact .inr (mem_of_isSubset h2 h3 h1)
          · left; simp [h1.not_isEmpty, h3]
        generalize hL1 : (if (!(l.meet.inter X).isEmpty && !(l.meet.inter X).isSubset xb) = true then L ++ [l] else L) = L1 at h
        generalize hL2 : (if (!(r.meet.inter X).isEmpty && !(r.meet.inter X).isSubset xb) = true then L1 ++ [r] else L1) = L2 at h
        have m1 : ∀ t ∈ L2, t ∈ L ∨ t = l ∨ t = r := by
          intro t ht
          rw [← hL2, ← hL1] at ht
          split at ht <;> split at ht <;> (try simp only [List.mem_append, List.mem_cons, List.not_mem_nil, or_false] at ht) <;> tauto
        have m2 : ∀ t ∈ L, t ∈ L2 := by
          intro t ht
          rw [← hL2, ← hL1]
          split <;> split <;> simp [ht]
        obtain ⟨e1, e2⟩ := ih (L := L2) (fun t ht => by
          rcases m1 t ht with h1 | rfl | rfl
          · exact hL' t h1
          · exact ⟨hs.2.1, hc.2.1⟩
          · exact ⟨hs.2.2, hc.2.2⟩) hxb h
        refine ⟨e1, fun p hp hP hQ hor => e2 p hp hP hQ ?_⟩
        rcases hor with h3 | ⟨t, ht, hb⟩
        · exact .inl h3
        · rcases List.mem_cons.1 ht with rfl | ht
          · rcases hc.1 p hP hQ hb.1 hb.2 with h4 | h4
            · rcases key l dl p hp h4 with h5 | h5
              · refine .inr ⟨l, ?_, h4⟩
                rw [← hL2, ← hL1, if_pos h5]
                split <;> simp
              · exact .inl h5
            · rcases key r dr p hp h4 with h5 | h5
              · refine .inr ⟨r, ?_, h4⟩
                rw [← hL2, if_pos h5]
                simp
              · exact .inl h5
          · exact .inr ⟨t, m2 t ht, hb⟩

/-- the point `p + c (q - p)` of a segment -/
def seg (c : K) (p q : List K) : List K := List.zipWith (fun a b => a + c * (b - a)) p q

theorem seg_flip (c : K) (p q : List K) : seg c p q = seg (1 - c) q p := by
  unfold seg
  rw [List.zipWith_comm]
  congr 1
  funext a b
  ring

theorem seg_one {p q : List K} (h : p.length = q.length) : seg 1 p q = q := by
  unfold seg
  induction p generalizing q with
  | nil => cases q with
    | nil => rfl
    | cons => simp at h
  | cons a p ih =>
    cases q with
    | nil => simp at h
    | cons b q =>
      rw [List.zipWith_cons_cons, ih (by simpa using h)]
      congr 1
      ring

theorem seg_interior {c : K} (h0 : 0 ≤ c) (h1 : c < 1) {m v : List K} {D : Box K} (hm : InInterior m D) (hv : InBox v D) :
    InInterior (seg c m v) D := by
  unfold InInterior InBox seg at *
  induction hm generalizing v with
  | nil => cases hv; exact .nil
  | @cons a I m D h2 h3 ih =>
    cases hv with
    | @cons b _ v _ h4 h5 =>
      rw [List.zipWith_cons_cons]
      refine .cons ?_ (ih h5)
      cases I with
      | empty => exact h2.elim
      | mk lo hi q =>
        refine ⟨fun l hl => ?_, fun u hu => ?_⟩
        · have e1 := h2.1 l hl
          subst hl
          have e2 : l ≤ b := h4.1
          nlinarith
        · have e1 := h2.2 u hu
          subst hu
          have e2 : b ≤ u := h4.2
          nlinarith

/-- on each segment from a point of `P` to a point of `Q` there is a point of both -/
def Meets (n : Nat) (P Q : List K → Prop) : Prop :=
  ∀ p q, p.length = n → q.length = n → P p → Q q → ∃ c, 0 ≤ c ∧ c ≤ 1 ∧ P (seg c p q) ∧ Q (seg c p q)

/-- the middles of the pieces of a difference are inside the pieces, when the boxes are not flat -/
def MidOk (n : Nat) (diff : Box K → Box K → List (Box K)) (mid : Box K → List K) : Prop :=
  ∀ X Y : Box K, X.length = n → Solid X → BoxLe Y X → Y.isEmpty = true ∨ Solid Y → ∀ D ∈ diff X Y, InInterior (mid D) D

theorem classify_fold {mid : Box K → List K} {t : PNode K} {X : Box K} {L : List (Box K)} {r : Box K × Box K} (h1 : BoxLe r.1 X)
    (h2 : BoxLe r.2 X) (hL : ∀ D ∈ L, BoxLe D X) :
    BoxLe (L.foldl (classify mid t) r).1 X ∧ BoxLe (L.foldl (classify mid t) r).2 X ∧
      (∀ p, InBox p r.1 → InBox p (L.foldl (classify mid t) r).1) ∧ (∀ p, InBox p r.2 → InBox p (L.foldl (classify mid t) r).2) ∧
      ∀ D ∈ L, ∀ p, InBox p D → (isInside t (mid D) ≠ .yes → InBox p (L.foldl (classify mid t) r).1) ∧
        (isInside t (mid D) ≠ .no → isInside t (mid D) ≠ .empty → InBox p (L.foldl (classify mid t) r).2) := by
  induction L generalizing r with
  | nil => exact ⟨h1, h2, fun _ h => h, fun _ h => h, by simp⟩
  | cons D L ih =>
    have hD := hL D (by simp)
    have l1 : r.1.length = D.length := h1.length.trans hD.length.symm
    have l2 : r.2.length = D.length := h2.length.trans hD.length.symm
    have c1 : BoxLe (classify mid t r D).1 X ∧ BoxLe (classify mid t r D).2 X := by
      unfold classify
      split <;> simp only [h1, h2, hull_le h1 hD, hull_le h2 hD, and_self]
    have c2 : (∀ p, InBox p r.1 → InBox p (classify mid t r D).1) ∧ (∀ p, InBox p r.2 → InBox p (classify mid t r D).2) := by
      unfold classify
      split <;> refine ⟨fun p hp => ?_, fun p hp => ?_⟩ <;>
        first | exact hp | exact InBox.hull_left l1 hp | exact InBox.hull_left l2 hp
    have c3 : ∀ p, InBox p D → (isInside t (mid D) ≠ .yes → InBox p (classify mid t r D).1) ∧
        (isInside t (mid D) ≠ .no → isInside t (mid D) ≠ .empty → InBox p (classify mid t r D).2) := by
      intro p hp
      unfold classify
      split <;> rename_i e <;> rw [e] <;> refine ⟨fun h => ?_, fun h h' => ?_⟩ <;>
        first | exact absurd rfl h | exact absurd rfl h' | exact InBox.hull_right l1 hp | exact InBox.hull_right l2 hp
    obtain ⟨a1, a2, a3, a4, a5⟩ := ih c1.1 c1.2 fun E hE => hL E (List.mem_cons_of_mem _ hE)
    refine ⟨a1, a2, fun p hp => a3 p (c2.1 p hp), fun p hp => a4 p (c2.2 p hp), fun E hE p hp => ?_⟩
    rcases List.mem_cons.1 hE with rfl | hE
    · exact ⟨fun h => a3 p ((c3 p hp).1 h), fun h h' => a4 p ((c3 p hp).2 h h')⟩
    · exact a5 E hE p hp

/-- the value of `xborder` -/
def border (t : PNode K) (X : Box K) : Option (Box K) := borderLoop X t.size [t] (Box.empty X.length)

theorem separate_ok {n : Nat} {P Q : List K → Prop} (hPQ : ∀ p, P p ∨ Q p) (hm : Meets n P Q) {diff : Box K → Box K → List (Box K)}
    (hdiff : DiffOk n diff) {mid : Box K → List K} (hmid : MidOk n diff mid) {t : PNode K} (hs : Sound n P Q t) (hc : Cov P Q t)
    {B X : Box K} (hB : Base n P Q B t.inn t.out) (hXB : BoxLe X B) (hX : Solid X)
    (hflat : ∀ xb, border t X = some xb → xb.isEmpty = true ∨ Solid xb) :
    ∃ r, separate diff mid t X X = some r ∧ BoxLe r.1 X ∧ BoxLe r.2 X ∧
      ∀ v, InBox v X → (P v → InBox v r.2) ∧ (Q v → InBox v r.1) := by
  have hXn : X.length = n := hXB.length.trans hB.len
  obtain ⟨xb, hxb⟩ := borderLoop_some (X := X) (fuel := t.size) (L := [t]) (xb := Box.empty X.length) (by simp)
  obtain ⟨b1, b2⟩ := borderLoop_ok (P := P) (Q := Q) hXn (L := [t]) (by simp [hs, hc]) (empty_boxLe rfl) hxb
  have hfl := hflat xb hxb
  refine ⟨(diff X xb).foldl (classify mid t) (X.inter xb, X.inter xb), ?_, ?_⟩
  · simp only [separate, hull_self, inter_self_of_solid hX, hxb, Option.map_some]
  have hl : X.length = xb.length := b1.length.symm
  obtain ⟨a1, a2, a3, a4, a5⟩ := classify_fold (mid := mid) (t := t) (X := X) (L := diff X xb) (r := (X.inter xb, X.inter xb))
    (inter_le_left hl) (inter_le_left hl) fun D hD => hdiff.le X xb hXn (.inl b1) D hD
  refine ⟨a1, a2, fun v hv => ?_⟩
  by_cases hvb : InBox v xb
  · exact ⟨fun _ => a4 v ((inBox_inter hl).2 ⟨hv, hvb⟩), fun _ => a3 v ((inBox_inter hl).2 ⟨hv, hvb⟩)⟩
  obtain ⟨D, hD, hvD⟩ := hdiff.cover X xb hXn (.inl b1) v hv hvb
  have hDX := hdiff.le X xb hXn (.inl b1) D hD
  have hmD := hmid X xb hXn hX b1 hfl D hD
  have hmB : InBox (mid D) B := (hmD.inBox.of_le hDX).of_le hXB
  -- no point of both on the segment from the middle
  have nope : ∀ c, 0 ≤ c → c ≤ 1 → P (seg c (mid D) v) → Q (seg c (mid D) v) → False := by
    intro c h0 h1 hP hQ
    have hlen : (mid D).length = v.length := by rw [hmD.inBox.length, hvD.length]
    have root : ∀ w, InBox w X → P w → Q w → InBox w xb := fun w hw hP hQ =>
      b2 w hw hP hQ (.inr ⟨t, by simp, hB.both (hw.of_le hXB) hP hQ⟩)
    rcases eq_or_lt_of_le h1 with rfl | h1
    · rw [seg_one hlen] at hP hQ
      exact hvb (root v hv hP hQ)
    · have hi := seg_interior h0 h1 hmD hvD
      have hw := root _ (hi.inBox.of_le hDX) hP hQ
      have hd := hdiff.sep X xb hXn (.inl b1) D hD _ hi hw
      rcases hfl with he | he
      · exact not_inBox_of_isEmpty he hw
      · unfold Solid at he; rw [he] at hd; cases hd
  have hlen : (mid D).length = v.length := by rw [hmD.inBox.length, hvD.length]
  have hvn : v.length = n := hv.length.trans hXn
  have hne : isInside t (mid D) ≠ .empty := by
    refine isInside_ne_empty ?_
    rcases hPQ (mid D) with h | h
    · exact .inr ((hB.keep _ hmB).1 h)
    · exact .inl ((hB.keep _ hmB).2 h)
  have hso := isInside_sound hs.good (mid D)
  refine ⟨fun hP => (a5 D hD v hvD).2 (fun hno => ?_) hne, fun hQ => (a5 D hD v hvD).1 fun hyes => ?_⟩
  · have hQm : Q (mid D) := (hPQ (mid D)).resolve_left (hso.2 hno)
    obtain ⟨c, h0, h1, hP', hQ'⟩ := hm v (mid D) hvn (hlen.trans hvn) hP hQm
    rw [seg_flip] at hP' hQ'
    exact nope (1 - c) (by linarith) (by linarith) hP' hQ'
  · have hPm : P (mid D) := (hPQ (mid D)).resolve_right (hso.1 hyes)
    obtain ⟨c, h0, h1, hP', hQ'⟩ := hm (mid D) v (hlen.trans hvn) hvn hPm hQ
    exact nope c h0 h1 hP' hQ'

/-! ### Instances for the middle -/

/-- `Interval::mid` (IBEX), with a point at distance 1 of the bound for half-lines -/
def midItv : Itv K → K
  | .mk (some a) (some b) _ => (a + b) / 2
  | .mk (some a) none _ => a + 1
  | .mk none (some b) _ => b - 1
  | _ => 0

/-- `IntervalVector::mid` (IBEX) -/
def midBox (X : Box K) : List K := X.map midItv

theorem midBox_interior {X : Box K} (h : Solid X) : InInterior (midBox X) X := by
  unfold InInterior midBox
  induction X with
  | nil => exact .nil
  | cons I X ih =>
    refine .cons ?_ (ih h.tail.2)
    have hI := h.tail.1
    match I, hI with
    | .empty, hI => simp [Itv.isDegenerated] at hI
    | .mk none none _, _ => exact ⟨fun l hl => (by cases hl), fun l hl => by cases hl⟩
    | .mk (some a) none _, _ => exact ⟨fun l hl => by cases hl; simp [midItv], fun l hl => by cases hl⟩
    | .mk none (some b) _, _ => exact ⟨fun l hl => (by cases hl), fun l hl => by cases hl; simp [midItv]⟩
    | .mk (some a) (some b) q, hI =>
      have hab : a < b := lt_of_le_of_ne q (by simpa [Itv.isDegenerated] using hI)
      exact ⟨fun l hl => by cases hl; simp only [midItv]; linarith, fun l hl => by cases hl; simp only [midItv]; linarith⟩

theorem diffPieces_solid {X Y : Box K} (hX : Solid X) (hY : Solid Y) {D : Box K} (hD : D ∈ diffPieces X Y) : Solid D := by
  induction X generalizing Y D with
  | nil => simp [diffPieces] at hD
  | cons I X ih =>
    cases Y with
    | nil => simp [diffPieces] at hD
    | cons J Y =>
      simp only [diffPieces, List.mem_append, List.mem_map] at hD
      rcases hD with ⟨E, hE, rfl⟩ | ⟨E, hE, rfl⟩
      · have : E.isDegenerated = false := by
          unfold Itv.diffItv at hE
          rw [hY.tail.1] at hE
          simp only [Bool.false_eq_true, if_false, List.mem_filter] at hE
          simpa using hE.2
        have h2 := hX.tail.2
        unfold Solid at h2 ⊢
        simp [this, h2]
      · have h2 := ih hX.tail.2 hY.tail.2 hE
        have h3 := hY.tail.1
        unfold Solid at h2 ⊢
        simp [h3, h2]

theorem boxDiff_mid (n : Nat) : MidOk n (boxDiff (K := K)) midBox := by
  intro X Y _ hX _ hY D hD
  refine midBox_interior ?_
  unfold boxDiff at hD
  by_cases he : Y.isEmpty = true
  · rw [if_pos he] at hD
    simp only [List.mem_cons, List.not_mem_nil, or_false] at hD
    subst hD; exact hX
  · rw [if_neg he] at hD
    exact diffPieces_solid hX (hY.resolve_left he) hD

/-! ### Union and intersection -/

/-- inside a box, or empty -/
def LeOr (a Z : Box K) : Prop := BoxLe a Z ∨ a.isEmpty = true

theorem LeOr.mem {a Z : Box K} (h : LeOr a Z) {p : List K} (hp : InBox p a) : InBox p Z :=
  h.elim hp.of_le fun h => absurd hp (not_inBox_of_isEmpty h)

theorem LeOr.hull {a b Z : Box K} (ha : LeOr a Z) (hb : LeOr b Z) : LeOr (a.hull b) Z := by
  unfold Box.hull
  by_cases h1 : b.isEmpty = true
  · rw [if_pos h1]; exact ha
  · rw [if_neg h1]
    by_cases h2 : a.isEmpty = true
    · rw [if_pos h2]; exact hb
    · rw [if_neg h2]; exact .inl (zipSup_le (ha.resolve_right h2) (hb.resolve_right h1))

theorem LeOr.of_le {a b Z : Box K} (h : BoxLe a b) (hb : LeOr b Z) : LeOr a Z := hb.imp h.trans (boxLe_isEmpty h)

theorem Reg.inter₂ {n : Nat} {P Q : List K → Prop} {i o X Y : Box K} (hi : i.length = n) (ho : o.length = n) (hX : X.length = n)
    (hY : Y.length = n) (h : Reg P Q i o) (h' : Reg P Q X Y) : Reg P Q (i.inter X) (o.inter Y) := by
  intro p hp
  have h1 := h p (inBox_hull_mono (hi.trans ho.symm) (inter_le_left (hi.trans hX.symm)) (inter_le_left (ho.trans hY.symm)) hp)
  have h2 := h' p (inBox_hull_mono (hX.trans hY.symm) (inter_le_right (hi.trans hX.symm)) (inter_le_right (ho.trans hY.symm)) hp)
  exact ⟨fun hP => (inBox_inter (ho.trans hY.symm)).2 ⟨h1.1 hP, h2.1 hP⟩,
    fun hQ => (inBox_inter (hi.trans hX.symm)).2 ⟨h1.2 hQ, h2.2 hQ⟩⟩

theorem Sound.interBoxes {n : Nat} {P Q : List K → Prop} {t : PNode K} (h : Sound n P Q t) {X Y : Box K} (hX : X.length = n)
    (hY : Y.length = n) (hR : Reg P Q X Y) : Sound n P Q (t.interBoxes X Y) := by
  have d := h.dims
  refine h.withBoxes ⟨?_, ?_⟩ (h.reg.inter₂ d.1 d.2 hX hY hR)
  · rw [Box.length_inter (d.1.trans hX.symm)]; exact d.1
  · rw [Box.length_inter (d.2.trans hY.symm)]; exact d.2

theorem reg_same (P Q : List K → Prop) (b : Box K) : Reg P Q b b := by
  intro p hp
  rw [hull_self] at hp
  exact ⟨fun _ => hp, fun _ => hp⟩

theorem dropFlat_le (X : Box K) : BoxLe (dropFlat X) X := by
  unfold dropFlat
  split
  · exact setEmpty_le X
  · exact BoxLe.refl X

theorem dropFlat_mem {X : Box K} (h : (X.isEmpty || !isFlat X) = true) {p : List K} (hp : InBox p X) : InBox p (dropFlat X) := by
  unfold dropFlat
  by_cases hf : isFlat X = true
  · rw [hf] at h
    simp only [Bool.not_true, Bool.or_false] at h
    exact absurd hp (not_inBox_of_isEmpty h)
  · rw [if_neg hf]; exact hp

/-- the new boxes of a node -/
def opsIn (inter : Bool) (i s1 : Box K) : Box K := if inter then i.hull s1 else i.inter s1
def opsOut (inter : Bool) (o s2 : Box K) : Box K := if inter then o.inter s2 else o.hull s2

/-- what must stay in `m_box_out` after the operation, and in `m_box_in` -/
def opsP (inter : Bool) (PA PS : List K → Prop) (p : List K) : Prop := if inter then PA p ∧ PS p else PA p ∨ PS p
def opsQ (inter : Bool) (QA QS : List K → Prop) (p : List K) : Prop := if inter then QA p ∨ QS p else QA p ∧ QS p

/-- the children used by `ops` -/
def opsKids (bis : Box K → Box K × Box K) (X : Box K) : PNode K → PNode K × PNode K
  | .leaf _ _ => (.leaf (bis X).1 (bis X).1, .leaf (bis X).2 (bis X).2)
  | .node _ _ l r => (l, r)

/-- the second child -/
def opsRight (r : PNode K) : PNode K := r.withBoxes (dropFlat r.inn) (dropFlat r.out)

/-- the ghost flag -/
def opsFlag (r : PNode K) : Bool := (r.inn.isEmpty || !isFlat r.inn) && (r.out.isEmpty || !isFlat r.out)

/-- a leaf -/
def isLeaf : PNode K → Bool
  | .leaf _ _ => true
  | .node _ _ _ _ => false

theorem ops_eq (s : Box K → Box K → Box K × Box K) (bis : Box K → Box K × Box K) (eps : K) (inter : Bool) (fuel : Nat) (t : PNode K)
    (i o X : Box K) (hi : i = opsIn inter t.inn (s (t.inn.hull t.out) (t.inn.hull t.out)).1)
    (ho : o = opsOut inter t.out (s (t.inn.hull t.out) (t.inn.hull t.out)).2) (hX : X = i.inter o) :
    ops s bis eps inter (fuel + 1) t =
      if (!X.isEmpty && maxDiamGt eps X) = true then
        (ops s bis eps inter fuel ((opsKids bis (o.inter i) t).1.interBoxes t.inn t.out)).bind fun l' =>
          (ops s bis eps inter fuel (opsRight ((opsKids bis (o.inter i) t).2.interBoxes t.inn t.out))).map fun r' =>
            (.node i o l'.1 r'.1, opsFlag ((opsKids bis (o.inter i) t).2.interBoxes t.inn t.out) && l'.2 && r'.2)
      else if (X.isEmpty || Box.maxDiamLt eps X) = true then some (.leaf i o, true)
      else some (t.withBoxes i o, isLeaf t) := by
  subst hi; subst ho; subst hX
  cases t <;> rfl

theorem opsRight_sound {n : Nat} {P Q : List K → Prop} {r : PNode K} (h : Sound n P Q r) (hf : opsFlag r = true) : Sound n P Q (opsRight r) := by
  unfold opsFlag at hf
  rw [Bool.and_eq_true] at hf
  have d := h.dims
  refine h.withBoxes ⟨(dropFlat_le _).length.trans d.1, (dropFlat_le _).length.trans d.2⟩ fun p hp => ?_
  have h1 := h.reg p (inBox_hull_mono (d.1.trans d.2.symm) (dropFlat_le _) (dropFlat_le _) hp)
  exact ⟨fun hP => dropFlat_mem hf.2 (h1.1 hP), fun hQ => dropFlat_mem hf.1 (h1.2 hQ)⟩

/-- the boxes of a node after the operation -/
theorem ops_node {n : Nat} {PA QA PS QS : List K → Prop} {s : Box K → Box K → Box K × Box K} (hs : Keeps n PS QS s) {i o : Box K}
    (hi : i.length = n) (ho : o.length = n) (h : Reg PA QA i o) (inter : Bool) :
    ((opsIn inter i (s (i.hull o) (i.hull o)).1).length = n ∧ (opsOut inter o (s (i.hull o) (i.hull o)).2).length = n) ∧
      LeOr (opsIn inter i (s (i.hull o) (i.hull o)).1) (i.hull o) ∧ LeOr (opsOut inter o (s (i.hull o) (i.hull o)).2) (i.hull o) ∧
      ∀ p, InBox p (i.hull o) → (opsP inter PA PS p → InBox p (opsOut inter o (s (i.hull o) (i.hull o)).2)) ∧
        (opsQ inter QA QS p → InBox p (opsIn inter i (s (i.hull o) (i.hull o)).1)) := by
  have hl : i.length = o.length := hi.trans ho.symm
  have hX : (i.hull o).length = n := by rw [Box.length_hull hl]; exact hi
  have e1 := hs.le_in _ _ hX hX
  have e2 := hs.le_out _ _ hX hX
  have l1 := e1.length.trans hX
  have l2 := e2.length.trans hX
  have li : i.length = (s (i.hull o) (i.hull o)).1.length := hi.trans l1.symm
  have lo : o.length = (s (i.hull o) (i.hull o)).2.length := ho.trans l2.symm
  have ii : LeOr i (i.hull o) := le_hull_or hl
  have io : LeOr o (i.hull o) := le_hull_or' hl
  have k1 := fun p hp => hs.keeps_in _ _ p hX hX hp hp
  have k2 := fun p hp => hs.keeps_out _ _ p hX hX hp hp
  cases inter
  · simp only [opsIn, opsOut, opsP, opsQ, Bool.false_eq_true, if_false]
    refine ⟨⟨?_, ?_⟩, ii.of_le (inter_le_left li), io.hull (.inl e2), fun p hp => ⟨?_, fun hQ => ?_⟩⟩
    · rw [Box.length_inter li]; exact hi
    · rw [Box.length_hull lo]; exact ho
    · rintro (hP | hP)
      · exact InBox.hull_left lo ((h p hp).1 hP)
      · exact InBox.hull_right lo (k2 p hp hP)
    · exact (inBox_inter li).2 ⟨(h p hp).2 hQ.1, k1 p hp hQ.2⟩
  · simp only [opsIn, opsOut, opsP, opsQ, if_true]
    refine ⟨⟨?_, ?_⟩, ii.hull (.inl e1), io.of_le (inter_le_left lo), fun p hp => ⟨fun hP => ?_, ?_⟩⟩
    · rw [Box.length_hull li]; exact hi
    · rw [Box.length_inter lo]; exact ho
    · exact (inBox_inter lo).2 ⟨(h p hp).1 hP.1, k2 p hp hP.2⟩
    · rintro (hQ | hQ)
      · exact InBox.hull_left li ((h p hp).2 hQ)
      · exact InBox.hull_right li (k1 p hp hQ)

theorem ops_sound {n : Nat} (hn : 0 < n) {PA QA PS QS : List K → Prop} {s : Box K → Box K → Box K × Box K} (hs : Keeps n PS QS s)
    {bis : Box K → Box K × Box K} (hb : IsBis bis) {eps : K} {inter : Bool} {fuel : Nat} {t t' : PNode K} (h : Sound n PA QA t)
    (he : ops s bis eps inter fuel t = some (t', true)) :
    Sound n (opsP inter PA PS) (opsQ inter QA QS) t' ∧
      ∀ p, InBox p (t.inn.hull t.out) → (opsP inter PA PS p → InBox p t'.out) ∧ (opsQ inter QA QS p → InBox p t'.inn) := by
  induction fuel generalizing t t' with
  | zero => simp [ops] at he
  | succ fuel ih =>
    have hd := h.dims
    obtain ⟨hlen, le1, le2, hkeep⟩ := ops_node hs hd.1 hd.2 h.reg inter
    rw [ops_eq s bis eps inter fuel t _ _ _ rfl rfl rfl] at he
    generalize hgi : opsIn inter t.inn (s (t.inn.hull t.out) (t.inn.hull t.out)).1 = i at *
    generalize hgo : opsOut inter t.out (s (t.inn.hull t.out) (t.inn.hull t.out)).2 = o at *
    have hreg : Reg (opsP inter PA PS) (opsQ inter QA QS) i o := fun p hp => hkeep p ((le1.hull le2).mem hp)
    by_cases hc : (!(i.inter o).isEmpty && maxDiamGt eps (i.inter o)) = true
    · rw [if_pos hc] at he
      simp only [Option.bind_eq_some_iff, Option.map_eq_some_iff, Prod.mk.injEq, Bool.and_eq_true] at he
      obtain ⟨l', el, r', er, rfl, ⟨hfl, fl⟩, fr⟩ := he
      have hX : (o.inter i).length = n := by rw [Box.length_inter (hlen.2.trans hlen.1.symm)]; exact hlen.2
      have hne := ne_nil_of_pos hn hX
      have hk : Sound n PA QA (opsKids bis (o.inter i) t).1 ∧ Sound n PA QA (opsKids bis (o.inter i) t).2 := by
        cases t with
        | leaf a b =>
          have e1 := (hb.le₁ _ hne).length.trans hX
          have e2 := (hb.le₂ _ hne).length.trans hX
          exact ⟨⟨⟨e1, e1⟩, reg_same _ _ _⟩, ⟨⟨e2, e2⟩, reg_same _ _ _⟩⟩
        | node a b l r => exact h.2
      have h1 := ih (t' := l'.1) (hk.1.interBoxes hd.1 hd.2 h.reg) (by rw [el, ← fl])
      have h2 := ih (t' := r'.1) (opsRight_sound (hk.2.interBoxes hd.1 hd.2 h.reg) hfl) (by rw [er, ← fr])
      exact ⟨⟨⟨hlen, hreg⟩, h1.1, h2.1⟩, hkeep⟩
    · rw [if_neg hc] at he
      by_cases hc2 : ((i.inter o).isEmpty || Box.maxDiamLt eps (i.inter o)) = true
      · rw [if_pos hc2] at he
        cases he
        exact ⟨⟨hlen, hreg⟩, hkeep⟩
      · rw [if_neg hc2] at he
        simp only [Option.some.injEq, Prod.mk.injEq] at he
        obtain ⟨rfl, hl⟩ := he
        cases t with
        | leaf a b => exact ⟨⟨hlen, hreg⟩, hkeep⟩
        | node a b l r => simp [isLeaf] at hl

/-! ### Termination -/

open Sivia in
theorem maxDiamLt_false {eps : K} {X : Box K} (h : maxDiamGt eps X = true) : Box.maxDiamLt eps X = false := by
  unfold maxDiamGt at h
  simp only [Bool.not_eq_true', List.all_eq_false] at h
  obtain ⟨I, hI, h⟩ := h
  unfold Box.maxDiamLt
  rw [List.all_eq_false]
  refine ⟨I, hI, fun hb => h ?_⟩
  match I, hb with
  | .empty, hb => simp only [Itv.diamBelow, diamLe, decide_eq_true_eq] at hb ⊢; exact hb.le
  | .mk (some a) (some b) _, hb => simp only [Itv.diamBelow, diamLe, decide_eq_true_eq] at hb ⊢; exact hb.le
  | .mk none _ _, hb => simp [Itv.diamBelow] at hb
  | .mk (some _) none _, hb => simp [Itv.diamBelow] at hb

/-- a bounded box -/
def Bnd (X : Box K) : Prop := ∀ I ∈ X, I.isUnbounded = false

/-- every box of a tree has dimension `n` and the first ones are bounded -/
def BoundedTree (n : Nat) : PNode K → Prop
  | .leaf i o => (i.length = n ∧ o.length = n) ∧ Bnd i
  | .node i o l r => ((i.length = n ∧ o.length = n) ∧ Bnd i) ∧ BoundedTree n l ∧ BoundedTree n r

theorem inter_comm' {X Y : Box K} (hl : X.length = Y.length) : X.inter Y = Y.inter X := by
  have hz : List.zipWith (· ⊓ ·) X Y = List.zipWith (· ⊓ ·) Y X := by
    rw [List.zipWith_comm]
    congr 1
    funext a b
    exact inf_comm _ _
  unfold Box.inter Box.setEmpty
  rw [hz, Bool.or_comm, hl]

open Sivia in
theorem sivia_leaf_terminates [Archimedean K] {n : Nat} (hn : 0 < n) {s : Box K → Box K → Box K × Box K}
    (h1 : ∀ X Y, X.length = n → Y.length = n → BoxLe (s X Y).1 X) (h2 : ∀ X Y, X.length = n → Y.length = n → BoxLe (s X Y).2 Y)
    {bis : Box K → Box K × Box K} (hb : IsBis bis) {c : K} (hl : IsLargestFirst c bis) (hc0 : 0 ≤ c) (hc1 : c < 1) {eps : K} (he : 0 < eps)
    (k fuel : Nat) (hf : k < fuel) {i o : Box K} (hi : i.length = n) (ho : o.length = n) (hbi : Bnd i) (hk : boxRank c eps i ≤ k) :
    ∃ t, sivia s bis eps fuel (.leaf i o) = some t := by
  induction k generalizing fuel i o with
  | zero =>
    obtain ⟨fuel, rfl⟩ := Nat.exists_eq_succ_of_ne_zero (by omega : fuel ≠ 0)
    have e1 := h1 i o hi ho
    have e2 := h2 i o hi ho
    have ll : (s i o).1.length = (s i o).2.length := by rw [e1.length, e2.length, hi, ho]
    rw [sivia_leaf]
    by_cases hc : (!((s i o).1.inter (s i o).2).isEmpty && maxDiamGt eps ((s i o).1.inter (s i o).2)) = true
    · exfalso
      rw [Bool.and_eq_true] at hc
      have hm := maxDiamLt_false hc.2
      have hX := (inter_le_left ll).trans e1
      obtain ⟨m1, m2⟩ := boxRank_mono hc0 hc1 he hX hbi
      have := (boxRank_bis hb hl hc0 hc1 he m2 hm).1
      omega
    · rw [if_neg hc]; exact ⟨_, rfl⟩
  | succ k ih =>
    obtain ⟨fuel, rfl⟩ := Nat.exists_eq_succ_of_ne_zero (by omega : fuel ≠ 0)
    have e1 := h1 i o hi ho
    have e2 := h2 i o hi ho
    have ll : (s i o).1.length = (s i o).2.length := by rw [e1.length, e2.length, hi, ho]
    rw [sivia_leaf]
    by_cases hc : (!((s i o).1.inter (s i o).2).isEmpty && maxDiamGt eps ((s i o).1.inter (s i o).2)) = true
    · rw [if_pos hc]
      rw [Bool.and_eq_true, inter_comm' ll] at hc
      have hm := maxDiamLt_false hc.2
      have hX : BoxLe ((s i o).2.inter (s i o).1) i := (inter_le_right ll.symm).trans e1
      have hXn := hX.length.trans hi
      have hne := ne_nil_of_pos hn hXn
      obtain ⟨m1, m2⟩ := boxRank_mono hc0 hc1 he hX hbi
      obtain ⟨r1, r2⟩ := boxRank_bis hb hl hc0 hc1 he m2 hm
      have b1 := (boxRank_mono hc0 hc1 he (hb.le₁ _ hne) m2).2
      have b2 := (boxRank_mono hc0 hc1 he (hb.le₂ _ hne) m2).2
      have l1 := (hb.le₁ _ hne).length.trans hXn
      have l2 := (hb.le₂ _ hne).length.trans hXn
      obtain ⟨t1, et1⟩ := ih fuel (by omega) l1 l1 b1 (by omega)
      obtain ⟨t2, et2⟩ := ih fuel (by omega) l2 l2 b2 (by omega)
      rw [et1, et2]
      exact ⟨_, rfl⟩
    · rw [if_neg hc]; exact ⟨_, rfl⟩

open Sivia in
theorem sivia_terminates [Archimedean K] {n : Nat} (hn : 0 < n) {s : Box K → Box K → Box K × Box K}
    (h1 : ∀ X Y, X.length = n → Y.length = n → BoxLe (s X Y).1 X) (h2 : ∀ X Y, X.length = n → Y.length = n → BoxLe (s X Y).2 Y)
    {bis : Box K → Box K × Box K} (hb : IsBis bis) {c : K} (hl : IsLargestFirst c bis) (hc0 : 0 ≤ c) (hc1 : c < 1) {eps : K} (he : 0 < eps)
    {t : PNode K} (ht : BoundedTree n t) : ∃ N, ∀ fuel, N ≤ fuel → ∃ t', sivia s bis eps fuel t = some t' := by
  induction t with
  | leaf i o =>
    exact ⟨boxRank c eps i + 1, fun fuel hf => sivia_leaf_terminates hn h1 h2 hb hl hc0 hc1 he _ fuel (by omega) ht.1.1 ht.1.2 ht.2 le_rfl⟩
  | node i o l r ihl ihr =>
    obtain ⟨N1, g1⟩ := ihl ht.2.1
    obtain ⟨N2, g2⟩ := ihr ht.2.2
    refine ⟨max N1 N2 + 1, fun fuel hf => ?_⟩
    obtain ⟨fuel, rfl⟩ := Nat.exists_eq_succ_of_ne_zero (by omega : fuel ≠ 0)
    rw [sivia_node]
    obtain ⟨t1, e1⟩ := g1 fuel (by omega)
    obtain ⟨t2, e2⟩ := g2 fuel (by omega)
    split
    · rw [e1, e2]; exact ⟨_, rfl⟩
    · exact ⟨_, rfl⟩

end SPav
end Codac
