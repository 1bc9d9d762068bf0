import Verif.Thick.Paving
import Verif.Sivia.Term

/-!
# Thick pavings: proofs
-/

set_option linter.unusedSectionVars false

namespace Codac.TPav

open SPav TNode

variable {K : Type*} [Field K] [LinearOrder K] [IsStrictOrderedRing K]

/-- a box cut in two parts along one direction, strictly inside the box -/
inductive IsCut : Box K → Box K → Box K → Prop
  | here {I : Itv K} {X : Box K} {m p q : K} : p ∈ I → q ∈ I → p < m → m < q → IsCut (I :: X) (I.below m :: X) (I.above m :: X)
  | there {I : Itv K} {X l r : Box K} : IsCut X l r → IsCut (I :: X) (I :: l) (I :: r)

theorem mem_below {I : Itv K} {m a : K} : a ∈ I.below m ↔ a ∈ I ∧ a ≤ m := by
  unfold Itv.below; rw [Itv.mem_inf, mem_ofBounds_below]
theorem mem_above {I : Itv K} {m a : K} : a ∈ I.above m ↔ a ∈ I ∧ m ≤ a := by
  unfold Itv.above; rw [Itv.mem_inf, mem_ofBounds_above]

theorem IsCut.le {b l r : Box K} (h : IsCut b l r) : BoxLe l b ∧ BoxLe r b := by
  induction h with
  | here => exact ⟨.cons inf_le_left (BoxLe.refl _), .cons inf_le_left (BoxLe.refl _)⟩
  | there _ ih => exact ⟨.cons le_rfl ih.1, .cons le_rfl ih.2⟩

theorem IsCut.cover {b l r : Box K} (h : IsCut b l r) {x : List K} (hx : InBox x b) : InBox x l ∨ InBox x r := by
  induction h generalizing x with
  | @here I X m p q hp hq h1 h2 =>
    cases hx with
    | @cons a _ _ _ ha hx =>
      rcases le_total a m with h | h
      · exact .inl (.cons (mem_below.2 ⟨ha, h⟩) hx)
      · exact .inr (.cons (mem_above.2 ⟨ha, h⟩) hx)
  | there _ ih =>
    cases hx with
    | cons ha hx => exact (ih hx).imp (.cons ha) (.cons ha)

theorem IsCut.disj {b l r : Box K} (h : IsCut b l r) {x : List K} (h1 : InInterior x l) : ¬ InInterior x r := by
  induction h generalizing x with
  | here =>
    intro h2
    cases h1 with
    | cons a1 _ =>
      cases h2 with
      | cons a2 _ =>
        have e1 := a1.of_le (J := Itv.ofBounds none (some _)) inf_le_right
        have e2 := a2.of_le (J := Itv.ofBounds (some _) none) inf_le_right
        exact lt_asymm (inInt_below e1) (inInt_above e2)
  | there _ ih =>
    intro h2
    cases h1 with
    | cons a1 h1 =>
      cases h2 with
      | cons a2 h2 => exact ih h1 h2

theorem IsCut.solid {b l r : Box K} (h : IsCut b l r) (hb : Solid b) : Solid l ∧ Solid r := by
  induction h with
  | @here I X m p q hp hq h1 h2 =>
    have e := hb.tail
    have hm : m ∈ I := Itv.mem_of_between hp hq h1.le h2.le
    have e1 := not_degenerated_of_two (mem_below.2 ⟨hp, h1.le⟩) (mem_below.2 ⟨hm, le_rfl⟩) h1
    have e2 := not_degenerated_of_two (mem_above.2 ⟨hm, le_rfl⟩) (mem_above.2 ⟨hq, h2.le⟩) h2
    have e3 := e.2
    unfold Solid at e3 ⊢
    simp only [List.any_cons, e1, e2, e3, Bool.or_false, and_self]
  | @there I X l r _ ih =>
    have e := hb.tail
    have i := ih e.2
    have i1 := i.1
    have i2 := i.2
    unfold Solid at i1 i2 ⊢
    simp only [List.any_cons, e.1, i1, i2, Bool.or_false, and_self]

theorem bnd_of_le {X Y : Box K} (h : BoxLe X Y) (hb : Bnd Y) : Bnd X := by
  unfold BoxLe at h
  induction h with
  | nil => simp [Bnd]
  | @cons I J X Y h1 h2 ih =>
    intro L hL
    rcases List.mem_cons.1 hL with rfl | hL
    · exact (Itv.width_mono h1 (hb J (by simp))).2
    · exact ih (fun L hL => hb L (List.mem_cons_of_mem _ hL)) L hL

/-- `x` is in both boxes, which share more than a point in every direction -/
def Fat : Box K → Box K → List K → Prop
  | [], [], [] => True
  | I :: b, J :: X, a :: x => (a ∈ I ⊓ J ∧ (I ⊓ J).isDegenerated = false) ∧ Fat b X x
  | _, _, _ => False

theorem exists_ne {I : Itv K} (hI : I.isDegenerated = false) {a : K} (ha : a ∈ I) : (∃ c ∈ I, c < a) ∨ ∃ c ∈ I, a < c := by
  cases I with
  | empty => exact ha.elim
  | mk lo hi p =>
    cases lo with
    | none => exact .inl ⟨a - 1, ⟨trivial, by
        cases hi with
        | none => trivial
        | some h => have : a ≤ h := ha.2; show a - 1 ≤ h; linarith⟩, by linarith⟩
    | some l =>
      have hl : l ≤ a := ha.1
      rcases lt_or_eq_of_le hl with h | h
      · exact .inl ⟨l, ⟨le_refl l, by
          cases hi with
          | none => trivial
          | some u => exact p⟩, h⟩
      · cases hi with
        | none => exact .inr ⟨a + 1, ⟨by show l ≤ a + 1; linarith, trivial⟩, by linarith⟩
        | some u =>
          have hu : a ≤ u := ha.2
          simp only [Itv.isDegenerated, decide_eq_false_iff_not] at hI
          refine .inr ⟨u, ⟨p, le_refl u⟩, lt_of_le_of_ne hu ?_⟩
          rintro rfl
          exact hI h

theorem IsCut.fat {b l r X : Box K} (h : IsCut b l r) {x : List K} (hx : Fat b X x) : Fat l X x ∨ Fat r X x := by
  induction h generalizing X x with
  | @here I b m p q hp hq h1 h2 =>
    match X, x, hx with
    | J :: X, a :: x, ⟨⟨ha, hd⟩, hx⟩ =>
      have mb : ∀ c, c ∈ I ⊓ J → c ≤ m → c ∈ I.below m ⊓ J := fun c hc hm =>
        Itv.mem_inf.2 ⟨mem_below.2 ⟨(Itv.mem_inf.1 hc).1, hm⟩, (Itv.mem_inf.1 hc).2⟩
      have ma : ∀ c, c ∈ I ⊓ J → m ≤ c → c ∈ I.above m ⊓ J := fun c hc hm =>
        Itv.mem_inf.2 ⟨mem_above.2 ⟨(Itv.mem_inf.1 hc).1, hm⟩, (Itv.mem_inf.1 hc).2⟩
      rcases exists_ne hd ha with ⟨c, hc, hlt⟩ | ⟨c, hc, hlt⟩
      · rcases le_or_gt a m with h | h
        · exact .inl ⟨⟨mb a ha h, not_degenerated_of_two (mb c hc (hlt.le.trans h)) (mb a ha h) hlt⟩, hx⟩
        · have hcm : max c m ∈ I ⊓ J := Itv.mem_of_between hc ha (le_max_left _ _) (max_le hlt.le h.le)
          exact .inr ⟨⟨ma a ha h.le, not_degenerated_of_two (ma _ hcm (le_max_right _ _)) (ma a ha h.le) (max_lt hlt h)⟩, hx⟩
      · rcases lt_or_ge a m with h | h
        · have hcm : min c m ∈ I ⊓ J := Itv.mem_of_between ha hc (le_min hlt.le h.le) (min_le_left _ _)
          exact .inl ⟨⟨mb a ha h.le, not_degenerated_of_two (mb a ha h.le) (mb _ hcm (min_le_right _ _)) (lt_min hlt h)⟩, hx⟩
        · exact .inr ⟨⟨ma a ha h, not_degenerated_of_two (ma a ha h) (ma c hc (h.trans hlt.le)) hlt⟩, hx⟩
    | [], _, hx => exact hx.elim
    | _ :: _, [], hx => exact hx.elim
  | there _ ih =>
    match X, x, hx with
    | J :: X, a :: x, ⟨h1, hx⟩ => exact (ih hx).imp (fun h => ⟨h1, h⟩) (fun h => ⟨h1, h⟩)
    | [], _, hx => exact hx.elim
    | _ :: _, [], hx => exact hx.elim

theorem fat_inBox {b X : Box K} {x : List K} (h : Fat b X x) : InBox x b ∧ InBox x X := by
  induction b generalizing X x with
  | nil =>
    match X, x, h with
    | [], [], _ => exact ⟨.nil, .nil⟩
    | _ :: _, _, h => exact h.elim
    | [], _ :: _, h => exact h.elim
  | cons I b ih =>
    match X, x, h with
    | J :: X, a :: x, ⟨⟨h1, _⟩, h⟩ =>
      obtain ⟨i1, i2⟩ := ih h
      exact ⟨.cons (Itv.mem_inf.1 h1).1 i1, .cons (Itv.mem_inf.1 h1).2 i2⟩
    | [], _, h => exact h.elim
    | _ :: _, [], h => exact h.elim

theorem fat_of_solid {b X : Box K} {x : List K} (h : Solid (List.zipWith (· ⊓ ·) b X)) (h1 : InBox x b) (h2 : InBox x X) : Fat b X x := by
  unfold InBox at h1 h2
  induction h1 generalizing X with
  | nil => cases h2; trivial
  | cons a1 _ ih =>
    cases h2 with
    | cons a2 h2 =>
      rw [List.zipWith_cons_cons] at h
      exact ⟨⟨Itv.mem_inf.2 ⟨a1, a2⟩, h.tail.1⟩, ih h.tail.2 h2⟩

theorem solid_of_fat {b X : Box K} {x : List K} (h : Fat b X x) : Solid (List.zipWith (· ⊓ ·) b X) := by
  induction b generalizing X x with
  | nil => simp [Solid]
  | cons I b ih =>
    match X, x, h with
    | J :: X, a :: x, ⟨⟨_, h1⟩, h⟩ =>
      have := ih h
      unfold Solid at this ⊢
      rw [List.zipWith_cons_cons, List.any_cons, h1, this]; rfl
    | [], _, h => exact h.elim
    | _ :: _, [], h => exact h.elim

theorem inter_eq_zip {b X : Box K} {x : List K} (h1 : InBox x b) (h2 : InBox x X) : b.inter X = List.zipWith (· ⊓ ·) b X := by
  have hz : (List.zipWith (· ⊓ ·) b X).any Itv.isEmpty = false := by
    by_contra hc
    rw [Bool.not_eq_false] at hc
    refine not_inBox_of_any hc (v := x) ?_
    unfold InBox at *
    clear hc
    induction h1 generalizing X with
    | nil => cases h2; exact .nil
    | cons a1 _ ih =>
      cases h2 with
      | cons a2 h2 => exact .cons (Itv.mem_inf.2 ⟨a1, a2⟩) (ih h2)
  unfold Box.inter
  rw [h1.not_isEmpty, h2.not_isEmpty, hz]
  simp

theorem fat_iff {b X : Box K} {x : List K} : Fat b X x ↔ isFlat (b.inter X) = false ∧ InBox x b ∧ InBox x X := by
  constructor
  · intro h
    obtain ⟨h1, h2⟩ := fat_inBox h
    refine ⟨?_, h1, h2⟩
    have hs := solid_of_fat h
    rw [inter_eq_zip h1 h2]
    unfold isFlat
    have : Box.isEmpty (List.zipWith (· ⊓ ·) b X) = false := by
      cases hz : List.zipWith (· ⊓ ·) b X with
      | nil => rfl
      | cons I Z =>
        rw [hz] at hs
        exact not_isEmpty_of_solid hs.tail.1
    rw [this, Bool.false_or]
    exact hs
  · rintro ⟨h, h1, h2⟩
    rw [inter_eq_zip h1 h2] at h
    unfold isFlat at h
    rw [Bool.or_eq_false_iff] at h
    exact fat_of_solid h.2 h1 h2

/-! ### Trees -/

/-- a property of the boxes and the values of all the nodes -/
def All (P : Box K → TB → Prop) : TNode K → Prop
  | leaf b v => P b v
  | node b v l r => P b v ∧ All P l ∧ All P r

/-- a tree of bounded boxes of dimension `n`, none of them flat, the box of a node being cut in the boxes of its children -/
def Regular (n : Nat) : TNode K → Prop
  | leaf b _ => b.length = n ∧ Bnd b ∧ Solid b
  | node b _ l r => (b.length = n ∧ Bnd b ∧ Solid b) ∧ IsCut b l.box r.box ∧ Regular n l ∧ Regular n r

/-- the labels of the nodes are right for the points with values `S` -/
def Right (S : List K → V3) (t : TNode K) : Prop := All (fun b v => ∀ x, InBox x b → v.has (S x) = true) t

theorem All.root {P : Box K → TB → Prop} {t : TNode K} (h : All P t) : P t.box t.value := by
  cases t with
  | leaf b v => exact h
  | node b v l r => exact h.1

theorem Regular.root {n : Nat} {t : TNode K} (h : Regular n t) : t.box.length = n ∧ Bnd t.box ∧ Solid t.box := by
  cases t with
  | leaf b v => exact h
  | node b v l r => exact h.1

theorem All.imp {P Q : Box K → TB → Prop} (hPQ : ∀ b v, P b v → Q b v) {t : TNode K} (h : All P t) : All Q t := by
  induction t with
  | leaf b v => exact hPQ _ _ h
  | node b v l r ihl ihr => exact ⟨hPQ _ _ h.1, ihl h.2.1, ihr h.2.2⟩

theorem regular_leaf_le {n : Nat} {t : TNode K} (h : Regular n t) {p : Box K × TB} (hp : p ∈ t.leaves) : BoxLe p.1 t.box := by
  induction t with
  | leaf b v =>
    simp only [TNode.leaves, List.mem_cons, List.not_mem_nil, or_false] at hp
    subst hp
    exact BoxLe.refl _
  | node b v l r ihl ihr =>
    obtain ⟨_, hc, hl, hr⟩ := h
    rcases List.mem_append.1 hp with hp | hp
    · exact (ihl hl hp).trans hc.le.1
    · exact (ihr hr hp).trans hc.le.2

theorem regular_leaf_solid {n : Nat} {t : TNode K} (h : Regular n t) {p : Box K × TB} (hp : p ∈ t.leaves) : Solid p.1 := by
  induction t with
  | leaf b v =>
    simp only [TNode.leaves, List.mem_cons, List.not_mem_nil, or_false] at hp
    subst hp
    exact h.2.2
  | node b v l r ihl ihr =>
    obtain ⟨_, hc, hl, hr⟩ := h
    rcases List.mem_append.1 hp with hp | hp
    · exact ihl hl hp
    · exact ihr hr hp

theorem regular_cover {n : Nat} {t : TNode K} (h : Regular n t) {x : List K} (hx : InBox x t.box) : ∃ p ∈ t.leaves, InBox x p.1 := by
  induction t with
  | leaf b v => exact ⟨(b, v), by simp [TNode.leaves], hx⟩
  | node b v l r ihl ihr =>
    obtain ⟨_, hc, hl, hr⟩ := h
    rcases hc.cover hx with hx | hx
    · obtain ⟨p, h1, h2⟩ := ihl hl hx
      exact ⟨p, List.mem_append_left _ h1, h2⟩
    · obtain ⟨p, h1, h2⟩ := ihr hr hx
      exact ⟨p, List.mem_append_right _ h1, h2⟩

theorem inInterior_of_le {X Y : Box K} (h : BoxLe X Y) {x : List K} (hx : InInterior x X) : InInterior x Y := by
  unfold BoxLe at h
  unfold InInterior at *
  induction h generalizing x with
  | nil => exact hx
  | cons h1 _ ih =>
    cases hx with
    | cons a hx => exact .cons (a.of_le h1) (ih hx)

theorem regular_disj {n : Nat} {t : TNode K} (h : Regular n t) :
    t.leaves.Pairwise fun p q => ∀ x, InInterior x p.1 → ¬ InInterior x q.1 := by
  induction t with
  | leaf b v => simp [TNode.leaves]
  | node b v l r ihl ihr =>
    obtain ⟨_, hc, hl, hr⟩ := h
    rw [TNode.leaves, List.pairwise_append]
    refine ⟨ihl hl, ihr hr, fun p hp q hq x h1 h2 => ?_⟩
    exact hc.disj (inInterior_of_le (regular_leaf_le hl hp) h1) (inInterior_of_le (regular_leaf_le hr hq) h2)

theorem all_leaves {P : Box K → TB → Prop} {t : TNode K} (h : All P t) {p : Box K × TB} (hp : p ∈ t.leaves) : P p.1 p.2 := by
  induction t with
  | leaf b v =>
    simp only [TNode.leaves, List.mem_cons, List.not_mem_nil, or_false] at hp
    subst hp
    exact h
  | node b v l r ihl ihr =>
    rcases List.mem_append.1 hp with hp | hp
    · exact ihl h.2.1 hp
    · exact ihr h.2.2 hp

/-! ### `reunite`, `change` -/

theorem reunite_box (t : TNode K) : t.reunite.box = t.box := by
  cases t with
  | leaf b v => rfl
  | node b v l r =>
    rw [TNode.reunite]
    split
    · split <;> rfl
    · rfl

/-- what `reunite` does on a node -/
theorem reunite_node (b : Box K) (v : TB) (l r : TNode K) :
    (∃ bl br w, l.reunite = leaf bl w ∧ r.reunite = leaf br w ∧ (node b v l r).reunite = leaf b w) ∨
      (node b v l r).reunite = node b (l.reunite.value.opUnion r.reunite.value) l.reunite r.reunite := by
  rw [TNode.reunite]
  split
  · rename_i bl vl br vr e1 e2
    split
    · rename_i h
      subst h
      exact .inl ⟨bl, br, vl, e1, e2, rfl⟩
    · exact .inr (by rw [e1, e2]; rfl)
  · exact .inr rfl

theorem reunite_regular {n : Nat} {t : TNode K} (h : Regular n t) : Regular n t.reunite := by
  induction t with
  | leaf b v => exact h
  | node b v l r ihl ihr =>
    obtain ⟨h0, hc, hl, hr⟩ := h
    rcases reunite_node b v l r with ⟨bl, br, w, _, _, e⟩ | e
    · rw [e]; exact h0
    · rw [e]; exact ⟨h0, by rw [reunite_box, reunite_box]; exact hc, ihl hl, ihr hr⟩

/-- the labels of the leaves are right for the points with values `S` -/
def RightLeaves (S : List K → V3) (t : TNode K) : Prop := ∀ p ∈ t.leaves, ∀ x, InBox x p.1 → p.2.has (S x) = true

theorem Right.leaves {S : List K → V3} {t : TNode K} (h : Right S t) : RightLeaves S t := fun _ hp => all_leaves h hp

theorem reunite_right {n : Nat} {S : List K → V3} {t : TNode K} (hr : Regular n t) (h : RightLeaves S t) : Right S t.reunite := by
  induction t with
  | leaf b v => exact h (b, v) (by simp [TNode.leaves])
  | node b v l r ihl ihr =>
    obtain ⟨_, hc, hl, hr⟩ := hr
    have il := ihl hl fun p hp => h p (List.mem_append_left _ hp)
    have ir := ihr hr fun p hp => h p (List.mem_append_right _ hp)
    have key : ∀ x, InBox x b → l.reunite.value.has (S x) = true ∨ r.reunite.value.has (S x) = true := fun x hx =>
      (hc.cover hx).imp (fun hx => (All.root il) x (by rw [reunite_box]; exact hx)) (fun hx => (All.root ir) x (by rw [reunite_box]; exact hx))
    rcases reunite_node b v l r with ⟨bl, br, w, e1, e2, e⟩ | e
    · rw [e]
      intro x hx
      have := key x hx
      rw [e1, e2] at this
      exact this.elim id id
    · rw [e]
      exact ⟨fun x hx => (key x hx).elim TB.union_left TB.union_right, il, ir⟩

theorem mapLeaves_box (op : TB → TB) (t : TNode K) : (t.mapLeaves op).box = t.box := by cases t <;> rfl

theorem mapLeaves_regular {n : Nat} (op : TB → TB) {t : TNode K} (h : Regular n t) : Regular n (t.mapLeaves op) := by
  induction t with
  | leaf b v => exact h
  | node b v l r ihl ihr => exact ⟨h.1, by rw [mapLeaves_box, mapLeaves_box]; exact h.2.1, ihl h.2.2.1, ihr h.2.2.2⟩

theorem mapLeaves_leaves (op : TB → TB) (t : TNode K) : (t.mapLeaves op).leaves = t.leaves.map fun p => (p.1, op p.2) := by
  induction t with
  | leaf b v => rfl
  | node b v l r ihl ihr => simp only [mapLeaves, TNode.leaves, ihl, ihr, List.map_append]

theorem change_regular {n : Nat} (op : TB → TB) {t : TNode K} (h : Regular n t) : Regular n (t.change op) := reunite_regular (mapLeaves_regular op h)

theorem change_right {n : Nat} {S : List K → V3} {op : TB → TB} {g : V3 → V3} (hop : ∀ v s, v.has s = true → (op v).has (g s) = true) {t : TNode K}
    (hr : Regular n t) (h : RightLeaves S t) : Right (fun x => g (S x)) (t.change op) := by
  refine reunite_right (mapLeaves_regular op hr) fun p hp x hx => ?_
  rw [mapLeaves_leaves, List.mem_map] at hp
  obtain ⟨q, hq, rfl⟩ := hp
  exact hop _ _ (h q hq x hx)

theorem reunite_all_out {t : TNode K} {w : TB} (h : ∀ p ∈ t.leaves, p.2 = w) : t.reunite = leaf t.box w := by
  induction t with
  | leaf b v => rw [← h (b, v) (by simp [TNode.leaves])]; rfl
  | node b v l r ihl ihr =>
    have e1 := ihl fun p hp => h p (List.mem_append_left _ hp)
    have e2 := ihr fun p hp => h p (List.mem_append_right _ hp)
    rw [TNode.reunite, e1, e2]
    simp only [if_true]
    rfl

/-! ### `contains`, the contractors -/

theorem size_pos (t : TNode K) : 0 < t.size := by cases t <;> simp only [TNode.size] <;> omega

theorem labelLoop_some (X : Box K) {fuel : Nat} {L : List (TNode K)} {res : TB} (h : (L.map TNode.size).sum ≤ fuel) :
    ∃ r, labelLoop X fuel L res = some r := by
  induction fuel generalizing L res with
  | zero =>
    cases L with
    | nil => exact ⟨res, rfl⟩
    | cons t L =>
      have := size_pos t
      simp only [List.map_cons, List.sum_cons] at h
      omega
  | succ fuel ih =>
    cases L with
    | nil => exact ⟨res, rfl⟩
    | cons t L =>
      cases t with
      | leaf b v =>
        simp only [List.map_cons, List.sum_cons, TNode.size] at h
        rw [labelLoop]
        split <;> exact ih (by omega)
      | node b v l r =>
        simp only [List.map_cons, List.sum_cons, TNode.size] at h
        rw [labelLoop]
        split
        · exact ih (by omega)
        · exact ih (by simp only [List.map_append, List.map_cons, List.map_nil, List.sum_append, List.sum_cons, List.sum_nil]; omega)

theorem labelLoop_sound {n : Nat} {S : List K → V3} {X : Box K} {x : List K} {fuel : Nat} {L : List (TNode K)} {res r : TB}
    (hL : ∀ t ∈ L, Regular n t ∧ RightLeaves S t) (h : labelLoop X fuel L res = some r)
    (hx : res.has (S x) = true ∨ ∃ t ∈ L, Fat t.box X x) : r.has (S x) = true := by
  induction fuel generalizing L res with
  | zero =>
    cases L with
    | nil => cases h; exact hx.elim id (by simp)
    | cons t L => cases h
  | succ fuel ih =>
    cases L with
    | nil => cases h; exact hx.elim id (by simp)
    | cons t L =>
      have hL' : ∀ t ∈ L, Regular n t ∧ RightLeaves S t := fun t ht => hL t (List.mem_cons_of_mem _ ht)
      obtain ⟨hreg, hlab⟩ := hL t (by simp)
      cases t with
      | leaf b v =>
        rw [labelLoop] at h
        split at h
        · rename_i hf
          refine ih hL' h (hx.imp_right ?_)
          rintro ⟨t, ht, hfat⟩
          rcases List.mem_cons.1 ht with rfl | ht
          · have := (fat_iff.1 hfat).1
            simp only [TNode.box] at this
            rw [hf] at this; cases this
          · exact ⟨t, ht, hfat⟩
        · refine ih hL' h ?_
          rcases hx with hx | ⟨t, ht, hfat⟩
          · exact .inl (TB.union_left hx)
          · rcases List.mem_cons.1 ht with rfl | ht
            · exact .inl (TB.union_right (hlab (b, v) (by simp [TNode.leaves]) x (fat_inBox hfat).1))
            · exact .inr ⟨t, ht, hfat⟩
      | node b v l r =>
        rw [labelLoop] at h
        split at h
        · rename_i hf
          refine ih hL' h (hx.imp_right ?_)
          rintro ⟨t, ht, hfat⟩
          rcases List.mem_cons.1 ht with rfl | ht
          · have := (fat_iff.1 hfat).1
            simp only [TNode.box] at this
            rw [hf] at this; cases this
          · exact ⟨t, ht, hfat⟩
        · refine ih ?_ h (hx.imp_right ?_)
          · intro t ht
            simp only [List.mem_append, List.mem_cons, List.not_mem_nil, or_false] at ht
            rcases ht with ht | rfl | rfl
            · exact hL' t ht
            · exact ⟨hreg.2.2.1, fun p hp => hlab p (List.mem_append_left _ hp)⟩
            · exact ⟨hreg.2.2.2, fun p hp => hlab p (List.mem_append_right _ hp)⟩
          · rintro ⟨t, ht, hfat⟩
            rcases List.mem_cons.1 ht with rfl | ht
            · rcases hreg.2.1.fat hfat with hfat | hfat
              · exact ⟨l, by simp, hfat⟩
              · exact ⟨r, by simp, hfat⟩
            · exact ⟨t, by simp [ht], hfat⟩

theorem hullLoop_some (drop : TB) (X : Box K) {fuel : Nat} {L : List (TNode K)} {res : Box K} (h : (L.map TNode.size).sum ≤ fuel) :
    ∃ r, hullLoop drop X fuel L res = some r := by
  induction fuel generalizing L res with
  | zero =>
    cases L with
    | nil => exact ⟨res, rfl⟩
    | cons t L =>
      have := size_pos t
      simp only [List.map_cons, List.sum_cons] at h
      omega
  | succ fuel ih =>
    cases L with
    | nil => exact ⟨res, rfl⟩
    | cons t L =>
      cases t with
      | leaf b v =>
        simp only [List.map_cons, List.sum_cons, TNode.size] at h
        rw [hullLoop]
        split <;> exact ih (by omega)
      | node b v l r =>
        simp only [List.map_cons, List.sum_cons, TNode.size] at h
        rw [hullLoop]
        split
        · exact ih (by omega)
        · exact ih (by simp only [List.map_append, List.map_cons, List.map_nil, List.sum_append, List.sum_cons, List.sum_nil]; omega)

theorem length_hull' {X Y : Box K} (h : X.length = Y.length) : (X.hull Y).length = X.length := by
  unfold Box.hull
  split
  · rfl
  · split
    · exact h.symm
    · simp [h]

theorem hullLoop_sound {n : Nat} {S : List K → V3} {drop : TB} {X : Box K} {x : List K} (hd : drop.has (S x) = false) {fuel : Nat}
    {L : List (TNode K)} {res R : Box K} (hL : ∀ t ∈ L, Regular n t ∧ RightLeaves S t) (hres : res.length = n)
    (h : hullLoop drop X fuel L res = some R) (hx : InBox x res ∨ ∃ t ∈ L, Fat t.box X x) : InBox x R := by
  induction fuel generalizing L res with
  | zero =>
    cases L with
    | nil => cases h; exact hx.elim id (by simp)
    | cons t L => cases h
  | succ fuel ih =>
    cases L with
    | nil => cases h; exact hx.elim id (by simp)
    | cons t L =>
      have hL' : ∀ t ∈ L, Regular n t ∧ RightLeaves S t := fun t ht => hL t (List.mem_cons_of_mem _ ht)
      obtain ⟨hreg, hlab⟩ := hL t (by simp)
      cases t with
      | leaf b v =>
        rw [hullLoop] at h
        split at h
        · rename_i hf
          refine ih hL' hres h (hx.imp_right ?_)
          rintro ⟨t, ht, hfat⟩
          rcases List.mem_cons.1 ht with rfl | ht
          · have := (fat_iff.1 hfat).1
            simp only [TNode.box] at this
            rw [hf] at this; cases this
          · exact ⟨t, ht, hfat⟩
        · have hlb : res.length = b.length := hres.trans hreg.1.symm
          have hin : InBox x (if v = drop then res else res.hull b) ∨ ∃ t ∈ L, Fat t.box X x := by
            rcases hx with hx | ⟨t, ht, hfat⟩
            · left
              split
              · exact hx
              · exact InBox.hull_left hlb hx
            · rcases List.mem_cons.1 ht with rfl | ht
              · have hxb := (fat_inBox hfat).1
                have hv := hlab (b, v) (by simp [TNode.leaves]) x hxb
                left
                rw [if_neg (by rintro rfl; rw [hd] at hv; cases hv)]
                exact InBox.hull_right hlb hxb
              · exact .inr ⟨t, ht, hfat⟩
          refine ih hL' ?_ h hin
          split
          · exact hres
          · rw [length_hull' hlb, hres]
      | node b v l r =>
        rw [hullLoop] at h
        split at h
        · rename_i hf
          refine ih hL' hres h (hx.imp_right ?_)
          rintro ⟨t, ht, hfat⟩
          rcases List.mem_cons.1 ht with rfl | ht
          · have := (fat_iff.1 hfat).1
            simp only [TNode.box] at this
            rw [hf] at this; cases this
          · exact ⟨t, ht, hfat⟩
        · refine ih ?_ hres h (hx.imp_right ?_)
          · intro t ht
            simp only [List.mem_append, List.mem_cons, List.not_mem_nil, or_false] at ht
            rcases ht with ht | rfl | rfl
            · exact hL' t ht
            · exact ⟨hreg.2.2.1, fun p hp => hlab p (List.mem_append_left _ hp)⟩
            · exact ⟨hreg.2.2.2, fun p hp => hlab p (List.mem_append_right _ hp)⟩
          · rintro ⟨t, ht, hfat⟩
            rcases List.mem_cons.1 ht with rfl | ht
            · rcases hreg.2.1.fat hfat with hfat | hfat
              · exact ⟨l, by simp, hfat⟩
              · exact ⟨r, by simp, hfat⟩
            · exact ⟨t, by simp [ht], hfat⟩

theorem hullLoop_length {n : Nat} {drop : TB} {X : Box K} {fuel : Nat}
    {L : List (TNode K)} {res R : Box K} (hL : ∀ t ∈ L, Regular n t) (hres : res.length = n)
    (h : hullLoop drop X fuel L res = some R) : R.length = n := by
  induction fuel generalizing L res with
  | zero =>
    cases L with
    | nil => cases h; exact hres
    | cons t L => cases h
  | succ fuel ih =>
    cases L with
    | nil => cases h; exact hres
    | cons t L =>
      have hL' : ∀ t ∈ L, Regular n t := fun t ht => hL t (List.mem_cons_of_mem _ ht)
      have hreg := hL t (by simp)
      cases t with
      | leaf b v =>
        have hlb : res.length = b.length := hres.trans hreg.1.symm
        rw [hullLoop] at h
        split at h
        · exact ih hL' hres h
        · refine ih hL' ?_ h
          split
          · exact hres
          · rw [length_hull' hlb, hres]
      | node b v l r =>
        rw [hullLoop] at h
        split at h
        · exact ih hL' hres h
        · refine ih ?_ hres h
          intro t ht
          simp only [List.mem_append, List.mem_cons, List.not_mem_nil, or_false] at ht
          rcases ht with ht | rfl | rfl
          · exact hL' t ht
          · exact hreg.2.2.1
          · exact hreg.2.2.2

/-- the two contractors end, give a box inside the given one, and keep the points which do not have the dropped value when the box is not flat -/
theorem ctcDrop_ok {n : Nat} {S : List K → V3} {drop : TB} {t : TNode K} (hr : Regular n t) (hS : RightLeaves S t) {X : Box K} (hX : X.length = n) :
    ∃ R, ctcDrop drop t X = some R ∧ BoxLe R X ∧
      (isFlat X = false → ∀ x, InBox x X → drop.has (S x) = false → InBox x R) := by
  unfold ctcDrop
  split
  · rename_i hsub
    obtain ⟨R, hR⟩ := hullLoop_some drop X (fuel := t.size) (L := [t]) (res := Box.empty X.length) (by simp)
    have hlen := hullLoop_length (n := n) (by simpa using hr) (by simp [hX]) hR
    have hl : X.length = R.length := hX.trans hlen.symm
    refine ⟨X.inter R, by rw [hR]; rfl, inter_le_left hl, fun hf x hx hd => ?_⟩
    refine (inBox_inter hl).2 ⟨hx, ?_⟩
    have hxt : InBox x t.box := mem_of_isSubset (hX.trans hr.root.1.symm) hsub hx
    refine hullLoop_sound hd (L := [t]) (by simpa using ⟨hr, hS⟩) (by simp [hX]) hR (.inr ⟨t, by simp, fat_iff.2 ⟨?_, hxt, hx⟩⟩)
    have hle : BoxLe X t.box := by
      unfold Box.isSubset at hsub
      rw [hx.not_isEmpty, Bool.false_or, Bool.and_eq_true] at hsub
      have h2 := hsub.2
      have h1 : X.length = t.box.length := hX.trans hr.root.1.symm
      clear * - h1 h2
      unfold BoxLe
      generalize t.box = Y at h1 h2
      induction X generalizing Y with
      | nil => cases Y with
        | nil => exact .nil
        | cons => simp at h1
      | cons I X ih =>
        cases Y with
        | nil => simp at h1
        | cons J Y =>
          simp only [List.zipWith_cons_cons, List.all_cons, id, Bool.and_eq_true, decide_eq_true_eq] at h2
          exact .cons h2.1 (ih _ (by simpa using h1) h2.2)
    have e : t.box.inter X = X := by
      rw [inter_eq_zip hxt hx]
      clear * - hle
      unfold BoxLe at hle
      generalize t.box = Y at hle
      induction hle with
      | nil => rfl
      | cons h _ ih => rw [List.zipWith_cons_cons, ih, inf_eq_right.2 h]
    rw [e]; exact hf
  · exact ⟨X, rfl, BoxLe.refl X, fun _ x hx _ => hx⟩

/-! ### Translations -/

theorem zipBox_length {f : Itv K → Itv K → Itv K} {X Y : Box K} (h : X.length = Y.length) : (zipBox f X Y).length = X.length := by
  unfold zipBox
  split
  · simp
  · simp [h]

theorem inBox_zipBox {f : Itv K → Itv K → Itv K} {g : K → K → K} (hf : ∀ {X Y : Itv K} {x y : K}, x ∈ X → y ∈ Y → g x y ∈ f X Y)
    {X Y : Box K} {x y : List K} (hx : InBox x X) (hy : InBox y Y) : InBox (List.zipWith g x y) (zipBox f X Y) := by
  unfold zipBox
  rw [hx.not_isEmpty, hy.not_isEmpty]
  simp only [Bool.or_self, Bool.false_eq_true, if_false]
  unfold InBox at *
  induction hx generalizing Y y with
  | nil => simp
  | cons h1 _ ih =>
    cases hy with
    | nil => simp
    | cons h2 hy => exact .cons (hf h1 h2) (ih hy)

theorem zipBox_solid (A : IArith K) {T b : Box K} {x : List K} (hx : InBox x T) (hb : Solid b) (hl : T.length = b.length) :
    isFlat (zipBox A.add T b) = false := by
  obtain ⟨y, hy⟩ := (⟨_, (midBox_interior hb).inBox⟩ : ∃ v, InBox v b)
  have hxy := inBox_zipBox (f := A.add) (g := (· + ·)) A.add_mem hx hy
  unfold isFlat
  rw [hxy.not_isEmpty, Bool.false_or]
  clear hxy
  unfold zipBox
  rw [hx.not_isEmpty, hy.not_isEmpty]
  simp only [Bool.or_self, Bool.false_eq_true, if_false]
  clear hy y
  unfold InBox at hx
  induction hx generalizing b with
  | nil => simp
  | @cons a I x T h1 h2 ih =>
    cases b with
    | nil => simp at hl
    | cons J b =>
      rw [List.zipWith_cons_cons, List.any_cons, ih hb.tail.2 (by simpa using hl), Bool.or_false]
      obtain ⟨y, hy⟩ : ∃ y, y ∈ J := by
        have : Solid [J] := by unfold Solid; simp [hb.tail.1]
        have h := (midBox_interior this).inBox
        generalize midBox [J] = m at h
        cases h with
        | cons h _ => exact ⟨_, h⟩
      rcases exists_ne hb.tail.1 hy with ⟨c, hc, hlt⟩ | ⟨c, hc, hlt⟩
      · exact not_degenerated_of_two (A.add_mem h1 hc) (A.add_mem h1 hy) (by linarith)
      · exact not_degenerated_of_two (A.add_mem h1 hy) (A.add_mem h1 hc) (by linarith)

/-- the translation of a point -/
def shift (t a : List K) : List K := List.zipWith (· + ·) t a

theorem shift_sub {t a : List K} (h : t.length = a.length) : List.zipWith (· - ·) (shift t a) a = t := by
  unfold shift
  induction t generalizing a with
  | nil => simp
  | cons x t ih =>
    cases a with
    | nil => simp at h
    | cons y a => simp only [List.zipWith_cons_cons, add_sub_cancel_right, ih (by simpa using h)]

theorem transformLeaf_ok {n : Nat} (A : IArith K) {SB : List K → V3} {B : TNode K} (hB : Regular n B) (hSB : RightLeaves SB B)
    {b T : Box K} (hb : b.length = n) (hs : Solid b) (hT : T.length = n) :
    ∃ R, transformLeaf A B b T = some R ∧ BoxLe R T ∧
      ∀ x, InBox x T → (∃ a, InBox a b ∧ SB (shift x a) ≠ .no) → InBox x R := by
  have hl : T.length = b.length := hT.trans hb.symm
  have hY : (zipBox A.add T b).length = n := by rw [zipBox_length hl, hT]
  obtain ⟨Y, e, hle, hk⟩ := ctcDrop_ok (drop := .out) hB hSB hY
  have hYl : Y.length = b.length := by rw [hle.length, hY, hb]
  have hz : T.length = (zipBox A.sub Y b).length := by rw [zipBox_length hYl, hYl, hl]
  refine ⟨T.inter (zipBox A.sub Y b), by unfold transformLeaf ctcOutside; rw [e]; rfl, inter_le_left hz, ?_⟩
  rintro x hx ⟨a, ha, hne⟩
  refine (inBox_inter hz).2 ⟨hx, ?_⟩
  have hy := hk (zipBox_solid A hx hs hl) (shift x a) (inBox_zipBox (f := A.add) (g := (· + ·)) A.add_mem hx ha) (by
    cases h : SB (shift x a) with
    | no => exact absurd h hne
    | maybe => rfl
    | yes => rfl)
  have := inBox_zipBox (f := A.sub) (g := (· - ·)) A.sub_mem hy ha
  rwa [shift_sub (by rw [hx.length, ha.length, hl])] at this

theorem transformLoop_ok {n : Nat} (A : IArith K) {SA SB : List K → V3} {B : TNode K} (hB : Regular n B) (hSB : RightLeaves SB B)
    {fuel : Nat} {L : List (TNode K)} (hf : (L.map TNode.size).sum ≤ fuel) (hL : ∀ t ∈ L, Regular n t ∧ RightLeaves SA t) {T : Box K} (hT : T.length = n) :
    ∃ R, transformLoop A B fuel L T = some R ∧ BoxLe R T ∧
      ∀ x, InBox x T → (∀ a, SA a = .yes → (∃ t ∈ L, InBox a t.box) → SB (shift x a) ≠ .no) → InBox x R := by
  induction fuel generalizing L T with
  | zero =>
    cases L with
    | nil => exact ⟨T, rfl, BoxLe.refl T, fun x hx _ => hx⟩
    | cons t L =>
      have := size_pos t
      simp only [List.map_cons, List.sum_cons] at hf
      omega
  | succ fuel ih =>
    cases L with
    | nil => exact ⟨T, rfl, BoxLe.refl T, fun x hx _ => hx⟩
    | cons t L =>
      have hL' : ∀ t ∈ L, Regular n t ∧ RightLeaves SA t := fun t ht => hL t (List.mem_cons_of_mem _ ht)
      obtain ⟨hreg, hlab⟩ := hL t (by simp)
      cases t with
      | leaf b v =>
        simp only [List.map_cons, List.sum_cons, TNode.size] at hf
        rw [transformLoop]
        split
        · rename_i hv
          subst hv
          obtain ⟨R1, e1, l1, k1⟩ := transformLeaf_ok A hB hSB hreg.1 hreg.2.2 hT
          obtain ⟨R, e, l2, k2⟩ := ih (L := L) (by omega) hL' (T := R1) (by rw [l1.length, hT])
          refine ⟨R, by rw [e1]; exact e, l2.trans l1, fun x hx hall => k2 x (k1 x hx ?_) ?_⟩
          · have ha := (midBox_interior hreg.2.2).inBox
            refine ⟨midBox b, ha, hall _ ?_ ⟨leaf b .in_, by simp, ha⟩⟩
            have := hlab (b, .in_) (by simp [TNode.leaves]) _ ha
            revert this
            cases SA (midBox b) <;> simp [TB.has]
          · rintro a h1 ⟨t, ht, h2⟩
            exact hall a h1 ⟨t, List.mem_cons_of_mem _ ht, h2⟩
        · obtain ⟨R, e, l2, k2⟩ := ih (L := L) (by omega) hL' hT
          refine ⟨R, e, l2, fun x hx hall => k2 x hx ?_⟩
          rintro a h1 ⟨t, ht, h2⟩
          exact hall a h1 ⟨t, List.mem_cons_of_mem _ ht, h2⟩
      | node b v l r =>
        simp only [List.map_cons, List.sum_cons, TNode.size] at hf
        rw [transformLoop]
        have hsum : ((L ++ [l, r]).map TNode.size).sum ≤ fuel := by
          simp only [List.map_append, List.map_cons, List.map_nil, List.sum_append, List.sum_cons, List.sum_nil]; omega
        obtain ⟨R, e, l2, k2⟩ := ih (L := L ++ [l, r]) hsum (by
          intro t ht
          simp only [List.mem_append, List.mem_cons, List.not_mem_nil, or_false] at ht
          rcases ht with ht | rfl | rfl
          · exact hL' t ht
          · exact ⟨hreg.2.2.1, fun p hp => hlab p (List.mem_append_left _ hp)⟩
          · exact ⟨hreg.2.2.2, fun p hp => hlab p (List.mem_append_right _ hp)⟩) hT
        refine ⟨R, e, l2, fun x hx hall => k2 x hx ?_⟩
        rintro a h1 ⟨t, ht, h2⟩
        simp only [List.mem_append, List.mem_cons, List.not_mem_nil, or_false] at ht
        rcases ht with ht | rfl | rfl
        · exact hall a h1 ⟨t, List.mem_cons_of_mem _ ht, h2⟩
        · exact hall a h1 ⟨_, List.mem_cons_self, (h2.of_le hreg.2.1.le.1 : InBox a b)⟩
        · exact hall a h1 ⟨_, List.mem_cons_self, (h2.of_le hreg.2.1.le.2 : InBox a b)⟩

/-! ### `Sivia` -/

/-- what is used of the bisector: a bounded box which is wider than `eps` is cut -/
def Cuts (eps : K) (bis : Box K → Box K × Box K) : Prop := ∀ X : Box K, Bnd X → maxDiamGt eps X = true → IsCut X (bis X).1 (bis X).2

theorem sivia_leaf (test : Box K → TB) (bis : Box K → Box K × Box K) (eps : K) (op : TB → TB → TB) (fuel : Nat) (b : Box K) (v : TB) :
    sivia test bis eps op (fuel + 1) (leaf b v) =
      if goOn eps b (newValue test eps op b v) then
        (sivia test bis eps op fuel (leaf (bis b).1 v)).bind fun l =>
          (sivia test bis eps op fuel (leaf (bis b).2 v)).bind fun r => some (node b (newValue test eps op b v) l r)
      else some (leaf b (newValue test eps op b v)) := rfl

theorem sivia_node (test : Box K → TB) (bis : Box K → Box K × Box K) (eps : K) (op : TB → TB → TB) (fuel : Nat) (b : Box K) (v : TB) (l r : TNode K) :
    sivia test bis eps op (fuel + 1) (node b v l r) =
      if goOn eps b (newValue test eps op b v) then
        (sivia test bis eps op fuel l).bind fun l' =>
          (sivia test bis eps op fuel r).bind fun r' => some (node b (newValue test eps op b v) l' r')
      else some (leaf b (newValue test eps op b v)) := rfl

theorem goOn_diam {eps : K} {b : Box K} {w : TB} (h : goOn eps b w = true) : maxDiamGt eps b = true := by
  unfold goOn at h
  rw [Bool.and_eq_true] at h
  exact h.2

/-- the tree after `Sivia`: same root box, regular, the labels follow, the leaves which are not decided are small -/
theorem sivia_ok {n : Nat} {test : Box K → TB} {bis : Box K → Box K × Box K} {eps : K} (hbis : Cuts eps bis) {op : TB → TB → TB}
    {Old New : List K → TB → Prop} (hstep : ∀ b v x, InBox x b → Old x v → New x (newValue test eps op b v)) {fuel : Nat} {t t' : TNode K}
    (hr : Regular n t) (hO : All (fun b v => ∀ x, InBox x b → Old x v) t) (h : sivia test bis eps op fuel t = some t') :
    t'.box = t.box ∧ Regular n t' ∧ All (fun b v => ∀ x, InBox x b → New x v) t' ∧
      ∀ p ∈ t'.leaves, p.2.isSingleton = true ∨ maxDiamGt eps p.1 = false := by
  induction fuel generalizing t t' with
  | zero => cases h
  | succ fuel ih =>
    have small : ∀ b v, goOn eps b (newValue test eps op b v) = false →
        ∀ p ∈ (leaf b (newValue test eps op b v)).leaves, p.2.isSingleton = true ∨ maxDiamGt eps p.1 = false := by
      intro b v hg p hp
      simp only [TNode.leaves, List.mem_cons, List.not_mem_nil, or_false] at hp
      subst hp
      unfold goOn at hg
      rw [Bool.and_eq_false_iff] at hg
      exact hg.imp_left (by simp)
    cases t with
    | leaf b v =>
      rw [sivia_leaf] at h
      by_cases hg : goOn eps b (newValue test eps op b v) = true
      · rw [if_pos hg] at h
        have hc := hbis b hr.2.1 (goOn_diam hg)
        have hs := hc.solid hr.2.2
        have hl := hc.le.1.length.trans hr.1
        have hl' := hc.le.2.length.trans hr.1
        cases e1 : sivia test bis eps op fuel (leaf (bis b).1 v) with
        | none => rw [e1] at h; cases h
        | some l =>
          cases e2 : sivia test bis eps op fuel (leaf (bis b).2 v) with
          | none => rw [e1, e2] at h; cases h
          | some r =>
            rw [e1, e2] at h
            obtain rfl := Option.some.inj h
            obtain ⟨i1, i2, i3, i4⟩ := ih (t := leaf (bis b).1 v) ⟨hl, bnd_of_le hc.le.1 hr.2.1, hs.1⟩ (fun x hx => hO x (hx.of_le hc.le.1)) e1
            obtain ⟨j1, j2, j3, j4⟩ := ih (t := leaf (bis b).2 v) ⟨hl', bnd_of_le hc.le.2 hr.2.1, hs.2⟩ (fun x hx => hO x (hx.of_le hc.le.2)) e2
            refine ⟨rfl, ⟨hr, by rw [i1, j1]; exact hc, i2, j2⟩, ⟨fun x hx => hstep b v x hx (hO x hx), i3, j3⟩, fun p hp => ?_⟩
            exact (List.mem_append.1 hp).elim (i4 p) (j4 p)
      · rw [if_neg hg] at h
        obtain rfl := Option.some.inj h
        exact ⟨rfl, hr, fun x hx => hstep b v x hx (hO x hx), small b v (by simpa using hg)⟩
    | node b v l r =>
      rw [sivia_node] at h
      by_cases hg : goOn eps b (newValue test eps op b v) = true
      · rw [if_pos hg] at h
        cases e1 : sivia test bis eps op fuel l with
        | none => rw [e1] at h; cases h
        | some l' =>
          cases e2 : sivia test bis eps op fuel r with
          | none => rw [e1, e2] at h; cases h
          | some r' =>
            rw [e1, e2] at h
            obtain rfl := Option.some.inj h
            obtain ⟨i1, i2, i3, i4⟩ := ih hr.2.2.1 hO.2.1 e1
            obtain ⟨j1, j2, j3, j4⟩ := ih hr.2.2.2 hO.2.2 e2
            refine ⟨rfl, ⟨hr.1, by rw [i1, j1]; exact hr.2.1, i2, j2⟩, ⟨fun x hx => hstep b v x hx (hO.1 x hx), i3, j3⟩, fun p hp => ?_⟩
            exact (List.mem_append.1 hp).elim (i4 p) (j4 p)
      · rw [if_neg hg] at h
        obtain rfl := Option.some.inj h
        exact ⟨rfl, hr.1, fun x hx => hstep b v x hx (hO.1 x hx), small b v (by simpa using hg)⟩

open Sivia in
theorem sivia_leaf_terminates [Archimedean K] {n : Nat} (hn : 0 < n) (test : Box K → TB)
    {bis : Box K → Box K × Box K} (hb : IsBis bis) {c : K} (hl : IsLargestFirst c bis) (hc0 : 0 ≤ c) (hc1 : c < 1) {eps : K} (he : 0 < eps)
    (op : TB → TB → TB) (k fuel : Nat) (hf : k < fuel) {b : Box K} {v : TB} (hi : b.length = n) (hbi : Bnd b) (hk : boxRank c eps b ≤ k) :
    ∃ t, sivia test bis eps op fuel (leaf b v) = some t := by
  induction k generalizing fuel b with
  | zero =>
    obtain ⟨fuel, rfl⟩ := Nat.exists_eq_succ_of_ne_zero (by omega : fuel ≠ 0)
    rw [sivia_leaf]
    by_cases hg : goOn eps b (newValue test eps op b v) = true
    · exfalso
      have hm := maxDiamLt_false (goOn_diam hg)
      have := (boxRank_bis hb hl hc0 hc1 he hbi hm).1
      omega
    · rw [if_neg hg]; exact ⟨_, rfl⟩
  | succ k ih =>
    obtain ⟨fuel, rfl⟩ := Nat.exists_eq_succ_of_ne_zero (by omega : fuel ≠ 0)
    rw [sivia_leaf]
    by_cases hg : goOn eps b (newValue test eps op b v) = true
    · rw [if_pos hg]
      have hm := maxDiamLt_false (goOn_diam hg)
      have hne := ne_nil_of_pos hn hi
      obtain ⟨r1, r2⟩ := boxRank_bis hb hl hc0 hc1 he hbi hm
      have b1 := (boxRank_mono hc0 hc1 he (hb.le₁ _ hne) hbi).2
      have b2 := (boxRank_mono hc0 hc1 he (hb.le₂ _ hne) hbi).2
      have l1 := (hb.le₁ _ hne).length.trans hi
      have l2 := (hb.le₂ _ hne).length.trans hi
      obtain ⟨t1, et1⟩ := ih fuel (by omega) l1 b1 (by omega)
      obtain ⟨t2, et2⟩ := ih fuel (by omega) l2 b2 (by omega)
      rw [et1, et2]
      exact ⟨_, rfl⟩
    · rw [if_neg hg]; exact ⟨_, rfl⟩

open Sivia in
theorem sivia_terminates [Archimedean K] {n : Nat} (hn : 0 < n) (test : Box K → TB)
    {bis : Box K → Box K × Box K} (hb : IsBis bis) {c : K} (hl : IsLargestFirst c bis) (hc0 : 0 ≤ c) (hc1 : c < 1) {eps : K} (he : 0 < eps)
    (op : TB → TB → TB) {t : TNode K} (ht : Regular n t) : ∃ N, ∀ fuel, N ≤ fuel → ∃ t', sivia test bis eps op fuel t = some t' := by
  induction t with
  | leaf b v =>
    exact ⟨boxRank c eps b + 1, fun fuel hf => sivia_leaf_terminates hn test hb hl hc0 hc1 he op _ fuel (by omega) ht.1 ht.2.1 le_rfl⟩
  | node b v l r ihl ihr =>
    obtain ⟨N1, g1⟩ := ihl ht.2.2.1
    obtain ⟨N2, g2⟩ := ihr ht.2.2.2
    refine ⟨max N1 N2 + 1, fun fuel hf => ?_⟩
    obtain ⟨fuel, rfl⟩ := Nat.exists_eq_succ_of_ne_zero (by omega : fuel ≠ 0)
    rw [sivia_node]
    obtain ⟨t1, e1⟩ := g1 fuel (by omega)
    obtain ⟨t2, e2⟩ := g2 fuel (by omega)
    split
    · rw [e1, e2]; exact ⟨_, rfl⟩
    · exact ⟨_, rfl⟩

/-- `LargestFirst` cuts -/
theorem isCut_set {X : Box K} {i : Nat} (hi : i < X.length) {m p q : K} (hp : p ∈ X.getD i ⊥) (hq : q ∈ X.getD i ⊥) (h1 : p < m) (h2 : m < q) :
    IsCut X (X.set i ((X.getD i ⊥).below m)) (X.set i ((X.getD i ⊥).above m)) := by
  induction X generalizing i with
  | nil => simp at hi
  | cons I X ih =>
    cases i with
    | zero => exact .here hp hq h1 h2
    | succ i => exact .there (ih (by simpa using hi) hp hq)

theorem largestFirst_isCut {ratio : K} (h0 : 0 < ratio) (h1 : ratio < 1) {eps : K} (he : 0 ≤ eps) : Cuts eps (largestFirst ratio) := by
  intro X hb hm
  unfold maxDiamGt at hm
  rw [Bool.not_eq_true', List.all_eq_false] at hm
  obtain ⟨I, hI, hd⟩ := hm
  have hX : X ≠ [] := by rintro rfl; simp at hI
  have hw : 0 < I.width := by
    have hu := hb I hI
    match I, hd, hu with
    | .empty, hd, _ => exact absurd (by simpa [diamLe] using he) hd
    | .mk (some a) (some b) _, hd, _ =>
      simp only [diamLe, decide_eq_true_eq, not_le] at hd
      simp only [Itv.width]
      linarith
    | .mk none _ _, _, hu => simp [Itv.isUnbounded] at hu
    | .mk (some _) none _, _, hu => simp [Itv.isUnbounded] at hu
  have hpos : 0 < (X.getD (largestIdx X) ⊥).width := lt_of_lt_of_le hw (largestIdx_max I hI)
  have key : ∃ p ∈ X.getD (largestIdx X) ⊥, ∃ q ∈ X.getD (largestIdx X) ⊥, p < (X.getD (largestIdx X) ⊥).cut ratio ∧ (X.getD (largestIdx X) ⊥).cut ratio < q := by
    generalize X.getD (largestIdx X) ⊥ = J at hpos
    match J, hpos with
    | .empty, hpos => simp [Itv.width] at hpos
    | .mk none _ _, hpos => simp [Itv.width] at hpos
    | .mk (some _) none _, hpos => simp [Itv.width] at hpos
    | .mk (some a) (some b) hab, hpos =>
      simp only [Itv.width] at hpos
      refine ⟨a, ⟨le_refl a, hab⟩, b, ⟨hab, le_refl b⟩, ?_, ?_⟩
      · have := mul_pos h0 hpos
        simp only [Itv.cut]; linarith
      · have := mul_lt_mul_of_pos_right h1 hpos
        simp only [Itv.cut]; linarith
  obtain ⟨p, hp, q, hq, e1, e2⟩ := key
  exact isCut_set (largestIdx_lt hX) hp hq e1 e2

/-! ### `erode` -/

/-- the test answers right on a box and on a point -/
def RightTest (S : List K → V3) (test : Box K → TB) : Prop := ∀ b x, InBox x b → (test b).has (S x) = true

theorem inBox_points (x : List K) : InBox x (x.map Itv.point) := by
  unfold InBox
  induction x with
  | nil => exact .nil
  | cons a x ih => exact .cons (Itv.mem_point.2 rfl) ih

theorem erode1_leaf (test : Box K → TB) (mid : Box K → List K) (bis : Box K → Box K × Box K) (eps : K) (fuel : Nat) (b : Box K) (v : TB) :
    erode1 test mid bis eps (fuel + 1) (leaf b v) =
      if (midValue test mid b).opUpper = .in_ then some (leaf b v, true)
      else if goOn eps b (test b).opUpper then
        (erode1 test mid bis eps fuel (leaf (bis b).1 v)).bind fun l =>
          (erode1 test mid bis eps fuel (leaf (bis b).2 v)).bind fun r => some (node b (test b) l.1 r.1, l.2 || r.2)
      else some (leaf b (test b), false) := rfl

theorem erode1_node (test : Box K → TB) (mid : Box K → List K) (bis : Box K → Box K × Box K) (eps : K) (fuel : Nat) (b : Box K) (v : TB) (l r : TNode K) :
    erode1 test mid bis eps (fuel + 1) (node b v l r) =
      if (midValue test mid b).opUpper = .in_ then some (node b v l r, true)
      else if goOn eps b (test b).opUpper then
        (erode1 test mid bis eps fuel l).bind fun l => (erode1 test mid bis eps fuel r).bind fun r => some (node b (test b) l.1 r.1, l.2 || r.2)
      else some (leaf b (test b), false) := rfl

theorem erode1_ok {n : Nat} {S : List K → V3} {test : Box K → TB} (ht : RightTest S test) {mid : Box K → List K} {bis : Box K → Box K × Box K} {eps : K}
    (hbis : Cuts eps bis) {fuel : Nat} {t : TNode K} {p : TNode K × Bool} (hr : Regular n t) (h : erode1 test mid bis eps fuel t = some p)
    (hp : p.2 = false) : p.1.box = t.box ∧ Regular n p.1 ∧ Right S p.1 := by
  induction fuel generalizing t p with
  | zero => cases h
  | succ fuel ih =>
    cases t with
    | leaf b v =>
      rw [erode1_leaf] at h
      split at h
      · obtain rfl := Option.some.inj h; cases hp
      · split at h
        · rename_i hg
          have hc := hbis b hr.2.1 (goOn_diam hg)
          have hs := hc.solid hr.2.2
          cases e1 : erode1 test mid bis eps fuel (leaf (bis b).1 v) with
          | none => rw [e1] at h; cases h
          | some l =>
            cases e2 : erode1 test mid bis eps fuel (leaf (bis b).2 v) with
            | none => rw [e1, e2] at h; cases h
            | some r =>
              rw [e1, e2] at h
              obtain rfl := Option.some.inj h
              have hp' : l.2 = false ∧ r.2 = false := by simpa using hp
              obtain ⟨i1, i2, i3⟩ := ih (t := leaf (bis b).1 v) ⟨hc.le.1.length.trans hr.1, bnd_of_le hc.le.1 hr.2.1, hs.1⟩ e1 hp'.1
              obtain ⟨j1, j2, j3⟩ := ih (t := leaf (bis b).2 v) ⟨hc.le.2.length.trans hr.1, bnd_of_le hc.le.2 hr.2.1, hs.2⟩ e2 hp'.2
              exact ⟨rfl, ⟨hr, by rw [i1, j1]; exact hc, i2, j2⟩, fun x hx => ht b x hx, i3, j3⟩
        · obtain rfl := Option.some.inj h
          exact ⟨rfl, hr, fun x hx => ht b x hx⟩
    | node b v l r =>
      rw [erode1_node] at h
      split at h
      · obtain rfl := Option.some.inj h; cases hp
      · split at h
        · cases e1 : erode1 test mid bis eps fuel l with
          | none => rw [e1] at h; cases h
          | some l' =>
            cases e2 : erode1 test mid bis eps fuel r with
            | none => rw [e1, e2] at h; cases h
            | some r' =>
              rw [e1, e2] at h
              obtain rfl := Option.some.inj h
              have hp' : l'.2 = false ∧ r'.2 = false := by simpa using hp
              obtain ⟨i1, i2, i3⟩ := ih hr.2.2.1 e1 hp'.1
              obtain ⟨j1, j2, j3⟩ := ih hr.2.2.2 e2 hp'.2
              exact ⟨rfl, ⟨hr.1, by rw [i1, j1]; exact hr.2.1, i2, j2⟩, fun x hx => ht b x hx, i3, j3⟩
        · obtain rfl := Option.some.inj h
          exact ⟨rfl, hr.1, fun x hx => ht b x hx⟩

theorem eq_yes {s : V3} (h : TB.in_.has s = true) : s = .yes := by revert h; cases s <;> simp [TB.has]
theorem eq_no {s : V3} (h : TB.out.has s = true) : s = .no := by revert h; cases s <;> simp [TB.has]
theorem opLower_in {w : TB} (h : w.opLower = .in_) : w = .in_ := by revert h; cases w <;> decide

theorem erode2_ok {n : Nat} {S : List K → V3} {test : Box K → TB} (ht : RightTest S test) {mid : Box K → List K}
    (hmid : ∀ b, b.length = n → Bnd b → Solid b → InBox (mid b) b) {bis : Box K → Box K × Box K} {eps : K} (hbis : Cuts eps bis) {fuel : Nat} {b : Box K}
    (hb : b.length = n ∧ Bnd b ∧ Solid b) (h : erode2 test mid bis eps fuel b = some true) : ∃ x, InBox x b ∧ S x = .yes := by
  induction fuel generalizing b with
  | zero => cases h
  | succ fuel ih =>
    rw [erode2] at h
    split at h
    · rename_i hc
      have hm := hmid b hb.1 hb.2.1 hb.2.2
      refine ⟨mid b, hm, eq_yes ?_⟩
      rcases hc with hc | hc
      · rw [← hc]; exact ht b _ hm
      · have := opLower_in hc
        rw [← this]
        unfold midValue
        split
        · exact ht b _ hm
        · exact ht _ _ (inBox_points _)
    · split at h
      · rename_i hg
        have hc := hbis b hb.2.1 (goOn_diam hg)
        have hs := hc.solid hb.2.2
        cases e1 : erode2 test mid bis eps fuel (bis b).1 with
        | none => rw [e1] at h; cases h
        | some x =>
          cases e2 : erode2 test mid bis eps fuel (bis b).2 with
          | none => rw [e1, e2] at h; cases h
          | some y =>
            rw [e1, e2] at h
            have hxy : (x || y) = true := Option.some.inj h
            cases x with
            | true =>
              obtain ⟨z, hz, hy⟩ := ih ⟨hc.le.1.length.trans hb.1, bnd_of_le hc.le.1 hb.2.1, hs.1⟩ e1
              exact ⟨z, hz.of_le hc.le.1, hy⟩
            | false =>
              have : y = true := by simpa using hxy
              subst this
              obtain ⟨z, hz, hy⟩ := ih ⟨hc.le.2.length.trans hb.1, bnd_of_le hc.le.2 hb.2.1, hs.2⟩ e2
              exact ⟨z, hz.of_le hc.le.2, hy⟩
      · cases h

open Sivia in
theorem erode2_terminates [Archimedean K] {n : Nat} (hn : 0 < n) (test : Box K → TB) (mid : Box K → List K)
    {bis : Box K → Box K × Box K} (hb : IsBis bis) {c : K} (hl : IsLargestFirst c bis) (hc0 : 0 ≤ c) (hc1 : c < 1) {eps : K} (he : 0 < eps)
    (k fuel : Nat) (hf : k < fuel) {b : Box K} (hi : b.length = n) (hbi : Bnd b) (hk : boxRank c eps b ≤ k) :
    ∃ t, erode2 test mid bis eps fuel b = some t := by
  induction k generalizing fuel b with
  | zero =>
    obtain ⟨fuel, rfl⟩ := Nat.exists_eq_succ_of_ne_zero (by omega : fuel ≠ 0)
    rw [erode2]
    split
    · exact ⟨_, rfl⟩
    · by_cases hg : goOn eps b (test b).opLower = true
      · exfalso
        have := (boxRank_bis hb hl hc0 hc1 he hbi (maxDiamLt_false (goOn_diam hg))).1
        omega
      · rw [if_neg hg]; exact ⟨_, rfl⟩
  | succ k ih =>
    obtain ⟨fuel, rfl⟩ := Nat.exists_eq_succ_of_ne_zero (by omega : fuel ≠ 0)
    rw [erode2]
    split
    · exact ⟨_, rfl⟩
    · by_cases hg : goOn eps b (test b).opLower = true
      · rw [if_pos hg]
        have hne := ne_nil_of_pos hn hi
        obtain ⟨r1, r2⟩ := boxRank_bis hb hl hc0 hc1 he hbi (maxDiamLt_false (goOn_diam hg))
        have b1 := (boxRank_mono hc0 hc1 he (hb.le₁ _ hne) hbi).2
        have b2 := (boxRank_mono hc0 hc1 he (hb.le₂ _ hne) hbi).2
        obtain ⟨t1, et1⟩ := ih fuel (by omega) ((hb.le₁ _ hne).length.trans hi) b1 (by omega)
        obtain ⟨t2, et2⟩ := ih fuel (by omega) ((hb.le₂ _ hne).length.trans hi) b2 (by omega)
        rw [et1, et2]
        exact ⟨_, rfl⟩
      · rw [if_neg hg]; exact ⟨_, rfl⟩

open Sivia in
theorem erode1_leaf_terminates [Archimedean K] {n : Nat} (hn : 0 < n) (test : Box K → TB) (mid : Box K → List K)
    {bis : Box K → Box K × Box K} (hb : IsBis bis) {c : K} (hl : IsLargestFirst c bis) (hc0 : 0 ≤ c) (hc1 : c < 1) {eps : K} (he : 0 < eps)
    (k fuel : Nat) (hf : k < fuel) {b : Box K} {v : TB} (hi : b.length = n) (hbi : Bnd b) (hk : boxRank c eps b ≤ k) :
    ∃ t, erode1 test mid bis eps fuel (leaf b v) = some t := by
  induction k generalizing fuel b with
  | zero =>
    obtain ⟨fuel, rfl⟩ := Nat.exists_eq_succ_of_ne_zero (by omega : fuel ≠ 0)
    rw [erode1_leaf]
    split
    · exact ⟨_, rfl⟩
    · by_cases hg : goOn eps b (test b).opUpper = true
      · exfalso
        have := (boxRank_bis hb hl hc0 hc1 he hbi (maxDiamLt_false (goOn_diam hg))).1
        omega
      · rw [if_neg hg]; exact ⟨_, rfl⟩
  | succ k ih =>
    obtain ⟨fuel, rfl⟩ := Nat.exists_eq_succ_of_ne_zero (by omega : fuel ≠ 0)
    rw [erode1_leaf]
    split
    · exact ⟨_, rfl⟩
    · by_cases hg : goOn eps b (test b).opUpper = true
      · rw [if_pos hg]
        have hne := ne_nil_of_pos hn hi
        obtain ⟨r1, r2⟩ := boxRank_bis hb hl hc0 hc1 he hbi (maxDiamLt_false (goOn_diam hg))
        have b1 := (boxRank_mono hc0 hc1 he (hb.le₁ _ hne) hbi).2
        have b2 := (boxRank_mono hc0 hc1 he (hb.le₂ _ hne) hbi).2
        obtain ⟨t1, et1⟩ := ih fuel (by omega) ((hb.le₁ _ hne).length.trans hi) b1 (by omega)
        obtain ⟨t2, et2⟩ := ih fuel (by omega) ((hb.le₂ _ hne).length.trans hi) b2 (by omega)
        rw [et1, et2]
        exact ⟨_, rfl⟩
      · rw [if_neg hg]; exact ⟨_, rfl⟩

open Sivia in
theorem erode1_terminates [Archimedean K] {n : Nat} (hn : 0 < n) (test : Box K → TB) (mid : Box K → List K)
    {bis : Box K → Box K × Box K} (hb : IsBis bis) {c : K} (hl : IsLargestFirst c bis) (hc0 : 0 ≤ c) (hc1 : c < 1) {eps : K} (he : 0 < eps)
    {t : TNode K} (ht : Regular n t) : ∃ N, ∀ fuel, N ≤ fuel → ∃ p, erode1 test mid bis eps fuel t = some p := by
  induction t with
  | leaf b v =>
    exact ⟨boxRank c eps b + 1, fun fuel hf => erode1_leaf_terminates hn test mid hb hl hc0 hc1 he _ fuel (by omega) ht.1 ht.2.1 le_rfl⟩
  | node b v l r ihl ihr =>
    obtain ⟨N1, g1⟩ := ihl ht.2.2.1
    obtain ⟨N2, g2⟩ := ihr ht.2.2.2
    refine ⟨max N1 N2 + 1, fun fuel hf => ?_⟩
    obtain ⟨fuel, rfl⟩ := Nat.exists_eq_succ_of_ne_zero (by omega : fuel ≠ 0)
    rw [erode1_node]
    obtain ⟨t1, e1⟩ := g1 fuel (by omega)
    obtain ⟨t2, e2⟩ := g2 fuel (by omega)
    split
    · exact ⟨_, rfl⟩
    · split
      · rw [e1, e2]; exact ⟨_, rfl⟩
      · exact ⟨_, rfl⟩

end Codac.TPav
