import Verif.Thick.PavingInter
import Verif.Thick.PavingProofs
import Mathlib.Data.List.Sort

/-!
# Proofs about the value of a thick box in a thick paving
-/

set_option linter.unusedSectionVars false

namespace Codac.TPav

open SPav TNode

variable {K : Type*} [Field K] [LinearOrder K] [IsStrictOrderedRing K]

theorem insideLoop_some (X : Box K) {fuel : Nat} {L : List (TNode K)} {res : TB} {lst : List (Box K × TB)} (h : (L.map TNode.size).sum ≤ fuel) :
    ∃ r, insideLoop X fuel L res lst = some r := by
  induction fuel generalizing L res lst with
  | zero =>
    cases L with
    | nil => exact ⟨_, rfl⟩
    | cons t L =>
      have := size_pos t
      simp only [List.map_cons, List.sum_cons] at h
      omega
  | succ k ih =>
    cases L with
    | nil => exact ⟨_, rfl⟩
    | cons t L =>
      have := size_pos t
      simp only [List.map_cons, List.sum_cons] at h
      cases t with
      | leaf b v =>
        rw [insideLoop]
        split <;> exact ih (by omega)
      | node b v l r =>
        rw [insideLoop]
        simp only [TNode.size] at h
        split
        · exact ih (by omega)
        · exact ih (by simp only [List.map_append, List.sum_append, List.map_cons, List.map_nil, List.sum_cons, List.sum_nil]; omega)

/-- the union of the labels of a list of leaves -/
def unionOf (lst : List (Box K × TB)) (res : TB) : TB := lst.foldl (fun res p => res.opUnion p.2) res

theorem unionOf_append (l : List (Box K × TB)) (p : Box K × TB) (res : TB) : unionOf (l ++ [p]) res = (unionOf l res).opUnion p.2 := by
  unfold unionOf; rw [List.foldl_append]; rfl

theorem unionOf_has {l : List (Box K × TB)} {res : TB} {s : V3} (h : res.has s = true ∨ ∃ p ∈ l, p.2.has s = true) : (unionOf l res).has s = true := by
  induction l generalizing res with
  | nil => simpa [unionOf] using h
  | cons q l ih =>
    unfold unionOf
    rw [List.foldl_cons]
    apply ih
    rcases h with h | ⟨p, hp, h⟩
    · exact .inl (TB.union_left h)
    · rcases List.mem_cons.1 hp with rfl | hp
      · exact .inl (TB.union_right h)
      · exact .inr ⟨p, hp, h⟩

theorem insideLoop_ok {n : Nat} {X : Box K} {fuel : Nat} {L : List (TNode K)} {res : TB} {lst : List (Box K × TB)} {r : TB × List (Box K × TB)}
    (hL : ∀ t ∈ L, Regular n t) (h : insideLoop X fuel L res lst = some r) (hres : res = unionOf lst .empty) :
    r.1 = unionOf r.2 .empty ∧ (∀ p ∈ r.2, p ∈ lst ∨ ∃ t ∈ L, p ∈ t.leaves ∧ isFlat (p.1.inter X) = false) ∧
      ∀ x, ((∃ p ∈ lst, InBox x p.1) ∨ ∃ t ∈ L, Fat t.box X x) → ∃ p ∈ r.2, InBox x p.1 := by
  induction fuel generalizing L res lst with
  | zero =>
    cases L with
    | nil =>
      cases h
      exact ⟨hres, fun p hp => .inl hp, fun x hx => hx.resolve_right (by simp)⟩
    | cons t L => cases h
  | succ k ih =>
    cases L with
    | nil =>
      cases h
      exact ⟨hres, fun p hp => .inl hp, fun x hx => hx.resolve_right (by simp)⟩
    | cons t L =>
      have hL' : ∀ t ∈ L, Regular n t := fun t ht => hL t (List.mem_cons_of_mem _ ht)
      cases t with
      | leaf b v =>
        rw [insideLoop] at h
        by_cases hf : isFlat (b.inter X) = true
        · rw [if_pos hf] at h
          obtain ⟨a1, a2, a3⟩ := ih hL' h hres
          refine ⟨a1, fun p hp => (a2 p hp).imp_right fun ⟨t, h1, h2⟩ => ⟨t, List.mem_cons_of_mem _ h1, h2⟩, fun x hx => a3 x (hx.imp_right ?_)⟩
          rintro ⟨t, h1, h2⟩
          rcases List.mem_cons.1 h1 with rfl | h1
          · have := (fat_iff.1 h2).1; simp only [TNode.box] at this; rw [hf] at this; cases this
          · exact ⟨t, h1, h2⟩
        · rw [if_neg hf] at h
          obtain ⟨a1, a2, a3⟩ := ih hL' h (by rw [unionOf_append, hres])
          refine ⟨a1, fun p hp => ?_, fun x hx => a3 x ?_⟩
          · rcases a2 p hp with h1 | ⟨t, h1, h2⟩
            · rcases List.mem_append.1 h1 with h1 | h1
              · exact .inl h1
              · exact .inr ⟨leaf b v, by simp, by simpa [TNode.leaves] using h1, by
                  simp only [List.mem_cons, List.not_mem_nil, or_false] at h1; subst h1; simpa using hf⟩
            · exact .inr ⟨t, List.mem_cons_of_mem _ h1, h2⟩
          · rcases hx with ⟨p, hp, hx⟩ | ⟨t, h1, h2⟩
            · exact .inl ⟨p, List.mem_append_left _ hp, hx⟩
            · rcases List.mem_cons.1 h1 with rfl | h1
              · exact .inl ⟨(b, v), by simp, (fat_inBox h2).1⟩
              · exact .inr ⟨t, h1, h2⟩
      | node b v l r' =>
        have hn := hL (node b v l r') (by simp)
        rw [insideLoop] at h
        by_cases hf : isFlat (b.inter X) = true
        · rw [if_pos hf] at h
          obtain ⟨a1, a2, a3⟩ := ih hL' h hres
          refine ⟨a1, fun p hp => (a2 p hp).imp_right fun ⟨t, h1, h2⟩ => ⟨t, List.mem_cons_of_mem _ h1, h2⟩, fun x hx => a3 x (hx.imp_right ?_)⟩
          rintro ⟨t, h1, h2⟩
          rcases List.mem_cons.1 h1 with rfl | h1
          · have := (fat_iff.1 h2).1; simp only [TNode.box] at this; rw [hf] at this; cases this
          · exact ⟨t, h1, h2⟩
        · rw [if_neg hf] at h
          obtain ⟨a1, a2, a3⟩ := ih (L := L ++ [l, r']) (fun t ht => by
            rcases List.mem_append.1 ht with ht | ht
            · exact hL' t ht
            · simp only [List.mem_cons, List.not_mem_nil, or_false] at ht
              rcases ht with rfl | rfl
              · exact hn.2.2.1
              · exact hn.2.2.2) h hres
          refine ⟨a1, fun p hp => ?_, fun x hx => a3 x (hx.imp_right ?_)⟩
          · rcases a2 p hp with h1 | ⟨t, h1, h2⟩
            · exact .inl h1
            · rcases List.mem_append.1 h1 with h1 | h1
              · exact .inr ⟨t, List.mem_cons_of_mem _ h1, h2⟩
              · refine .inr ⟨node b v l r', by simp, ?_⟩
                simp only [List.mem_cons, List.not_mem_nil, or_false] at h1
                simp only [TNode.leaves, List.mem_append]
                rcases h1 with rfl | rfl
                · exact ⟨.inl h2.1, h2.2⟩
                · exact ⟨.inr h2.1, h2.2⟩
          · rintro ⟨t, h1, h2⟩
            rcases List.mem_cons.1 h1 with rfl | h1
            · rcases hn.2.1.fat h2 with h3 | h3
              · exact ⟨l, by simp, h3⟩
              · exact ⟨r', by simp, h3⟩
            · exact ⟨t, List.mem_append_left _ h1, h2⟩

/-- the leaves found by `Inside2`, when a point of the paved box is in the box and their intersection is not flat -/
theorem inside2_ok {n : Nat} {S : List K → V3} {t : TNode K} (hr : Regular n t) (hS : RightLeaves S t) (X : Box K) :
    ∃ r, inside2 t X = some r ∧ (∀ p ∈ r.2, p ∈ t.leaves ∧ isFlat (p.1.inter X) = false) ∧ (∀ x, InBox x t.box → InBox x X → isFlat (t.box.inter X) = false → r.1.has (S x) = true) ∧
      (r.1.isSingleton = false → r.1 = unionOf r.2 .empty) := by
  obtain ⟨r, e⟩ := insideLoop_some X (fuel := t.size) (L := [t]) (res := .empty) (lst := []) (by simp)
  obtain ⟨a1, a2, a3⟩ := insideLoop_ok (n := n) (by simpa using hr) e rfl
  have hl : ∀ p ∈ r.2, p ∈ t.leaves ∧ isFlat (p.1.inter X) = false := fun p hp => by simpa using a2 p hp
  refine ⟨(if r.1 = .empty then .out else r.1, r.2), by unfold inside2; rw [e]; rfl, hl, fun x h1 h2 hf => ?_, fun h => ?_⟩
  · obtain ⟨p, hp, hx⟩ := a3 x (.inr ⟨t, by simp, fat_iff.2 ⟨hf, h1, h2⟩⟩)
    have : r.1.has (S x) = true := by rw [a1]; exact unionOf_has (.inr ⟨p, hp, hS p (hl p hp).1 x hx⟩)
    have hne : r.1 ≠ .empty := by rintro e; rw [e] at this; cases S x <;> cases this
    simp only [if_neg hne]; exact this
  · by_cases he : r.1 = .empty
    · simp only [if_pos he] at h; cases h
    · simp only [if_neg he]; exact a1

/-- what `Interval::diff` (IBEX) is used for: the two intervals contain the points of the first one which are not in the second one -/
def DiffCovers (diff : Itv K → Itv K → Itv K × Itv K) : Prop := ∀ I J x, x ∈ I → x ∉ J → x ∈ (diff I J).1 ∨ x ∈ (diff I J).2

theorem coverLoop_ok {diff : Itv K → Itv K → Itv K × Itv K} (hd : DiffCovers diff) {I : Itv K} {l : List (Itv K)} (h : coverLoop diff I l = true)
    {x : K} (hx : x ∈ I) : ∃ J ∈ l, x ∈ J := by
  induction l generalizing I with
  | nil => rw [coverLoop, Itv.isEmpty_iff] at h; exact absurd h (Itv.ne_bot_of_mem hx)
  | cons J l ih =>
    rw [coverLoop, if_neg (by rw [Itv.isEmpty_iff]; exact Itv.ne_bot_of_mem hx)] at h
    by_cases hJ : x ∈ J
    · exact ⟨J, by simp, hJ⟩
    · obtain ⟨J', h1, h2⟩ := ih h (by
        rcases hd I J x hx hJ with h3 | h3
        · exact Itv.mem_sup_left (Itv.mem_inf.2 ⟨hx, h3⟩)
        · exact Itv.mem_sup_right (Itv.mem_inf.2 ⟨hx, h3⟩))
      exact ⟨J', List.mem_cons_of_mem _ h1, h2⟩

theorem projInclude_ok {diff : Itv K → Itv K → Itv K × Itv K} (hd : DiffCovers diff) {X : Box K} {lst : List (Box K)} {i : Nat}
    (h : projInclude diff X lst i = true) {c : K} (hc : c ∈ X.getD i ⊥) : ∃ b ∈ lst, c ∈ b.getD i ⊥ := by
  unfold projInclude at h
  by_cases he : lst.isEmpty = true
  · rw [if_pos he] at h; cases h
  · rw [if_neg he] at h
    obtain ⟨J, h1, h2⟩ := coverLoop_ok hd h hc
    rw [List.mem_insertionSort, List.mem_map] at h1
    obtain ⟨b, h1, rfl⟩ := h1
    exact ⟨b, h1, h2⟩

/-- the box of the two corners contains the point -/
def Between (a b x : List K) : Prop := List.Forall₂ (· ≤ ·) a x ∧ List.Forall₂ (· ≤ ·) x b

theorem inBox_set_getD {v : List K} {X : Box K} (h : InBox v X) {i : Nat} {c : K} (hc : c ∈ X.getD i ⊥) : InBox (v.set i c) X := by
  unfold InBox at *
  induction h generalizing i with
  | nil => exact .nil
  | cons h1 h2 ih =>
    cases i with
    | zero => exact .cons (by simpa using hc) h2
    | succ i => exact .cons h1 (ih (by simpa using hc))

/-- between two corners, in a direction where the two intervals meet -/
theorem exists_crossing {I J : Itv K} {a b w : K} (ha : a ∈ I) (hb : b ∈ J) (hab : a ≤ b) (hw : w ∈ I ⊓ J) : ∃ c, c ∈ I ⊓ J ∧ a ≤ c ∧ c ≤ b := by
  obtain ⟨w1, w2⟩ := Itv.mem_inf.1 hw
  by_cases h1 : w < a
  · exact ⟨a, Itv.mem_inf.2 ⟨ha, Itv.mem_of_between w2 hb h1.le hab⟩, le_rfl, hab⟩
  · by_cases h2 : b < w
    · exact ⟨b, Itv.mem_inf.2 ⟨Itv.mem_of_between ha w1 hab h2.le, hb⟩, hab, le_rfl⟩
    · exact ⟨w, hw, not_lt.1 h1, not_lt.1 h2⟩

theorem innerItv_thin {I J : Itv K} (h : (I ⊓ J).isEmpty = true) {a b x : K} (ha : a ∈ I) (hb : b ∈ J) (hx : x ∈ innerItv I J) : a ≤ x ∧ x ≤ b := by
  unfold innerItv at hx
  rw [if_pos h] at hx
  have h1 := ThickItv.mem_lbHi ha
  have h2 := ThickItv.mem_ubLo hb
  cases e1 : I.ub? with
  | none => simp only [e1] at hx; exact hx.elim
  | some u =>
    cases e2 : J.lb? with
    | none => simp only [e1, e2] at hx; exact hx.elim
    | some l =>
      simp only [e1, e2] at hx
      rw [Itv.mem_icc] at hx
      rw [e1] at h1
      rw [e2] at h2
      exact ⟨le_trans h1 hx.1, le_trans hx.2 h2⟩

theorem between_set {a b v : List K} {Xm Xp : Box K} (ha : InBox a Xm) (hb : InBox b Xp) (hab : List.Forall₂ (· ≤ ·) a b)
    (hv : InBox v (List.zipWith innerItv Xm Xp)) {i : Nat} (ho : ∀ j, j ≠ i → (Xm.getD j ⊥ ⊓ Xp.getD j ⊥).isEmpty = true) {c : K}
    (h1 : ∀ x : K, a[i]? = some x → x ≤ c) (h2 : ∀ x : K, b[i]? = some x → c ≤ x) : Between a b (v.set i c) := by
  unfold InBox at ha hb hv
  induction hab generalizing Xm Xp v i with
  | nil =>
    cases ha; cases hb
    cases hv
    exact ⟨.nil, .nil⟩
  | @cons x y a b hxy hab ih =>
    cases ha with
    | @cons _ I _ Xm ha1 ha2 =>
      cases hb with
      | @cons _ J _ Xp hb1 hb2 =>
        rw [List.zipWith_cons_cons] at hv
        cases hv with
        | @cons z _ v _ hv1 hv2 =>
          cases i with
          | zero =>
            -- the other directions are thin
            have key : Between a b v := by
              clear ih h1 h2 hxy ha1 hb1 hv1
              have ho' : ∀ j, (Xm.getD j ⊥ ⊓ Xp.getD j ⊥).isEmpty = true := fun j => by simpa using ho (j + 1) (by omega)
              clear ho
              induction hab generalizing Xm Xp v with
              | nil => cases ha2; cases hb2; cases hv2; exact ⟨.nil, .nil⟩
              | cons hxy hab ih =>
                cases ha2 with
                | cons ha1 ha2 =>
                  cases hb2 with
                  | cons hb1 hb2 =>
                    rw [List.zipWith_cons_cons] at hv2
                    cases hv2 with
                    | cons hv1 hv2 =>
                      obtain ⟨k1, k2⟩ := ih ha2 hb2 hv2 fun j => by simpa using ho' (j + 1)
                      obtain ⟨q1, q2⟩ := innerItv_thin (by simpa using ho' 0) ha1 hb1 hv1
                      exact ⟨.cons q1 k1, .cons q2 k2⟩
            exact ⟨.cons (h1 x (by simp)) key.1, .cons (h2 y (by simp)) key.2⟩
          | succ i =>
            obtain ⟨k1, k2⟩ := ih ha2 hb2 hv2 (i := i) (fun j hj => by simpa using ho (j + 1) (by omega)) (fun x hx => h1 x (by simpa using hx))
              fun x hx => h2 x (by simpa using hx)
            obtain ⟨q1, q2⟩ := innerItv_thin (by simpa using ho 0 (by omega)) ha1 hb1 hv1
            exact ⟨.cons q1 k1, .cons q2 k2⟩

theorem exists_crossing_at {a b : List K} {Xm Xp : Box K} (ha : InBox a Xm) (hb : InBox b Xp) (hab : List.Forall₂ (· ≤ ·) a b) {i : Nat}
    (hi : (Xm.getD i ⊥ ⊓ Xp.getD i ⊥).isEmpty = false) :
    ∃ c, c ∈ (List.zipWith innerItv Xm Xp).getD i ⊥ ∧ (∀ x : K, a[i]? = some x → x ≤ c) ∧ (∀ x : K, b[i]? = some x → c ≤ x) := by
  unfold InBox at ha hb
  induction hab generalizing Xm Xp i with
  | nil => cases ha; cases hb; simp [Itv.isEmpty] at hi
  | @cons x y a b hxy hab ih =>
    cases ha with
    | @cons _ I _ Xm ha1 ha2 =>
      cases hb with
      | @cons _ J _ Xp hb1 hb2 =>
        cases i with
        | zero =>
          simp only [List.getD_cons_zero] at hi
          obtain ⟨w, hw⟩ := Itv.exists_mem (Itv.isEmpty_false_iff.mp hi)
          obtain ⟨c, c1, c2, c3⟩ := exists_crossing ha1 hb1 hxy hw
          refine ⟨c, ?_, fun z hz => ?_, fun z hz => ?_⟩
          · rw [List.zipWith_cons_cons, List.getD_cons_zero]
            unfold innerItv
            rw [hi]
            exact c1
          · simp at hz; exact hz ▸ c2
          · simp at hz; exact hz ▸ c3
        | succ i =>
          obtain ⟨c, c1, c2, c3⟩ := ih ha2 hb2 (i := i) (by simpa using hi)
          exact ⟨c, by simpa using c1, fun z hz => c2 z (by simpa using hz), fun z hz => c3 z (by simpa using hz)⟩

/-- at most one direction in which the two boxes meet -/
def OneCrossing (Xm Xp : Box K) : Prop :=
  ∀ i j : Nat, (Xm.getD i ⊥ ⊓ Xp.getD i ⊥).isEmpty = false → (Xm.getD j ⊥ ⊓ Xp.getD j ⊥).isEmpty = false → i = j

theorem exists_of_inter {X Y : Box K} (h : (X.inter Y).isEmpty = false) : ∃ v, InBox v (X.inter Y) := by
  cases X with
  | nil => exact ⟨[], by unfold Box.inter; split <;> [exact .nil; split <;> exact .nil]⟩
  | cons I X =>
    unfold Box.inter at h ⊢
    by_cases h1 : (Box.isEmpty (I :: X) || Y.isEmpty) = true
    · rw [if_pos h1] at h; simp [Box.setEmpty, Box.empty, Box.isEmpty, List.replicate_succ, Itv.isEmpty] at h
    · rw [if_neg h1] at h ⊢
      by_cases h2 : (List.zipWith (· ⊓ ·) (I :: X) Y).any Itv.isEmpty = true
      · rw [if_pos h2] at h; simp [Box.setEmpty, Box.empty, Box.isEmpty, List.replicate_succ, Itv.isEmpty] at h
      · rw [if_neg h2]
        rw [Bool.not_eq_true, List.any_eq_false] at h2
        generalize List.zipWith (· ⊓ ·) (I :: X) Y = Z at h2
        clear h1 h
        induction Z with
        | nil => exact ⟨[], .nil⟩
        | cons J Z ih =>
          obtain ⟨v, hv⟩ := ih fun J hJ => h2 J (List.mem_cons_of_mem _ hJ)
          obtain ⟨c, hc⟩ := Itv.exists_mem (Itv.isEmpty_false_iff.mp (Bool.not_eq_true _ ▸ h2 J (by simp)))
          exact ⟨c :: v, .cons hc hv⟩

/-- the projections: in each member there is a point of one of the boxes of the list -/
theorem proj_meets {diff : Itv K → Itv K → Itv K × Itv K} (hd : DiffCovers diff) {Xm Xp : Box K} (hone : OneCrossing Xm Xp) {i : Nat}
    (hi : (Xm.getD i ⊥ ⊓ Xp.getD i ⊥).isEmpty = false) {lst : List (Box K)} (h : projInclude diff (innerBox Xm Xp) lst i = true)
    (hne : ∀ q ∈ lst, BoxLe q (innerBox Xm Xp) ∧ ∃ v, InBox v q)
    {a b : List K} (ha : InBox a Xm) (hb : InBox b Xp) (hab : List.Forall₂ (· ≤ ·) a b) :
    ∃ q ∈ lst, ∃ x, InBox x q ∧ Between a b x := by
  obtain ⟨c, c1, c2, c3⟩ := exists_crossing_at ha hb hab hi
  obtain ⟨q, hq, hc⟩ := projInclude_ok hd h c1
  obtain ⟨hle, v, hv⟩ := hne q hq
  refine ⟨q, hq, v.set i c, inBox_set_getD hv hc, between_set ha hb hab (hv.of_le hle) (fun j hj => ?_) c2 c3⟩
  by_contra hc'
  rw [Bool.not_eq_true] at hc'
  exact hj (hone j i hc' hi)

/-- specification: the value of the box of corners `a`, `b` for a thick set: in the subset, out of the superset, or neither -/
def BoxValue (S : List K → V3) (a b : List K) : V3 → Prop
  | .yes => ∀ x, Between a b x → S x = .yes
  | .no => ∀ x, Between a b x → S x = .no
  | .maybe => (∃ x, Between a b x ∧ S x ≠ .yes) ∧ ∃ x, Between a b x ∧ S x ≠ .no

theorem between_left {a b : List K} (h : List.Forall₂ (· ≤ ·) a b) : Between a b a := ⟨List.forall₂_same.2 fun _ _ => le_rfl, h⟩

theorem has_of_all {S : List K → V3} {a b : List K} (hab : List.Forall₂ (· ≤ ·) a b) {r : TB} (h : ∀ x, Between a b x → r.has (S x) = true) {v : V3}
    (hv : BoxValue S a b v) : r.has v = true := by
  have h0 := h a (between_left hab)
  cases v with
  | yes => rw [← hv a (between_left hab)]; exact h0
  | no => rw [← hv a (between_left hab)]; exact h0
  | maybe =>
    obtain ⟨⟨x, x1, x2⟩, y, y1, y2⟩ := hv
    have hx := h x x1
    have hy := h y y1
    revert hx hy x2 y2
    generalize S x = s
    generalize S y = u
    cases r <;> cases s <;> cases u <;> simp [TB.has]

theorem fromBools_has {S : List K → V3} {a b : List K} {i o : Bool} (hi : i = true → ∃ x, Between a b x ∧ S x ≠ .no)
    (ho : o = true → ∃ x, Between a b x ∧ S x ≠ .yes) {v : V3} (hv : BoxValue S a b v) : (fromBools i o).has v = true := by
  unfold fromBools
  cases v with
  | yes =>
    have : o = false := by
      by_contra h; rw [Bool.not_eq_false] at h
      obtain ⟨x, x1, x2⟩ := ho h
      exact x2 (hv x x1)
    subst this
    cases i <;> rfl
  | no =>
    have : i = false := by
      by_contra h; rw [Bool.not_eq_false] at h
      obtain ⟨x, x1, x2⟩ := hi h
      exact x2 (hv x x1)
    subst this
    cases o <;> rfl
  | maybe => cases i <;> cases o <;> rfl

theorem ne_no_of_canBeInside {w : TB} (h : w.canBeInside = true) {s : V3} (hs : w.has s = true) : s ≠ .no := by
  revert h hs; cases w <;> cases s <;> simp [TB.has, TB.canBeInside]

theorem ne_yes_of_canBeOutside {w : TB} (h : w.canBeOutside = true) {s : V3} (hs : w.has s = true) : s ≠ .yes := by
  revert h hs; cases w <;> cases s <;> simp [TB.has, TB.canBeOutside]

theorem le_of_diffPos {X Y : Itv K} (h : diffPos X Y = false) {x y : K} (hx : x ∈ X) (hy : y ∈ Y) : x ≤ y := by
  have hm := Itv.mem_sub hx hy
  unfold diffPos at h
  generalize Itv.sub X Y = Z at h hm
  match Z, h, hm with
  | .mk _ (some u) _, h, hm =>
    have h1 : x - y ≤ u := hm.2
    rw [decide_eq_false_iff_not, not_lt] at h
    linarith

theorem thickIntersect_ok {Xm Xp B : Box K} (h : thickIntersect Xm Xp B = true) {a b w : List K} (ha : InBox a Xm) (hb : InBox b Xp)
    (hab : List.Forall₂ (· ≤ ·) a b) (hw : InBox w B) (hB : Bnd B) (hl : B.length = Xm.length) : ∃ x, InBox x B ∧ Between a b x := by
  unfold InBox at *
  induction hab generalizing Xm Xp B w with
  | nil =>
    cases ha; cases hb
    rw [List.length_nil, List.length_eq_zero_iff] at hl
    subst hl
    exact ⟨[], .nil, .nil, .nil⟩
  | @cons x y a b hxy hab ih =>
    cases ha with
    | @cons _ I _ Xm ha1 ha2 =>
      cases hb with
      | @cons _ J _ Xp hb1 hb2 =>
        cases hw with
        | nil => simp at hl
        | @cons z L w B hw1 hw2 =>
          rw [thickIntersect, Bool.and_eq_true, Bool.and_eq_true, Bool.not_eq_true', Bool.not_eq_true'] at h
          obtain ⟨⟨h1, h2⟩, h3⟩ := h
          obtain ⟨v, v1, v2, v3⟩ := ih h3 ha2 hb2 hw2 (fun L hL => hB L (List.mem_cons_of_mem _ hL)) (by simpa using hl)
          have hu := hB L (by simp)
          match L, hw1, hu, h1, h2 with
          | .mk (some l) (some u) q, hw1, _, h1, h2 =>
            have k1 : l ≤ y := le_of_diffPos h1 (ThickItv.mem_bound.2 rfl) hb1
            have k2 : x ≤ u := le_of_diffPos h2 ha1 (ThickItv.mem_bound.2 rfl)
            have q' : l ≤ u := q
            exact ⟨max x l :: v, .cons ⟨le_max_right _ _, max_le k2 q'⟩ v1, .cons (le_max_left _ _) v2, .cons (max_le hxy k1) v3⟩

theorem fastLoop_ok {S : List K → V3} {Xm Xp : Box K} {a b : List K} (ha : InBox a Xm) (hb : InBox b Xp) (hab : List.Forall₂ (· ≤ ·) a b)
    {lst : List (Box K × TB)} (hlst : ∀ p ∈ lst, (∀ x, InBox x p.1 → p.2.has (S x) = true) ∧ Bnd p.1 ∧ p.1.length = Xm.length ∧
      isFlat (p.1.inter (Xm.hull Xp)) = false) (hlen : Xp.length = Xm.length) {i o : Bool}
    (hi : i = true → ∃ x, Between a b x ∧ S x ≠ .no) (ho : o = true → ∃ x, Between a b x ∧ S x ≠ .yes) {v : V3} (hv : BoxValue S a b v) :
    (fastLoop Xm Xp lst i o).has v = true := by
  induction lst generalizing i o with
  | nil => exact fromBools_has hi ho hv
  | cons p lst ih =>
    obtain ⟨B, w⟩ := p
    obtain ⟨h1, h2, h3, h4⟩ := hlst (B, w) (by simp)
    have hle : BoxLe (B.inter (Xm.hull Xp)) B := inter_le_left (by rw [length_hull' hlen.symm]; exact h3)
    have hit : thickIntersect Xm Xp (B.inter (Xm.hull Xp)) = true → ∃ x, Between a b x ∧ w.has (S x) = true := by
      intro h
      have hne : (B.inter (Xm.hull Xp)).isEmpty = false := by
        unfold isFlat at h4
        rw [Bool.or_eq_false_iff] at h4
        exact h4.1
      obtain ⟨z, hz⟩ := exists_of_inter hne
      obtain ⟨x, x1, x2⟩ := thickIntersect_ok h ha hb hab hz (bnd_of_le hle h2) (hle.length.trans h3)
      exact ⟨x, x2, h1 x (x1.of_le hle)⟩
    obtain ⟨hit', ehit⟩ : ∃ h, h = thickIntersect Xm Xp (B.inter (Xm.hull Xp)) := ⟨_, rfl⟩
    obtain ⟨c1, ec1⟩ : ∃ c, c = (w.canBeInside && !i) := ⟨_, rfl⟩
    obtain ⟨i', ei'⟩ : ∃ c, c = if c1 then hit' else i := ⟨_, rfl⟩
    obtain ⟨o', eo'⟩ : ∃ c, c = if !c1 && (w.canBeOutside && !o) then hit' else o := ⟨_, rfl⟩
    have e : fastLoop Xm Xp ((B, w) :: lst) i o = if o' && i' then .maybe else fastLoop Xm Xp lst i' o' := by
      subst eo' ei' ec1 ehit; rfl
    rw [e]
    rw [← ehit] at hit
    have hi' : i' = true → ∃ x, Between a b x ∧ S x ≠ .no := by
      intro h
      by_cases hc : c1 = true
      · have e : i' = hit' := ei'.trans (if_pos hc)
        rw [e] at h
        obtain ⟨x, x1, x2⟩ := hit h
        rw [ec1, Bool.and_eq_true] at hc
        exact ⟨x, x1, ne_no_of_canBeInside hc.1 x2⟩
      · have e : i' = i := ei'.trans (if_neg hc)
        exact hi (e ▸ h)
    have ho' : o' = true → ∃ x, Between a b x ∧ S x ≠ .yes := by
      intro h
      by_cases hc : (!c1 && (w.canBeOutside && !o)) = true
      · have e : o' = hit' := eo'.trans (if_pos hc)
        rw [e] at h
        obtain ⟨x, x1, x2⟩ := hit h
        simp only [Bool.and_eq_true] at hc
        exact ⟨x, x1, ne_yes_of_canBeOutside hc.2.1 x2⟩
      · have e : o' = o := eo'.trans (if_neg hc)
        exact ho (e ▸ h)
    by_cases hc : (o' && i') = true
    · rw [if_pos hc]
      rw [Bool.and_eq_true] at hc
      have := fromBools_has hi' ho' hv
      rw [hc.1, hc.2] at this
      exact this
    · rw [if_neg hc]
      exact ih (fun p hp => hlst p (List.mem_cons_of_mem _ hp)) hi' ho'

theorem mixed_ok {S : List K → V3} {diff : Itv K → Itv K → Itv K × Itv K} (hd : DiffCovers diff) {Xm Xp : Box K} (hone : OneCrossing Xm Xp) {i : Nat}
    (hi : (Xm.getD i ⊥ ⊓ Xp.getD i ⊥).isEmpty = false) {a b : List K} (ha : InBox a Xm) (hb : InBox b Xp) (hab : List.Forall₂ (· ≤ ·) a b)
    {lst : List (Box K × TB)} (hlst : ∀ p ∈ lst, (∀ x, InBox x p.1 → p.2.has (S x) = true) ∧ p.1.length = Xm.length) (hlen : Xp.length = Xm.length)
    {v : V3} (hv : BoxValue S a b v) : (mixedValue diff Xm Xp lst).has v = true := by
  have hil : i < Xm.length := by
    by_contra hc
    rw [List.getD_eq_getElem?_getD, List.getElem?_eq_none (not_lt.1 hc), Option.getD_none, bot_inf_eq] at hi
    cases hi
  have hX : (innerBox Xm Xp).length = Xm.length := by unfold innerBox; rw [List.length_zipWith, hlen, min_self]
  unfold mixedValue
  extract_lets X l lin lout dims
  have hdim : i ∈ dims := List.mem_filter.2 ⟨List.mem_range.2 hil, by rw [hi]; rfl⟩
  have gen : ∀ (f : TB → Bool), (dims.all fun i => projInclude diff X ((l.filter fun p => f p.2).map fun p => X.inter p.1) i) = true →
      ∃ x w, Between a b x ∧ f w = true ∧ w.has (S x) = true := by
    intro f h
    have h1 := List.all_eq_true.1 h i hdim
    obtain ⟨q, hq, x, h3, h4⟩ := proj_meets hd hone hi h1 (fun q hq => by
      obtain ⟨p, hp, rfl⟩ := List.mem_map.1 hq
      have hp1 := List.mem_filter.1 (List.mem_filter.1 hp).1
      exact ⟨inter_le_left (hX.trans (hlst p hp1.1).2.symm), exists_of_inter (by simpa using hp1.2)⟩) ha hb hab
    obtain ⟨p, hp, rfl⟩ := List.mem_map.1 hq
    have hp0 := List.mem_filter.1 hp
    have hp1 := hlst p (List.mem_filter.1 hp0.1).1
    exact ⟨x, p.2, h4, hp0.2, hp1.1 x ((inBox_inter (hX.trans hp1.2.symm)).1 h3).2⟩
  refine fromBools_has (fun h => ?_) (fun h => ?_) hv
  · obtain ⟨x, w, h1, h2, h3⟩ := gen _ h
    exact ⟨x, h1, ne_no_of_canBeInside h2 h3⟩
  · obtain ⟨x, w, h1, h2, h3⟩ := gen _ h
    exact ⟨x, h1, ne_yes_of_canBeOutside h2 h3⟩

theorem fromBools_ne (i o : Bool) : fromBools i o ≠ .in_ ∧ fromBools i o ≠ .out := by cases i <;> cases o <;> decide

theorem fastLoop_ne (Xm Xp : Box K) (lst : List (Box K × TB)) (i o : Bool) : fastLoop Xm Xp lst i o ≠ .in_ ∧ fastLoop Xm Xp lst i o ≠ .out := by
  induction lst generalizing i o with
  | nil => exact fromBools_ne i o
  | cons p lst ih =>
    obtain ⟨B, w⟩ := p
    have key : ∀ (c : Bool) i' o', (if c then TB.maybe else fastLoop Xm Xp lst i' o') ≠ .in_ ∧ (if c then TB.maybe else fastLoop Xm Xp lst i' o') ≠ .out := by
      intro c i' o'
      cases c
      · exact ih i' o'
      · simp
    exact key _ _ _

theorem crossValue_ne {lst : List (Box K × TB)} : crossValue lst ≠ .in_ ∧ crossValue lst ≠ .out := by
  unfold crossValue
  dsimp only
  generalize lst.foldl (fun (res : TB) p => res.opUnion p.2) TB.empty = r
  cases r <;> decide

theorem between_hull {Xm Xp : Box K} (hlen : Xm.length = Xp.length) {a b x : List K} (ha : InBox a Xm) (hb : InBox b Xp) (hx : Between a b x) :
    InBox x (Xm.hull Xp) := by
  have h1 := InBox.hull_left hlen ha
  have h2 := InBox.hull_right hlen hb
  obtain ⟨k1, k2⟩ := hx
  generalize Xm.hull Xp = Z at h1 h2
  clear ha hb
  unfold InBox at *
  induction k1 generalizing b Z with
  | nil => cases h1; exact .nil
  | cons q1 k1 ih =>
    cases h1 with
    | cons h3 h4 =>
      cases h2 with
      | cons h5 h6 =>
        cases k2 with
        | cons k3 k4 => exact .cons (Itv.mem_of_between h3 h5 q1 k3) (ih k4 _ h4 h6)

/-- what `Intersect_fct` says -/
theorem interFct_ok {n : Nat} {S : List K → V3} {t : TNode K} (hr : Regular n t) (hS : RightLeaves S t) {diff : Itv K → Itv K → Itv K × Itv K}
    (hd : DiffCovers diff) {Xm Xp : Box K} (hm : Xm.length = n) (hp : Xp.length = n) (hf : isFlat (t.box.inter (Xm.hull Xp)) = false) :
    ∃ r, interFct diff t Xm Xp = some r ∧
      (∀ x, InBox x t.box → InBox x (Xm.hull Xp) → (r = .in_ → S x = .yes) ∧ (r = .out → S x = .no)) ∧
      ((∀ I ∈ List.zipWith (· ⊓ ·) Xm Xp, I.isEmpty = false) ∨ OneCrossing Xm Xp → ∀ a b v, InBox a Xm → InBox b Xp → List.Forall₂ (· ≤ ·) a b →
        (∀ x, Between a b x → InBox x t.box) → BoxValue S a b v → r.has v = true) := by
  obtain ⟨p, e, a1, a2, a3⟩ := inside2_ok hr hS (Xm.hull Xp)
  have hlen : Xp.length = Xm.length := hp.trans hm.symm
  have hin : ∀ {a b x : List K}, InBox a Xm → InBox b Xp → Between a b x → InBox x (Xm.hull Xp) := between_hull hlen.symm
  refine ⟨_, by unfold interFct; rw [e]; rfl, ?_⟩
  dsimp only
  have hleaf : ∀ q ∈ p.2, (∀ x, InBox x q.1 → q.2.has (S x) = true) ∧ Bnd q.1 ∧ q.1.length = Xm.length ∧ isFlat (q.1.inter (Xm.hull Xp)) = false := by
    intro q hq
    have h1 := regular_leaf_le hr (a1 q hq).1
    exact ⟨hS q (a1 q hq).1, bnd_of_le h1 hr.root.2.1, h1.length.trans (hr.root.1.trans hm.symm), (a1 q hq).2⟩
  by_cases c1 : p.1.isSingleton = true
  · rw [if_pos c1]
    refine ⟨fun x h1 h2 => ⟨fun h => eq_yes (h ▸ a2 x h1 h2 hf), fun h => eq_no (h ▸ a2 x h1 h2 hf)⟩, fun _ a b v ha hb hab hx hv => ?_⟩
    exact has_of_all hab (fun x hx' => a2 x (hx x hx') (hin ha hb hx') hf) hv
  rw [if_neg c1]
  by_cases c2 : ((List.zipWith (· ⊓ ·) Xm Xp).all fun I => !I.isEmpty) = true
  · rw [if_pos c2]
    refine ⟨fun x _ _ => ⟨fun h => absurd h crossValue_ne.1, fun h => absurd h crossValue_ne.2⟩, fun _ a b v ha hb hab hx hv => ?_⟩
    have h1 : p.1.has v = true := has_of_all hab (fun x hx' => a2 x (hx x hx') (hin ha hb hx') hf) hv
    have h2 : p.1 = p.2.foldl (fun res p => res.opUnion p.2) .empty := a3 (by simpa using c1)
    unfold crossValue
    dsimp only
    rw [← h2]
    by_cases e1 : p.1 = .in_
    · rw [e1] at c1; exact absurd rfl c1
    rw [if_neg e1]
    by_cases e2 : p.1 = .out
    · rw [e2] at c1; exact absurd rfl c1
    rw [if_neg e2]
    exact h1
  rw [if_neg c2]
  by_cases c3 : ((List.zipWith (· ⊓ ·) Xm Xp).all fun I => I.isEmpty) = true
  · rw [if_pos c3]
    refine ⟨fun x _ _ => ⟨fun h => absurd h (fastLoop_ne _ _ _ _ _).1, fun h => absurd h (fastLoop_ne _ _ _ _ _).2⟩, fun _ a b v ha hb hab hx hv => ?_⟩
    exact fastLoop_ok ha hb hab hleaf hlen (fun h => by cases h) (fun h => by cases h) hv
  rw [if_neg c3]
  refine ⟨fun x _ _ => ⟨fun h => absurd h (fromBools_ne _ _).1, fun h => absurd h (fromBools_ne _ _).2⟩, fun hone a b v ha hb hab hx hv => ?_⟩
  have hone : OneCrossing Xm Xp := hone.resolve_left fun h => c2 (List.all_eq_true.2 fun I hI => by rw [h I hI]; rfl)
  obtain ⟨i, hi⟩ : ∃ i, (Xm.getD i ⊥ ⊓ Xp.getD i ⊥).isEmpty = false := by
    rw [Bool.not_eq_true, List.all_eq_false] at c3
    obtain ⟨I, hI, hI'⟩ := c3
    obtain ⟨i, hi, rfl⟩ := List.mem_iff_getElem.1 hI
    rw [List.length_zipWith] at hi
    refine ⟨i, ?_⟩
    rw [List.getElem_zipWith] at hI'
    rw [List.getD_eq_getElem?_getD, List.getD_eq_getElem?_getD, List.getElem?_eq_getElem (by omega), List.getElem?_eq_getElem (by omega)]
    simpa using hI'
  exact mixed_ok hd hone hi ha hb hab (fun q hq => ⟨(hleaf q hq).1, (hleaf q hq).2.2.1⟩) hlen hv

/-! ### The part of the thick box out of the paved box -/

theorem member_zip {Xm Xp : Box K} (hc : List.Forall₂ ThickItv.Checked Xm Xp) {a b : List K} (ha : InBox a Xm) (hb : InBox b Xp)
    (hab : List.Forall₂ (· ≤ ·) a b) : ThickBox.Member (thickBox Xm Xp) (a.zip b) := by
  unfold InBox at *
  unfold thickBox
  induction hab generalizing Xm Xp with
  | nil => cases ha; cases hb; trivial
  | cons hxy hab ih =>
    cases ha with
    | cons ha1 ha2 =>
      cases hb with
      | cons hb1 hb2 =>
        cases hc with
        | cons hc1 hc2 =>
          rw [List.zipWith_cons_cons, List.zip_cons_cons]
          refine ⟨?_, ih hc2 ha2 hb2⟩
          unfold ThickItv.ofItvs
          rw [if_pos hc1]
          exact ⟨ha1, hb1, hxy⟩

theorem thickBox_ok (Xm Xp : Box K) : ∀ t ∈ thickBox Xm Xp, t.Ok := by
  intro t ht
  unfold thickBox at ht
  obtain ⟨i, hi, rfl⟩ := List.mem_iff_getElem.1 ht
  rw [List.getElem_zipWith]
  exact ThickItv.ok_ofItvs _ _

theorem boundsIn_zip {a b : List K} {Y : Box K} (hab : List.Forall₂ (· ≤ ·) a b) : boundsIn (a.zip b) Y ↔ ∀ x, Between a b x → InBox x Y := by
  unfold boundsIn Between InBox
  constructor
  · intro h
    induction hab generalizing Y with
    | nil => rintro x ⟨h1, _⟩; cases h1; cases h; exact .nil
    | cons hxy hab ih =>
      rw [List.zip_cons_cons] at h
      cases h with
      | cons h1 h2 =>
        rintro x ⟨k1, k2⟩
        cases k1 with
        | cons k1 k3 =>
          cases k2 with
          | cons k2 k4 => exact .cons (Itv.mem_of_between h1.1 h1.2 k1 k2) (ih h2 _ ⟨k3, k4⟩)
  · intro h
    have h1 := h a (between_left hab)
    have h2 := h b ⟨hab, List.forall₂_same.2 fun _ _ => le_rfl⟩
    clear h
    induction hab generalizing Y with
    | nil => cases h1; exact .nil
    | cons hxy hab ih =>
      cases h1 with
      | cons h3 h4 =>
        cases h2 with
        | cons h5 h6 =>
          rw [List.zip_cons_cons]
          exact .cons ⟨h3, h5⟩ (ih h4 h6)

theorem boundsMeet_zip {a b : List K} {Y : Box K} (hab : List.Forall₂ (· ≤ ·) a b) : boundsMeet (a.zip b) Y ↔ ∃ x, Between a b x ∧ InBox x Y := by
  unfold boundsMeet Between InBox
  constructor
  · intro h
    induction hab generalizing Y with
    | nil => cases h; exact ⟨[], ⟨.nil, .nil⟩, .nil⟩
    | cons hxy hab ih =>
      rw [List.zip_cons_cons] at h
      cases h with
      | cons h1 h2 =>
        obtain ⟨v, ⟨v1, v2⟩, v3⟩ := ih h2
        obtain ⟨c, c1, c2, c3⟩ := h1
        exact ⟨c :: v, ⟨.cons c1 v1, .cons c2 v2⟩, .cons c3 v3⟩
  · rintro ⟨x, ⟨h1, h2⟩, h3⟩
    induction h3 generalizing a b with
    | nil => cases h1; cases h2; exact .nil
    | cons k5 k6 ih =>
      cases h1 with
      | cons k1 k2 =>
        cases h2 with
        | cons k3 k4 =>
          cases hab with
          | cons _ hab =>
            rw [List.zip_cons_cons]
            exact .cons ⟨_, k1, k3, k5⟩ (ih hab k2 k4)

theorem superset_le {Xm Xp : Box K} (hc : List.Forall₂ ThickItv.Checked Xm Xp) : BoxLe (ThickBox.superset (thickBox Xm Xp)) (List.zipWith (· ⊔ ·) Xm Xp) := by
  unfold BoxLe ThickBox.superset thickBox
  induction hc with
  | nil => exact .nil
  | @cons I J Xm Xp h1 h2 ih =>
    rw [List.zipWith_cons_cons, List.zipWith_cons_cons, List.map_cons]
    refine .cons ?_ ih
    rw [Itv.le_iff]
    intro x hx
    unfold ThickItv.ofItvs at hx
    rw [if_pos h1] at hx
    obtain ⟨a, b, hm, h3, h4⟩ := (ThickItv.mem_superset (T := ⟨I, J⟩) h1).1 hx
    exact Itv.mem_of_between (Itv.mem_sup_left hm.1) (Itv.mem_sup_right hm.2.1) h3 h4

theorem hull_eq_zip {Xm Xp : Box K} (hc : List.Forall₂ ThickItv.Checked Xm Xp) : Xm.hull Xp = List.zipWith (· ⊔ ·) Xm Xp := by
  cases hc with
  | nil => rfl
  | cons h1 h2 =>
    obtain ⟨n1, n2⟩ := h1.ne
    unfold Box.hull
    rw [if_neg (by simpa [Box.isEmpty, Itv.isEmpty_iff] using n2), if_neg (by simpa [Box.isEmpty, Itv.isEmpty_iff] using n1)]

theorem exists_of_not_disjoint {X Y : Box K} (hl : X.length = Y.length) (h : ThickBox.boxDisjoint X Y = false) : ∃ x, InBox x X ∧ InBox x Y := by
  unfold ThickBox.boxDisjoint at h
  rw [Bool.or_eq_false_iff] at h
  have h2 := h.2
  clear h
  unfold InBox
  induction X generalizing Y with
  | nil =>
    cases Y with
    | nil => exact ⟨[], .nil, .nil⟩
    | cons => simp at hl
  | cons I X ih =>
    cases Y with
    | nil => simp at hl
    | cons J Y =>
      rw [List.zip_cons_cons, List.any_cons, Bool.or_eq_false_iff] at h2
      obtain ⟨v, v1, v2⟩ := ih (by simpa using hl) h2.2
      obtain ⟨c, hc⟩ := Itv.exists_mem (Itv.isEmpty_false_iff.mp h2.1)
      rw [Itv.mem_inf] at hc
      exact ⟨c :: v, .cons hc.1 v1, .cons hc.2 v2⟩

theorem boxSubset_of_le {X Y : Box K} (h : BoxLe X Y) (hY : Y.isEmpty = false) : ThickBox.boxSubset X Y = true := by
  unfold ThickBox.boxSubset
  rw [hY, Bool.or_eq_true]
  right
  simp only [Bool.not_false, Bool.true_and, Bool.and_eq_true, decide_eq_true_iff]
  refine ⟨h.length, List.all_eq_true.2 ?_⟩
  clear hY
  unfold BoxLe at h
  induction h with
  | nil => simp
  | cons h1 h2 ih =>
    intro p hp
    rw [List.zip_cons_cons] at hp
    rcases List.mem_cons.1 hp with rfl | hp
    · simpa using h1
    · exact ih p hp

/-- what `Intersect` says -/
theorem intersect_ok {n : Nat} {S : List K → V3} {t : TNode K} (hr : Regular n t) (hS : RightLeaves S t) (hout : ∀ x, ¬ InBox x t.box → S x = .maybe)
    {diff : Itv K → Itv K → Itv K × Itv K} (hd : DiffCovers diff) {Xm Xp : Box K} (hm : Xm.length = n) (hc : List.Forall₂ ThickItv.Checked Xm Xp)
    (hf : (t.box.inter (Xm.hull Xp)).isEmpty = true ∨ isFlat (t.box.inter (Xm.hull Xp)) = false)
    (hcross : (∀ I ∈ List.zipWith (· ⊓ ·) Xm Xp, I.isEmpty = false) ∨ OneCrossing Xm Xp) :
    ∃ r, intersect diff t Xm Xp = some r ∧ ∀ a b v, InBox a Xm → InBox b Xp → List.Forall₂ (· ≤ ·) a b →
      (noTouch (a.zip b) t.box ∨ ThickBox.boxSubset (ThickBox.superset (thickBox Xm Xp)) t.box = true) → BoxValue S a b v → r.has v = true := by
  have hp : Xp.length = n := hc.length_eq.symm.trans hm
  have hlen : (thickBox Xm Xp).length = t.box.length := by
    unfold thickBox; rw [List.length_zipWith, hm, hp, min_self, hr.root.1]
  have sup : ∀ {a b : List K}, InBox a Xm → InBox b Xp → List.Forall₂ (· ≤ ·) a b →
      List.Forall₂ (fun p Y => ∀ x, p.1 ≤ x → x ≤ p.2 → x ∈ Y) (a.zip b) (thickBox Xm Xp).superset ∧ ∀ p ∈ a.zip b, p.1 ≤ p.2 :=
    fun ha hb hab => ThickBox.superset_in (thickBox_ok _ _) (member_zip hc ha hb hab)
  unfold intersect
  by_cases c2 : ThickBox.boxDisjoint (thickBox Xm Xp).superset t.box = true
  · -- out of the paved box, or empty
    by_cases c1 : ThickBox.boxSubset (thickBox Xm Xp).superset t.box = true
    · -- no member
      have none : ∀ {a b : List K}, InBox a Xm → InBox b Xp → List.Forall₂ (· ≤ ·) a b → False := by
        intro a b ha hb hab
        obtain ⟨s1, s2⟩ := sup ha hb hab
        have k1 := (boundsIn_zip hab).1 (ThickBox.boxSubset_sound s1 s2 c1) a (between_left hab)
        exact ThickBox.boxDisjoint_sound s1 s2 c2 ((boundsMeet_zip hab).2 ⟨a, between_left hab, k1⟩)
      have e : (thickBox Xm Xp).isInside t.box = .in_ := by unfold ThickBox.isInside; rw [if_pos c1]
      rw [e]
      obtain ⟨p, e', _⟩ := inside2_ok hr hS (Xm.hull Xp)
      exact ⟨_, by simp only; unfold interFct; rw [e']; rfl, fun a b v ha hb hab => (none ha hb hab).elim⟩
    · have e : (thickBox Xm Xp).isInside t.box = .out := by unfold ThickBox.isInside; rw [if_neg c1, if_pos c2]
      rw [e]
      refine ⟨_, rfl, fun a b v ha hb hab _ hv => has_of_all hab (fun x hx => ?_) hv⟩
      obtain ⟨s1, s2⟩ := sup ha hb hab
      rw [hout x fun hx' => ThickBox.boxDisjoint_sound s1 s2 c2 ((boundsMeet_zip hab).2 ⟨x, hx, hx'⟩)]
      rfl
  have hf : isFlat (t.box.inter (Xm.hull Xp)) = false := by
    refine hf.resolve_left fun he => ?_
    have hl : (thickBox Xm Xp).superset.length = t.box.length := by unfold ThickBox.superset; rw [List.length_map, hlen]
    obtain ⟨x, x1, x2⟩ := exists_of_not_disjoint hl (by simpa using c2)
    have h1 := x1.of_le (superset_le hc)
    rw [← hull_eq_zip hc] at h1
    exact not_inBox_of_isEmpty he ((inBox_inter (by rw [length_hull' (hm.trans hp.symm), hm, hr.root.1])).2 ⟨x2, h1⟩)
  obtain ⟨r, e0, f1, f2⟩ := interFct_ok hr hS hd hm hp hf
  have f2 := f2 hcross
  have hin : ∀ {a b x : List K}, InBox a Xm → InBox b Xp → Between a b x → InBox x (Xm.hull Xp) := between_hull (hm.trans hp.symm)
  by_cases c1 : ThickBox.boxSubset (thickBox Xm Xp).superset t.box = true
  · have e : (thickBox Xm Xp).isInside t.box = .in_ := by unfold ThickBox.isInside; rw [if_pos c1]
    rw [e]
    refine ⟨r, e0, fun a b v ha hb hab _ hv => f2 a b v ha hb hab ?_ hv⟩
    obtain ⟨s1, s2⟩ := sup ha hb hab
    exact (boundsIn_zip hab).1 (ThickBox.boxSubset_sound s1 s2 c1)
  have e : (thickBox Xm Xp).isInside t.box = if (thickBox Xm Xp).intersects t.box && (thickBox Xm Xp).isNotSubset t.box then .maybe
      else if !(thickBox Xm Xp).intersects t.box && (thickBox Xm Xp).isNotSubset t.box then .maybeOut
      else if !(thickBox Xm Xp).isNotSubset t.box && (thickBox Xm Xp).intersects t.box then .maybeIn else .unk := by
    unfold ThickBox.isInside
    rw [if_neg c1, if_neg c2]
  -- a point out of the paved box
  have hb2 : (thickBox Xm Xp).isNotSubset t.box = true → ∀ {a b : List K}, InBox a Xm → InBox b Xp → List.Forall₂ (· ≤ ·) a b → noTouch (a.zip b) t.box →
      ∃ x, Between a b x ∧ S x = .maybe := by
    intro h a b ha hb hab ht
    have h1 := ThickBox.notSubset_sound h (member_zip hc ha hb hab) ht
    rw [boundsIn_zip hab] at h1
    push Not at h1
    obtain ⟨x, x1, x2⟩ := h1
    exact ⟨x, x1, hout x x2⟩
  have hb1 : (thickBox Xm Xp).intersects t.box = true → ∀ {a b : List K}, InBox a Xm → InBox b Xp → List.Forall₂ (· ≤ ·) a b →
      ∃ x, Between a b x ∧ InBox x t.box := fun h a b ha hb hab =>
    (boundsMeet_zip hab).1 (ThickBox.intersects_sound hlen h (member_zip hc ha hb hab))
  have hmaybe : ∀ {a b : List K} {v : V3}, (∃ x, Between a b x ∧ S x = .maybe) → BoxValue S a b v → v = .maybe := by
    rintro a b v ⟨x, x1, x2⟩ hv
    cases v with
    | yes => have := hv x x1; rw [x2] at this; cases this
    | no => have := hv x x1; rw [x2] at this; cases this
    | maybe => rfl
  have hunk : ∀ v : V3, TB.unk.has v = true := by intro v; cases v <;> rfl
  rw [e]
  rw [e0]
  cases e1 : (thickBox Xm Xp).intersects t.box <;> cases e2 : (thickBox Xm Xp).isNotSubset t.box
  · refine ⟨_, rfl, fun a b v _ _ _ _ _ => ?_⟩
    have : opMask r .unk = .unk := by cases r <;> rfl
    show (opMask r .unk).has v = true
    rw [this]; exact hunk v
  · refine ⟨_, rfl, fun a b v ha hb hab ht hv => ?_⟩
    obtain rfl := hmaybe (hb2 e2 ha hb hab (ht.resolve_right c1)) hv
    cases r <;> rfl
  · refine ⟨_, rfl, fun a b v ha hb hab ht hv => ?_⟩
    obtain ⟨x, x1, x2⟩ := hb1 e1 ha hb hab
    obtain ⟨y1, y2⟩ := f1 x x2 (hin ha hb x1)
    by_cases hr1 : r = .in_
    · subst hr1
      have : v ≠ .no := by rintro rfl; have := hv x x1; rw [y1 rfl] at this; cases this
      revert this; cases v <;> simp [opMask, TB.has]
    by_cases hr2 : r = .out
    · subst hr2
      have : v ≠ .yes := by rintro rfl; have := hv x x1; rw [y2 rfl] at this; cases this
      revert this; cases v <;> simp [opMask, TB.has]
    have : opMask r .maybeIn = .unk := by revert hr1 hr2; cases r <;> simp [opMask]
    show (opMask r .maybeIn).has v = true
    rw [this]; exact hunk v
  · refine ⟨_, rfl, fun a b v ha hb hab ht hv => ?_⟩
    obtain rfl := hmaybe (hb2 e2 ha hb hab (ht.resolve_right c1)) hv
    cases r <;> rfl

theorem boxValue_exists (S : List K → V3) (a b : List K) : ∃ v, BoxValue S a b v := by
  by_cases h1 : ∀ x, Between a b x → S x = .yes
  · exact ⟨.yes, h1⟩
  by_cases h2 : ∀ x, Between a b x → S x = .no
  · exact ⟨.no, h2⟩
  push Not at h1 h2
  exact ⟨.maybe, h1, h2⟩

theorem crossing_of_le_two {Xm Xp : Box K} (hl : Xm.length = Xp.length) (h : Xm.length ≤ 2) :
    (∀ I ∈ List.zipWith (· ⊓ ·) Xm Xp, I.isEmpty = false) ∨ OneCrossing Xm Xp := by
  match Xm, Xp, hl, h with
  | [], [], _, _ => exact .inl (by simp)
  | [I], [J], _, _ =>
    refine .inr fun i j hi hj => ?_
    match i, j, hi, hj with
    | 0, 0, _, _ => rfl
    | _ + 1, _, hi, _ => cases hi
    | _, _ + 1, _, hj => cases hj
  | [I, I'], [J, J'], _, _ =>
    by_cases h1 : (I ⊓ J).isEmpty = false
    · by_cases h2 : (I' ⊓ J').isEmpty = false
      · exact .inl (by
          intro L hL
          simp only [List.zipWith_cons_cons, List.zipWith_nil_right, List.mem_cons, List.not_mem_nil, or_false] at hL
          rcases hL with rfl | rfl <;> assumption)
      · refine .inr fun i j hi hj => ?_
        match i, j, hi, hj with
        | 0, 0, _, _ => rfl
        | 1, _, hi, _ => exact absurd hi h2
        | _, 1, _, hj => exact absurd hj h2
        | _ + 2, _, hi, _ => cases hi
        | _, _ + 2, _, hj => cases hj
    · refine .inr fun i j hi hj => ?_
      match i, j, hi, hj with
      | 1, 1, _, _ => rfl
      | 0, _, hi, _ => exact absurd hi h1
      | _, 0, _, hj => exact absurd hj h1
      | _ + 2, _, hi, _ => cases hi
      | _, _ + 2, _, hj => cases hj

/-- `Interval::diff` of IBEX: the two parts of `I` out of `J`, a part reduced to a point being dropped when `I` is not a point; all of `I` when `J` is a point -/
def ibexDiff (I J : Itv K) : Itv K × Itv K :=
  if J.isDegenerated then (I, ⊥)
  else
    let c := I ⊓ (match J.lb? with | none => ⊥ | some l => Itv.ofBounds none (some l))
    let d := I ⊓ (match J.ub? with | none => ⊥ | some h => Itv.ofBounds (some h) none)
    (if c.isDegenerated && !I.isDegenerated then ⊥ else c, if d.isDegenerated && !I.isDegenerated then ⊥ else d)

theorem eq_of_degenerated {I : Itv K} (h : I.isDegenerated = true) {a b : K} (ha : a ∈ I) (hb : b ∈ I) : a = b := by
  match I, h, ha, hb with
  | .mk (some l) (some u) _, h, ha, hb =>
    have e : l = u := by simpa [Itv.isDegenerated] using h
    subst e
    exact (le_antisymm ha.2 ha.1).trans (le_antisymm hb.2 hb.1).symm

theorem ibexDiff_covers : DiffCovers (ibexDiff (K := K)) := by
  intro I J x hI hJ
  unfold ibexDiff
  by_cases h0 : J.isDegenerated = true
  · rw [if_pos h0]; exact .inl hI
  rw [if_neg h0]
  have drop : ∀ c : Itv K, x ∈ c → (c.isDegenerated = true → I.isDegenerated = true) → x ∈ (if c.isDegenerated && !I.isDegenerated then ⊥ else c) := by
    intro c hc h
    rw [if_neg]
    · exact hc
    · rw [Bool.and_eq_true]
      rintro ⟨h1, h2⟩
      rw [h h1] at h2; cases h2
  match J, hJ, h0 with
  | .mk lo hi q, hJ, h0 =>
    have hor : (∃ l, lo = some l ∧ x < l) ∨ ∃ u, hi = some u ∧ u < x := by
      by_contra hc
      push Not at hc
      refine hJ ⟨?_, ?_⟩
      · cases lo with
        | none => trivial
        | some l => exact hc.1 l rfl
      · cases hi with
        | none => trivial
        | some u => exact hc.2 u rfl
    rcases hor with ⟨l, rfl, hl⟩ | ⟨u, rfl, hu⟩
    · left
      refine drop _ (Itv.mem_inf.2 ⟨hI, mem_ofBounds_below.2 hl.le⟩) fun hd => ?_
      by_contra hn
      rw [Bool.not_eq_true] at hn
      rcases exists_ne hn hI with ⟨c, c1, c2⟩ | ⟨c, c1, c2⟩
      · exact ne_of_lt c2 (eq_of_degenerated hd (Itv.mem_inf.2 ⟨c1, mem_ofBounds_below.2 (by linarith)⟩) (Itv.mem_inf.2 ⟨hI, mem_ofBounds_below.2 hl.le⟩))
      · have : min c l ∈ I := Itv.mem_of_between hI c1 (le_min c2.le hl.le) (min_le_left _ _)
        exact ne_of_lt (lt_min c2 hl) (eq_of_degenerated hd (Itv.mem_inf.2 ⟨hI, mem_ofBounds_below.2 hl.le⟩) (Itv.mem_inf.2 ⟨this, mem_ofBounds_below.2 (min_le_right _ _)⟩))
    · right
      refine drop _ (Itv.mem_inf.2 ⟨hI, mem_ofBounds_above.2 hu.le⟩) fun hd => ?_
      by_contra hn
      rw [Bool.not_eq_true] at hn
      rcases exists_ne hn hI with ⟨c, c1, c2⟩ | ⟨c, c1, c2⟩
      · have : max c u ∈ I := Itv.mem_of_between c1 hI (le_max_left _ _) (max_le c2.le hu.le)
        exact ne_of_lt (max_lt c2 hu) (eq_of_degenerated hd (Itv.mem_inf.2 ⟨this, mem_ofBounds_above.2 (le_max_right _ _)⟩) (Itv.mem_inf.2 ⟨hI, mem_ofBounds_above.2 hu.le⟩))
      · exact ne_of_lt c2 (eq_of_degenerated hd (Itv.mem_inf.2 ⟨hI, mem_ofBounds_above.2 hu.le⟩) (Itv.mem_inf.2 ⟨c1, mem_ofBounds_above.2 (by linarith)⟩))

end Codac.TPav
