import Verif.C2.BoxProofs

/-!
# The boxes of codac2: difference of two boxes — proofs
-/

set_option linter.unusedSectionVars false

namespace Codac.Bx

variable {K : Type*} [LinearOrder K]

/-- `x` is strictly between two points of `J` -/
def Inside (J : Itv K) (x : K) : Prop := ∃ a b, a ∈ J ∧ b ∈ J ∧ a < x ∧ x < b

/-- `x` is in the relative interior of `I`: strictly between two of its points, or its only point -/
def RelInside (I : Itv K) (x : K) : Prop := Inside I x ∨ I = Itv.point x

/-- a point in the interior of a box -/
def InsideBox (v : List K) (Y : Box K) : Prop := List.Forall₂ (fun x J => Inside J x) v Y

/-- a point in the relative interior of a box -/
def RelInsideBox (v : List K) (X : Box K) : Prop := List.Forall₂ (fun x I => RelInside I x) v X

/-- what is assumed of `Interval::diff` of IBEX, for two intervals that intersect (and, with compactness, whose intersection is not flat in a thick interval): the two results cover
the difference, are in the first interval, the first one is empty only if the second one is, and they only share borders together and with the intersection -/
structure IDiff (compactness : Bool) (idiff : Itv K → Itv K → Itv K × Itv K) : Prop where
  le1 : ∀ I J, (idiff I J).1 ≤ I
  le2 : ∀ I J, (idiff I J).2 ≤ I
  cover : ∀ I J x, x ∈ I → x ∉ J → x ∈ (idiff I J).1 ∨ x ∈ (idiff I J).2
  first : ∀ I J, (idiff I J).1 = ⊥ → (idiff I J).2 = ⊥
  border1 : ∀ I J x, I ⊓ J ≠ ⊥ → (compactness = true → (I ⊓ J).isDegenerated = true → I.isDegenerated = true) → RelInside (idiff I J).1 x → ¬ RelInside (I ⊓ J) x ∧ ¬ Inside J x
  border2 : ∀ I J x, I ⊓ J ≠ ⊥ → (compactness = true → (I ⊓ J).isDegenerated = true → I.isDegenerated = true) → RelInside (idiff I J).2 x → ¬ RelInside (I ⊓ J) x ∧ ¬ Inside J x
  apart : ∀ I J x, I ⊓ J ≠ ⊥ → RelInside (idiff I J).1 x → ¬ RelInside (idiff I J).2 x

/-- the pairs of components on which the loop works -/
def Meet (compactness : Bool) (I J : Itv K) : Prop := I ⊓ J ≠ ⊥ ∧ (compactness = true → (I ⊓ J).isDegenerated = true → I.isDegenerated = true)

variable {idiff : Itv K → Itv K → Itv K × Itv K} {compactness : Bool}

theorem diffLoop_prefix {X Y : Box K} : ∀ {pre b : Box K}, b ∈ diffLoop idiff pre X Y → ∃ r, b = pre ++ r ∧ r.length = X.length := by
  induction X generalizing Y with
  | nil => intro pre b h; simp [diffLoop] at h
  | cons I X ih =>
    intro pre b h
    cases Y with
    | nil => simp [diffLoop] at h
    | cons J Y =>
      simp only [diffLoop] at h
      by_cases hc : (idiff I J).1.isEmpty = true
      · rw [if_neg (by simp [hc])] at h
        obtain ⟨r, rfl, hr⟩ := ih h
        exact ⟨I :: r, by simp, by simp [hr]⟩
      · rw [if_pos (by simp [hc])] at h
        rcases List.mem_cons.mp h with rfl | h
        · exact ⟨_, rfl, rfl⟩
        · rcases List.mem_append.mp h with h | h
          · split_ifs at h
            · simp only [List.mem_singleton] at h
              subst h
              exact ⟨_, rfl, rfl⟩
            · simp at h
          · obtain ⟨r, rfl, hr⟩ := ih h
            exact ⟨(I ⊓ J) :: r, by simp, by simp [hr]⟩

/-- the boxes of the loop are inside -/
theorem diffLoop_le (hd : IDiff compactness idiff) {X Y : Box K} : ∀ {pre b P : Box K}, BoxLe pre P → b ∈ diffLoop idiff pre X Y → BoxLe b (P ++ X) := by
  induction X generalizing Y with
  | nil => intro pre b P _ h; simp [diffLoop] at h
  | cons I X ih =>
    intro pre b P hP h
    cases Y with
    | nil => simp [diffLoop] at h
    | cons J Y =>
      simp only [diffLoop] at h
      have step : ∀ Z : Itv K, Z ≤ I → BoxLe (pre ++ [Z]) (P ++ [I]) := fun Z hZ => hP.append (.cons hZ .nil)
      by_cases hc : (idiff I J).1.isEmpty = true
      · rw [if_neg (by simp [hc])] at h
        have := ih (step I le_rfl) h
        simpa using this
      · rw [if_pos (by simp [hc])] at h
        rcases List.mem_cons.mp h with rfl | h
        · exact hP.append (.cons (hd.le1 I J) (BoxLe.refl X))
        · rcases List.mem_append.mp h with h | h
          · split_ifs at h
            · simp only [List.mem_singleton] at h
              subst h
              exact hP.append (.cons (hd.le2 I J) (BoxLe.refl X))
            · simp at h
          · have := ih (step _ inf_le_left) h
            simpa using this

/-- the boxes of the loop cover the difference -/
theorem diffLoop_cover (hd : IDiff compactness idiff) {X Y : Box K} : ∀ {pre : Box K} {pv w : List K}, InBox pv pre → InBox w X → X.length = Y.length → ¬ InBox w Y →
    ∃ b ∈ diffLoop idiff pre X Y, InBox (pv ++ w) b := by
  induction X generalizing Y with
  | nil =>
    intro pre pv w _ hw hl hn
    cases hw
    cases Y with
    | nil => exact absurd .nil hn
    | cons => simp at hl
  | cons I X ih =>
    intro pre pv w hpv hw hl hn
    cases Y with
    | nil => simp at hl
    | cons J Y =>
      cases hw with
      | @cons x _ w' _ hx hw' =>
        simp only [diffLoop]
        have hrec : ∀ Z : Itv K, x ∈ Z → x ∈ J → ∃ b ∈ diffLoop idiff (pre ++ [Z]) X Y, InBox (pv ++ x :: w') b := by
          intro Z hZ hxJ
          have hn' : ¬ InBox w' Y := fun h => hn (.cons hxJ h)
          obtain ⟨b, hb, hbi⟩ := ih (pre := pre ++ [Z]) (pv := pv ++ [x]) (hpv.append (.cons hZ .nil)) hw' (by simpa using hl) hn'
          exact ⟨b, hb, by simpa using hbi⟩
        by_cases hc : (idiff I J).1.isEmpty = true
        · rw [if_neg (by simp [hc])]
          refine hrec I hx ?_
          by_contra hxJ
          have h1 := Itv.isEmpty_iff.mp hc
          rcases hd.cover I J x hx hxJ with h | h
          · rw [h1] at h; exact Itv.not_mem_bot _ h
          · rw [hd.first I J h1] at h; exact Itv.not_mem_bot _ h
        · rw [if_pos (by simp [hc])]
          by_cases hxJ : x ∈ J
          · obtain ⟨b, hb, hbi⟩ := hrec (I ⊓ J) (Itv.mem_inf.mpr ⟨hx, hxJ⟩) hxJ
            exact ⟨b, List.mem_cons_of_mem _ (List.mem_append_right _ hb), hbi⟩
          · rcases hd.cover I J x hx hxJ with h | h
            · exact ⟨_, List.mem_cons_self, hpv.append (.cons h hw')⟩
            · refine ⟨pre ++ (idiff I J).2 :: X, List.mem_cons_of_mem _ (List.mem_append_left _ ?_), hpv.append (.cons h hw')⟩
              rw [if_pos (by simpa [Itv.isEmpty_false_iff] using Itv.ne_bot_of_mem h)]
              simp

theorem rel_split {α β : Type*} {R : α → β → Prop} {v : List α} {pre : List β} {I : β} {X : List β} (h : List.Forall₂ R v (pre ++ I :: X)) : ∃ x, v[pre.length]? = some x ∧ R x I := by
  rw [List.forall₂_iff_get] at h
  obtain ⟨hl, h⟩ := h
  have h2 : pre.length < (pre ++ I :: X).length := by simp
  have h1 : pre.length < v.length := by omega
  refine ⟨v[pre.length], List.getElem?_eq_getElem h1, ?_⟩
  have := h pre.length h1 h2
  simpa using this

/-- the boxes of the loop only share borders with `y` -/
theorem diffLoop_border (hd : IDiff compactness idiff) {X Y : Box K} : ∀ {pre b preY : Box K} {v : List K}, pre.length = preY.length → List.Forall₂ (Meet compactness) X Y →
    b ∈ diffLoop idiff pre X Y → RelInsideBox v b → ¬ InsideBox v (preY ++ Y) := by
  induction X generalizing Y with
  | nil => intro pre b preY v _ _ h; simp [diffLoop] at h
  | cons I X ih =>
    intro pre b preY v hl hm h hv hy
    cases hm with
    | @cons _ J _ Y h1 h2 =>
      simp only [diffLoop] at h
      obtain ⟨y, hy1, hy2⟩ := rel_split hy
      have hrec : ∀ Z, b ∈ diffLoop idiff (pre ++ [Z]) X Y → False := fun Z hb =>
        ih (pre := pre ++ [Z]) (preY := preY ++ [J]) (by simp [hl]) h2 hb hv (by simpa using hy)
      by_cases hc : (idiff I J).1.isEmpty = true
      · rw [if_neg (by simp [hc])] at h
        exact hrec I h
      · rw [if_pos (by simp [hc])] at h
        rcases List.mem_cons.mp h with rfl | h
        · obtain ⟨x, hx1, hx2⟩ := rel_split hv
          rw [hl, hy1] at hx1
          cases hx1
          exact (hd.border1 I J _ h1.1 h1.2 hx2).2 hy2
        · rcases List.mem_append.mp h with h | h
          · split_ifs at h
            · simp only [List.mem_singleton] at h
              subst h
              obtain ⟨x, hx1, hx2⟩ := rel_split hv
              rw [hl, hy1] at hx1
              cases hx1
              exact (hd.border2 I J _ h1.1 h1.2 hx2).2 hy2
            · simp at h
          · exact hrec _ h

/-- the boxes of the loop only share borders with each other -/
theorem diffLoop_pairwise (hd : IDiff compactness idiff) {X Y : Box K} : ∀ {pre : Box K}, List.Forall₂ (Meet compactness) X Y →
    (diffLoop idiff pre X Y).Pairwise fun b b' => ∀ v, RelInsideBox v b → ¬ RelInsideBox v b' := by
  induction X generalizing Y with
  | nil => intro pre _; simp [diffLoop]
  | cons I X ih =>
    intro pre hm
    cases hm with
    | @cons _ J _ Y h1 h2 =>
      simp only [diffLoop]
      by_cases hc : (idiff I J).1.isEmpty = true
      · rw [if_neg (by simp [hc])]
        exact ih h2
      · rw [if_pos (by simp [hc])]
        have later : ∀ (c : Itv K), (∀ x, RelInside c x → ¬ RelInside (I ⊓ J) x) → ∀ b ∈ diffLoop idiff (pre ++ [I ⊓ J]) X Y, ∀ v, RelInsideBox v (pre ++ c :: X) → ¬ RelInsideBox v b := by
          intro c hcx b hb v hv hvb
          obtain ⟨r, rfl, -⟩ := diffLoop_prefix hb
          obtain ⟨x, hx1, hx2⟩ := rel_split hv
          rw [List.append_assoc] at hvb
          obtain ⟨y, hy1, hy2⟩ := rel_split hvb
          rw [hx1] at hy1
          cases hy1
          exact hcx _ hx2 hy2
        have k1 := later _ fun x hx => (hd.border1 I J x h1.1 h1.2 hx).1
        have k2 := later _ fun x hx => (hd.border2 I J x h1.1 h1.2 hx).1
        refine List.pairwise_cons.mpr ⟨fun b hb v hv => ?_, ?_⟩
        · rcases List.mem_append.mp hb with h | h
          · split_ifs at h
            · simp only [List.mem_singleton] at h
              subst h
              intro hv'
              obtain ⟨x, hx1, hx2⟩ := rel_split hv
              obtain ⟨y, hy1, hy2⟩ := rel_split hv'
              rw [hx1] at hy1
              cases hy1
              exact hd.apart I J _ h1.1 hx2 hy2
            · simp at h
          · exact k1 b h v hv
        · split_ifs
          · exact List.pairwise_cons.mpr ⟨fun b hb v hv => k2 b hb v hv, ih h2⟩
          · exact ih h2

/-- if `x` is inside `y` the loop gives nothing -/
theorem diffLoop_nil {X Y : Box K} (hin : ∀ I J, I ≤ J → (idiff I J).1 = ⊥) (h : BoxLe X Y) : ∀ {pre : Box K}, diffLoop idiff pre X Y = [] := by
  unfold BoxLe at h
  induction h with
  | nil => intro pre; rfl
  | cons a _ ih =>
    intro pre
    simp only [diffLoop]
    rw [if_neg (by rw [hin _ _ a]; simp [Itv.isEmpty])]
    exact ih

theorem zip_any_false {f : Itv K → Itv K → Bool} {Z X : Box K} (h : (List.zipWith f Z X).any id = false) (hl : Z.length = X.length) : List.Forall₂ (fun z x => f z x = false) Z X := by
  induction Z generalizing X with
  | nil => cases X with
    | nil => exact .nil
    | cons => simp at hl
  | cons z Z ih => cases X with
    | nil => simp at hl
    | cons x X =>
      simp only [List.zipWith_cons_cons, List.any_cons, Bool.or_eq_false_iff, id_eq] at h
      exact .cons h.1 (ih h.2 (by simpa using hl))

/-- the cases of `diff` -/
theorem diff_cases [Nonempty K] [NoMinOrder K] [NoMaxOrder K] {X Y : Box K} (hl : X.length = Y.length) :
    (diff idiff compactness X Y = [List.replicate X.length ⊥] ∧ ∀ v, InBox v X ↔ InBox v Y) ∨
    (diff idiff compactness X Y = [X] ∧ ∀ v, InBox v X → ¬ InBox v Y) ∨
    (diff idiff compactness X Y = [X] ∧ ∃ (i : Nat) (I J : Itv K), X[i]? = some I ∧ Y[i]? = some J ∧ (I ⊓ J).isDegenerated = true ∧ I.isDegenerated = false) ∨
    (diff idiff compactness X Y = diffLoop idiff [] X Y ∧ List.Forall₂ (Meet compactness) X Y) := by
  unfold diff
  by_cases h1 : beq Y X = true
  · rw [if_pos h1]
    exact .inl ⟨rfl, fun v => ((beq_iff hl.symm).mp h1 v).symm⟩
  rw [if_neg h1]
  by_cases h2 : isEmpty (inter X Y) = true
  · rw [if_pos h2]
    exact .inr (.inl ⟨rfl, fun v hx hy => isEmpty_iff.mp h2 v ((mem_inter hl).mpr ⟨hx, hy⟩)⟩)
  rw [if_neg h2]
  have h2' : isEmpty (inter X Y) = false := by simpa using h2
  obtain ⟨v, hv⟩ := exists_inBox h2'
  obtain ⟨hvx, hvy⟩ := (mem_inter hl).mp hv
  have hz : inter X Y = List.zipWith (· ⊓ ·) X Y := by
    unfold inter
    rw [if_pos (by simp [not_isEmpty_of_mem hvx]), if_neg (by simp [not_isEmpty_of_mem hvy])]
  by_cases h3 : (compactness && (List.zipWith (fun Z I => Z.isDegenerated && !I.isDegenerated) (inter X Y) X).any id) = true
  · rw [if_pos h3]
    refine .inr (.inr (.inl ⟨rfl, ?_⟩))
    simp only [Bool.and_eq_true, List.any_eq_true, id_eq] at h3
    obtain ⟨-, b, hb, rfl⟩ := h3
    obtain ⟨i, hi⟩ := List.getElem?_of_mem hb
    rw [hz, List.getElem?_zipWith, List.getElem?_zipWith] at hi
    cases hX : X[i]? with
    | none => simp [hX] at hi
    | some I =>
      cases hY : Y[i]? with
      | none => simp [hX, hY] at hi
      | some J =>
        simp [hX, hY] at hi
        exact ⟨i, I, J, hX, hY, hi.1, hi.2⟩
  · rw [if_neg h3]
    refine .inr (.inr (.inr ⟨rfl, ?_⟩))
    rw [hz] at h3 h2'
    clear hz hv v hvx hvy h2 h1
    induction X generalizing Y with
    | nil => cases Y with
      | nil => exact .nil
      | cons => simp at hl
    | cons I X ih => cases Y with
      | nil => simp at hl
      | cons J Y =>
        simp only [List.zipWith_cons_cons, isEmpty_cons, Bool.or_eq_false_iff] at h2'
        simp only [List.zipWith_cons_cons, List.any_cons, id_eq, Bool.and_or_distrib_left, Bool.or_eq_true, not_or] at h3
        refine .cons ⟨Itv.isEmpty_false_iff.mp h2'.1, fun hc hd => ?_⟩ (ih (by simpa using hl) h2'.2 h3.2)
        by_contra hI
        exact h3.1 (by simp [hc, hd, hI])

theorem relInside_mem [Nonempty K] {I : Itv K} {x : K} (h : RelInside I x) : x ∈ I := by
  rcases h with ⟨a, b, ha, hb, h1, h2⟩ | rfl
  · exact Itv.mem_of_between ha hb h1.le h2.le
  · exact Itv.mem_point.mpr rfl

theorem inside_mem {I : Itv K} {x : K} (h : Inside I x) : x ∈ I := by
  obtain ⟨a, b, ha, hb, h1, h2⟩ := h
  exact Itv.mem_of_between ha hb h1.le h2.le

/-- two intervals whose intersection is flat in a thick interval do not share interior points -/
theorem flat_border {I J : Itv K} (hd : (I ⊓ J).isDegenerated = true) (hI : I.isDegenerated = false) {x : K} (h : RelInside I x) : ¬ Inside J x := by
  rintro ⟨a, b, ha, hb, h1, h2⟩
  rcases h with ⟨c, d, hc, hd', h3, h4⟩ | rfl
  · have m1 : max a c ∈ I ⊓ J := Itv.mem_inf.mpr ⟨Itv.mem_of_between hc hd' (le_max_right _ _) (max_le (h1.trans h4).le (h3.trans h4).le),
      Itv.mem_of_between ha hb (le_max_left _ _) (max_le (h1.trans h2).le (h3.trans h2).le)⟩
    have m2 : min b d ∈ I ⊓ J := Itv.mem_inf.mpr ⟨Itv.mem_of_between hc hd' (le_min (h3.trans h2).le (h3.trans h4).le) (min_le_right _ _),
      Itv.mem_of_between ha hb (le_min (h1.trans h2).le (h1.trans h4).le) (min_le_left _ _)⟩
    have hlt : max a c < min b d := lt_trans (max_lt h1 h3) (lt_min h2 h4)
    match hZ : I ⊓ J with
    | .empty => rw [hZ] at m1; exact m1
    | .mk (some p) (some q) _ =>
      rw [hZ] at m1 m2 hd
      simp only [Itv.isDegenerated, decide_eq_true_eq] at hd
      subst hd
      exact absurd (lt_of_le_of_lt m1.1 (lt_of_lt_of_le hlt m2.2)) (lt_irrefl _)
    | .mk none _ _ => rw [hZ] at hd; simp [Itv.isDegenerated] at hd
    | .mk (some _) none _ => rw [hZ] at hd; simp [Itv.isDegenerated] at hd
  · simp [Itv.isDegenerated, Itv.point] at hI


/-! ### `Interval::diff` as in IBEX: the assumption can be met -/

/-- the part of `I` before `Z` -/
def lowPart (I Z : Itv K) : Itv K := match Z.lb? with
  | some m => if I.lb? = some m then ⊥ else I ⊓ Itv.mk none (some m) trivial
  | none => ⊥

/-- the part of `I` after `Z` -/
def upPart (I Z : Itv K) : Itv K := match Z.ub? with
  | some m => if I.ub? = some m then ⊥ else I ⊓ Itv.mk (some m) none trivial
  | none => ⊥

/-- a difference of two intervals, as computed by IBEX (`Interval::diff`, an external function; exact here) -/
def ibexDiff (compactness : Bool) (I J : Itv K) : Itv K × Itv K :=
  if I ⊓ J = ⊥ then (I, ⊥)
  else if compactness && (I ⊓ J).isDegenerated && !I.isDegenerated then (I, ⊥)
  else if lowPart I (I ⊓ J) = ⊥ then (upPart I (I ⊓ J), ⊥) else (lowPart I (I ⊓ J), upPart I (I ⊓ J))

theorem lowPart_mk (I : Itv K) (m : K) (hi : Option K) (p) :
    lowPart I (.mk (some m) hi p) = if I.lb? = some m then ⊥ else I ⊓ Itv.mk none (some m) trivial := rfl

theorem upPart_mk (I : Itv K) (m : K) (lo : Option K) (p) :
    upPart I (.mk lo (some m) p) = if I.ub? = some m then ⊥ else I ⊓ Itv.mk (some m) none trivial := rfl

theorem lowPart_le (I Z : Itv K) : lowPart I Z ≤ I := by
  unfold lowPart
  split
  · split_ifs
    · exact bot_le
    · exact inf_le_left
  · exact bot_le

theorem upPart_le (I Z : Itv K) : upPart I Z ≤ I := by
  unfold upPart
  split
  · split_ifs
    · exact bot_le
    · exact inf_le_left
  · exact bot_le

theorem not_relInside_bot {x : K} : ¬ RelInside (⊥ : Itv K) x := by
  rintro (⟨a, b, ha, -⟩ | h)
  · exact Itv.not_mem_bot _ ha
  · have : x ∈ (⊥ : Itv K) := by rw [h]; exact Itv.mem_point.mpr rfl
    exact Itv.not_mem_bot _ this

theorem lowPart_inside [Nonempty K] [NoMinOrder K] [NoMaxOrder K] {I Z : Itv K} (hZ : Z ≤ I) {x : K} (h : RelInside (lowPart I Z) x) : ∃ m, Z.lb? = some m ∧ x < m := by
  match Z, hZ, h with
  | .empty, _, h => exact absurd h not_relInside_bot
  | .mk none _ _, _, h => exact absurd h not_relInside_bot
  | .mk (some m) hi p, hZ, h =>
    refine ⟨m, rfl, ?_⟩
    rw [lowPart_mk] at h
    by_cases hm : I.lb? = some m
    · rw [if_pos hm] at h
      exact absurd h not_relInside_bot
    · rw [if_neg hm] at h
      have hmI : m ∈ I := Itv.mem_of_le hZ (by
        refine ⟨le_rfl, ?_⟩
        cases hi with
        | none => trivial
        | some q => exact p)
      rcases h with ⟨a, b, ha, hb, h1, h2⟩ | h
      · exact lt_of_lt_of_le h2 (Itv.mem_inf.mp hb).2.2
      · exfalso
        have hmx : m ∈ Itv.point x := by rw [← h]; exact Itv.mem_inf.mpr ⟨hmI, trivial, le_rfl⟩
        rw [Itv.mem_point] at hmx
        subst hmx
        match I, hmI, hm, h with
        | .mk none h' _, hmI, hm, h =>
          obtain ⟨y, hy⟩ := exists_lt m
          have : y ∈ Itv.point m := by
            rw [← h]
            refine Itv.mem_inf.mpr ⟨⟨trivial, ?_⟩, trivial, hy.le⟩
            have := hmI.2
            cases h' with
            | none => trivial
            | some q => exact hy.le.trans this
          rw [Itv.mem_point] at this
          exact absurd this hy.ne
        | .mk (some l) h' p', hmI, hm, h =>
          have : l ∈ Itv.point m := by
            rw [← h]
            refine Itv.mem_inf.mpr ⟨⟨le_rfl, ?_⟩, trivial, hmI.1⟩
            cases h' with
            | none => trivial
            | some q => exact p'
          rw [Itv.mem_point] at this
          subst this
          exact hm rfl

theorem upPart_inside [Nonempty K] [NoMinOrder K] [NoMaxOrder K] {I Z : Itv K} (hZ : Z ≤ I) {x : K} (h : RelInside (upPart I Z) x) : ∃ m, Z.ub? = some m ∧ m < x := by
  match Z, hZ, h with
  | .empty, _, h => exact absurd h not_relInside_bot
  | .mk _ none _, _, h => exact absurd h not_relInside_bot
  | .mk lo (some m) p, hZ, h =>
    refine ⟨m, rfl, ?_⟩
    rw [upPart_mk] at h
    by_cases hm : I.ub? = some m
    · rw [if_pos hm] at h
      exact absurd h not_relInside_bot
    · rw [if_neg hm] at h
      have hmI : m ∈ I := Itv.mem_of_le hZ (by
        refine ⟨?_, le_rfl⟩
        cases lo with
        | none => trivial
        | some q => exact p)
      rcases h with ⟨a, b, ha, hb, h1, h2⟩ | h
      · exact lt_of_le_of_lt (Itv.mem_inf.mp ha).2.1 h1
      · exfalso
        have hmx : m ∈ Itv.point x := by rw [← h]; exact Itv.mem_inf.mpr ⟨hmI, le_rfl, trivial⟩
        rw [Itv.mem_point] at hmx
        subst hmx
        match I, hmI, hm, h with
        | .mk l' none _, hmI, hm, h =>
          obtain ⟨y, hy⟩ := exists_gt m
          have : y ∈ Itv.point m := by
            rw [← h]
            refine Itv.mem_inf.mpr ⟨⟨?_, trivial⟩, hy.le, trivial⟩
            have := hmI.1
            cases l' with
            | none => trivial
            | some q => exact le_trans this hy.le
          rw [Itv.mem_point] at this
          exact absurd this hy.ne'
        | .mk l' (some u) p', hmI, hm, h =>
          have : u ∈ Itv.point m := by
            rw [← h]
            refine Itv.mem_inf.mpr ⟨⟨?_, le_rfl⟩, hmI.2, trivial⟩
            cases l' with
            | none => trivial
            | some q => exact p'
          rw [Itv.mem_point] at this
          subst this
          exact hm rfl

theorem not_mem_of_lt_lb {Z : Itv K} {m x : K} (h : Z.lb? = some m) (hx : x < m) : x ∉ Z := by
  match Z, h with
  | .mk (some l) _ _, h =>
    cases h
    exact fun hm => absurd hm.1 (not_le.mpr hx)

theorem not_mem_of_gt_ub {Z : Itv K} {m x : K} (h : Z.ub? = some m) (hx : m < x) : x ∉ Z := by
  match Z, h with
  | .mk _ (some l) _, h =>
    cases h
    exact fun hm => absurd hm.2 (not_le.mpr hx)

/-- the difference of IBEX meets the assumption -/
theorem ibexDiff_ok [Nonempty K] [NoMinOrder K] [NoMaxOrder K] (compactness : Bool) : IDiff compactness (ibexDiff (K := K) compactness) := by
  have low : ∀ (I J : Itv K) x, RelInside (lowPart I (I ⊓ J)) x → ¬ RelInside (I ⊓ J) x ∧ ¬ Inside J x := by
    intro I J x h
    obtain ⟨m, hm, hx⟩ := lowPart_inside inf_le_left h
    have hn := not_mem_of_lt_lb hm hx
    exact ⟨fun h' => hn (relInside_mem h'), fun h' => hn (Itv.mem_inf.mpr ⟨Itv.mem_of_le (lowPart_le _ _) (relInside_mem h), inside_mem h'⟩)⟩
  have up : ∀ (I J : Itv K) x, RelInside (upPart I (I ⊓ J)) x → ¬ RelInside (I ⊓ J) x ∧ ¬ Inside J x := by
    intro I J x h
    obtain ⟨m, hm, hx⟩ := upPart_inside inf_le_left h
    have hn := not_mem_of_gt_ub hm hx
    exact ⟨fun h' => hn (relInside_mem h'), fun h' => hn (Itv.mem_inf.mpr ⟨Itv.mem_of_le (upPart_le _ _) (relInside_mem h), inside_mem h'⟩)⟩
  refine ⟨fun I J => ?_, fun I J => ?_, fun I J x hx hn => ?_, fun I J h => ?_, fun I J x h0 hc h => ?_, fun I J x h0 hc h => ?_, fun I J x h0 h => ?_⟩
  · unfold ibexDiff
    split_ifs
    · exact le_rfl
    · exact le_rfl
    · exact upPart_le _ _
    · exact lowPart_le _ _
  · unfold ibexDiff
    split_ifs
    · exact bot_le
    · exact bot_le
    · exact bot_le
    · exact upPart_le _ _
  · unfold ibexDiff
    by_cases h1 : I ⊓ J = ⊥
    · rw [if_pos h1]; exact .inl hx
    rw [if_neg h1]
    split_ifs with h2 h3
    · exact .inl hx
    all_goals
      have hz : x ∉ I ⊓ J := fun h => hn (Itv.mem_inf.mp h).2
      have key : x ∈ lowPart I (I ⊓ J) ∨ x ∈ upPart I (I ⊓ J) := by
        match hZ : I ⊓ J with
        | .empty => exact absurd hZ h1
        | .mk lo hi p =>
          rw [hZ] at hz
          have hle : Itv.mk lo hi p ≤ I := hZ ▸ inf_le_left
          by_cases hlo : loLe lo x
          · right
            have hhi : ¬ leHi x hi := fun h => hz ⟨hlo, h⟩
            cases hi with
            | none => exact absurd trivial hhi
            | some m =>
              have hmx : m < x := not_le.mp hhi
              rw [upPart_mk, if_neg]
              · exact Itv.mem_inf.mpr ⟨hx, hmx.le, trivial⟩
              · intro hu
                exact not_mem_of_gt_ub (Z := I) (m := m) hu hmx hx
          · left
            cases lo with
            | none => exact absurd trivial hlo
            | some m =>
              have hmx : x < m := not_le.mp hlo
              rw [lowPart_mk, if_neg]
              · exact Itv.mem_inf.mpr ⟨hx, trivial, hmx.le⟩
              · intro hu
                exact not_mem_of_lt_lb (Z := I) (m := m) hu hmx hx
    · rw [h3] at key
      exact .inl (key.resolve_left (Itv.not_mem_bot _))
    · exact key
  · unfold ibexDiff at h ⊢
    split_ifs at h ⊢
    · rfl
    · rfl
    · rfl
    · contradiction
  · unfold ibexDiff at h
    rw [if_neg h0] at h
    by_cases h2 : (compactness && (I ⊓ J).isDegenerated && !I.isDegenerated) = true
    · simp only [Bool.and_eq_true, Bool.not_eq_true'] at h2
      rw [hc h2.1.1 h2.1.2] at h2
      simp at h2
    · rw [if_neg h2] at h
      split_ifs at h
      · exact up I J x h
      · exact low I J x h
  · unfold ibexDiff at h
    rw [if_neg h0] at h
    split_ifs at h
    · exact absurd h not_relInside_bot
    · exact absurd h not_relInside_bot
    · exact up I J x h
  · unfold ibexDiff at h ⊢
    rw [if_neg h0] at h ⊢
    split_ifs at h ⊢
    · exact not_relInside_bot
    · exact not_relInside_bot
    · intro h'
      obtain ⟨m, hm, hx⟩ := lowPart_inside inf_le_left h
      obtain ⟨m', hm', hx'⟩ := upPart_inside inf_le_left h'
      match hZ : I ⊓ J, h0 with
      | .mk (some a) (some b) p, _ =>
        rw [hZ] at hm hm'
        cases hm
        cases hm'
        exact absurd (lt_of_le_of_lt (show m ≤ m' from p) hx') (not_lt.mpr hx.le)
      | .mk none _ _, _ => rw [hZ] at hm; cases hm
      | .mk (some _) none _, _ => rw [hZ] at hm'; cases hm'

/-- nothing is left of an interval inside the other one -/
theorem ibexDiff_inside {compactness : Bool} {I J : Itv K} (h : I ≤ J) (hI : I ≠ ⊥) : (ibexDiff compactness I J).1 = ⊥ := by
  have hz : I ⊓ J = I := inf_eq_left.mpr h
  unfold ibexDiff
  rw [hz, if_neg hI, if_neg (by simp)]
  have h1 : lowPart I I = ⊥ := by
    unfold lowPart
    split
    · rename_i m hm; rw [if_pos hm]
    · rfl
  have h2 : upPart I I = ⊥ := by
    unfold upPart
    split
    · rename_i m hm; rw [if_pos hm]
    · rfl
  rw [if_pos h1, h2]

end Codac.Bx
