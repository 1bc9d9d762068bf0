import Verif.Geometry.Convex

/-!
# Proofs on `ConvexPolygon::contains` and `ConvexPolygon::fast_intersection`
-/

set_option linter.unusedSectionVars false

namespace Codac.Poly
open Codac.Graham

variable {K : Type*} [Field K] [LinearOrder K] [IsStrictOrderedRing K]

/-- the point is in the box -/
def In (q : Pt K) (X : TPt K) : Prop := q.1 ∈ X.1 ∧ q.2 ∈ X.2

theorem mem_hull2 {a b x : K} : x ∈ (Itv.point a ⊔ Itv.point b : Itv K) ↔ (a ≤ x ∧ x ≤ b) ∨ (b ≤ x ∧ x ≤ a) := by
  constructor
  · intro h
    rcases le_total a b with hab | hab
    · left
      have hle : (Itv.point a ⊔ Itv.point b : Itv K) ≤ Itv.icc a b := by
        apply sup_le <;> rw [Itv.le_iff] <;> intro y hy <;> rw [Itv.mem_point] at hy <;> subst hy <;> rw [Itv.mem_icc]
        · exact ⟨le_rfl, hab⟩
        · exact ⟨hab, le_rfl⟩
      exact Itv.mem_icc.mp (Itv.mem_of_le hle h)
    · right
      have hle : (Itv.point a ⊔ Itv.point b : Itv K) ≤ Itv.icc b a := by
        apply sup_le <;> rw [Itv.le_iff] <;> intro y hy <;> rw [Itv.mem_point] at hy <;> subst hy <;> rw [Itv.mem_icc]
        · exact ⟨hab, le_rfl⟩
        · exact ⟨le_rfl, hab⟩
      exact Itv.mem_icc.mp (Itv.mem_of_le hle h)
  · rintro (⟨h1, h2⟩ | ⟨h1, h2⟩)
    · exact Itv.mem_of_between (Itv.mem_sup_left (Itv.mem_point.mpr rfl)) (Itv.mem_sup_right (Itv.mem_point.mpr rfl)) h1 h2
    · exact Itv.mem_of_between (Itv.mem_sup_right (Itv.mem_point.mpr rfl)) (Itv.mem_sup_left (Itv.mem_point.mpr rfl)) h1 h2

theorem in_tpt {q : Pt K} {x y : Itv K} : In q (tpt x y) ↔ q.1 ∈ x ∧ q.2 ∈ y := by
  unfold tpt In
  split_ifs with h
  · rw [Bool.or_eq_true, Itv.isEmpty_iff, Itv.isEmpty_iff] at h
    constructor
    · intro k; exact absurd k.1 (by rw [Itv.bot_eq]; exact fun h => h)
    · rintro ⟨k1, k2⟩
      rcases h with h | h
      · rw [h] at k1; exact absurd k1 (by rw [Itv.bot_eq]; exact fun h => h)
      · rw [h] at k2; exact absurd k2 (by rw [Itv.bot_eq]; exact fun h => h)
  · exact Iff.rfl

theorem in_ofPt {q p : Pt K} : In q (ofPt p) ↔ q = p := by
  unfold In ofPt
  simp only [Itv.mem_point]
  constructor
  · rintro ⟨h1, h2⟩; exact Prod.ext h1 h2
  · rintro rfl; exact ⟨rfl, rfl⟩

theorem in_sup_left {q : Pt K} {X Y : TPt K} (h : In q X) : In q (X ⊔ Y) := ⟨Itv.mem_sup_left h.1, Itv.mem_sup_left h.2⟩
theorem in_sup_right {q : Pt K} {X Y : TPt K} (h : In q Y) : In q (X ⊔ Y) := ⟨Itv.mem_sup_right h.1, Itv.mem_sup_right h.2⟩

theorem not_in_bot {q : Pt K} : ¬ In q (⊥ : TPt K) := fun h => h.1

theorem tpt_cases (x y : Itv K) : tpt x y = ⊥ ∨ ∃ q, In q (tpt x y) := by
  unfold tpt
  split_ifs with h
  · exact .inl rfl
  · right
    rw [Bool.or_eq_true, Itv.isEmpty_iff, Itv.isEmpty_iff, not_or] at h
    obtain ⟨a, ha⟩ := Itv.exists_mem h.1
    obtain ⟨b, hb⟩ := Itv.exists_mem h.2
    exact ⟨(a, b), ha, hb⟩

theorem tpt_eq_ofPt {x y : Itv K} {p : Pt K} (h : ∀ q, In q (tpt x y) ↔ q = p) : tpt x y = ofPt p := by
  have hp : In p (tpt x y) := (h p).mpr rfl
  have h1 : ∀ a, a ∈ (tpt x y).1 ↔ a = p.1 := fun a => by
    constructor
    · intro ha
      have := (h (a, p.2)).mp ⟨ha, hp.2⟩
      rw [← this]
    · rintro rfl; exact hp.1
  have h2 : ∀ a, a ∈ (tpt x y).2 ↔ a = p.2 := fun a => by
    constructor
    · intro ha
      have := (h (p.1, a)).mp ⟨hp.1, ha⟩
      rw [← this]
    · rintro rfl; exact hp.2
  refine Prod.ext (Itv.ext_mem fun a => ?_) (Itv.ext_mem fun a => ?_)
  · rw [h1]; simp [ofPt, Itv.mem_point]
  · rw [h2]; simp [ofPt, Itv.mem_point]

theorem OnSeg.in_ebox {e : Edge K} {q : Pt K} (h : OnSeg e.1 e.2 q) : In q (ebox e) := by
  obtain ⟨s, s0, s1, h1, h2⟩ := h
  constructor
  · simp only [ebox]
    rw [mem_hull2, h1]
    rcases le_total e.1.1 e.2.1 with h | h
    · left; constructor <;> nlinarith
    · right; constructor <;> nlinarith
  · simp only [ebox]
    rw [mem_hull2, h2]
    rcases le_total e.1.2 e.2.2 with h | h
    · left; constructor <;> nlinarith
    · right; constructor <;> nlinarith

/-- on the line of the edge and in its box: on the edge -/
theorem onSeg_of_ebox {e : Edge K} {q : Pt K} (h : In q (ebox e)) (hc : cr e.1 e.2 q = 0) : OnSeg e.1 e.2 q := by
  obtain ⟨h1, h2⟩ := h
  simp only [ebox, mem_hull2] at h1 h2
  unfold cr at hc
  by_cases hx : e.1.1 = e.2.1
  · have hq1 : q.1 = e.1.1 := by rcases h1 with ⟨k1, k2⟩ | ⟨k1, k2⟩ <;> linarith
    by_cases hy : e.1.2 = e.2.2
    · refine ⟨0, le_rfl, zero_le_one, by rw [hq1]; ring, ?_⟩
      rcases h2 with ⟨k1, k2⟩ | ⟨k1, k2⟩ <;> linarith
    · have hd : e.2.2 - e.1.2 ≠ 0 := fun h => hy (by linarith)
      have e2 : q.2 = e.1.2 + (q.2 - e.1.2) / (e.2.2 - e.1.2) * (e.2.2 - e.1.2) := by rw [div_mul_cancel₀ _ hd]; ring
      rcases h2 with ⟨k1, k2⟩ | ⟨k1, k2⟩
      · refine ⟨(q.2 - e.1.2) / (e.2.2 - e.1.2), div_nonneg (by linarith) (by linarith), ?_, by rw [hq1, hx]; ring, e2⟩
        have : 0 < e.2.2 - e.1.2 := lt_of_le_of_ne (by linarith) (Ne.symm hd)
        rw [div_le_one this]; linarith
      · have hneg : e.2.2 - e.1.2 < 0 := lt_of_le_of_ne (by linarith) hd
        refine ⟨(q.2 - e.1.2) / (e.2.2 - e.1.2), div_nonneg_of_nonpos (by linarith) hneg.le, ?_, by rw [hq1, hx]; ring, e2⟩
        rw [div_le_one_of_neg hneg]; linarith
  · have hd : e.2.1 - e.1.1 ≠ 0 := fun h => hx (by linarith)
    have e1 : q.1 = e.1.1 + (q.1 - e.1.1) / (e.2.1 - e.1.1) * (e.2.1 - e.1.1) := by rw [div_mul_cancel₀ _ hd]; ring
    have e2 : q.2 = e.1.2 + (q.1 - e.1.1) / (e.2.1 - e.1.1) * (e.2.2 - e.1.2) := by
      field_simp
      linear_combination hc
    rcases h1 with ⟨k1, k2⟩ | ⟨k1, k2⟩
    · have : 0 < e.2.1 - e.1.1 := lt_of_le_of_ne (by linarith) (Ne.symm hd)
      exact ⟨_, div_nonneg (by linarith) this.le, by rw [div_le_one this]; linarith, e1, e2⟩
    · have hneg : e.2.1 - e.1.1 < 0 := lt_of_le_of_ne (by linarith) hd
      exact ⟨_, div_nonneg_of_nonpos (by linarith) hneg.le, by rw [div_le_one_of_neg hneg]; linarith, e1, e2⟩

/-- the intersection of two edges is in their boxes -/
theorem interE_in_ebox {z : K → Itv K} {e f : Edge K} {q : Pt K} (h : In q (interE z e f)) : In q (ebox e) ∧ In q (ebox f) := by
  unfold interE at h
  rw [in_tpt, Itv.mem_inf, Itv.mem_inf, Itv.mem_inf, Itv.mem_inf] at h
  exact ⟨⟨h.1.1.2, h.2.1.2⟩, ⟨h.1.2, h.2.2⟩⟩

/-- a common point of an edge and of an edge parallel to an axis is in the computed intersection -/
theorem interE_complete (z : K → Itv K) {e f : Edge K} {q : Pt K} (hf : ¬ degen f) (hax : vert f ∨ horiz f) (h1 : OnSeg e.1 e.2 q)
    (h2 : OnSeg f.1 f.2 q) : In q (interE z e f) := by
  have b1 := h1.in_ebox
  have b2 := h2.in_ebox
  have c1 := h1.cr_eq
  suffices hp : In q (proj z e f) by
    unfold interE
    rw [in_tpt, Itv.mem_inf, Itv.mem_inf, Itv.mem_inf, Itv.mem_inf]
    exact ⟨⟨⟨hp.1, b1.1⟩, b2.1⟩, ⟨hp.2, b1.2⟩, b2.2⟩
  unfold proj
  rw [if_neg (fun h => hf h.2)]
  unfold projAux
  rw [if_neg (fun h => hf h.2)]
  have hv0 : vert f → q.1 = f.1.1 := by
    intro hv
    have := b2.1
    simp only [ebox, mem_hull2] at this
    have hv' : f.1.1 = f.2.1 := hv
    rcases this with ⟨k1, k2⟩ | ⟨k1, k2⟩ <;> linarith
  have hh0 : horiz f → q.2 = f.1.2 := by
    intro hv
    have := b2.2
    simp only [ebox, mem_hull2] at this
    have hv' : f.1.2 = f.2.2 := hv
    rcases this with ⟨k1, k2⟩ | ⟨k1, k2⟩ <;> linarith
  unfold cr at c1
  by_cases hv : vert f
  · rw [if_pos hv]
    split_ifs with k1 k2 k3
    · rw [in_tpt, Itv.mem_inf]; exact ⟨⟨b1.1, b2.1⟩, b1.2⟩
    · rw [in_tpt, Itv.mem_inf]; exact ⟨⟨b1.1, b2.1⟩, Itv.mem_top _⟩
    · rw [in_tpt]; exact ⟨b2.1, b1.2⟩
    · dsimp only
      rw [in_tpt, Itv.mem_point]
      refine ⟨b2.1, ?_⟩
      have hd : e.2.1 - e.1.1 ≠ 0 := fun h => k2 (by show e.1.1 = e.2.1; linarith)
      rw [← hv0 hv]
      field_simp
      linear_combination c1
  · have hh : horiz f := hax.resolve_left hv
    rw [if_neg hv, if_pos hh]
    split_ifs with k1 k2 k3
    · rw [in_tpt, Itv.mem_inf]; exact ⟨b1.1, b1.2, b2.2⟩
    · rw [in_tpt, Itv.mem_inf]; exact ⟨Itv.mem_top _, b1.2, b2.2⟩
    · rw [in_tpt]; exact ⟨b1.1, b2.2⟩
    · dsimp only
      rw [in_tpt, Itv.mem_point]
      refine ⟨?_, b2.2⟩
      have hd : e.2.1 - e.1.1 ≠ 0 := fun h => k3 (by show e.1.1 = e.2.1; linarith)
      have hd2 : e.2.2 - e.1.2 ≠ 0 := fun h => k2 (by show e.1.2 = e.2.2; linarith)
      rw [← hh0 hh]
      field_simp
      linear_combination (-1 : K) * c1

/-- the intersection computed for an edge that is not horizontal and a horizontal one only has common points -/
theorem interE_sound {z : K → Itv K} {e f : Edge K} {q : Pt K} (he : ¬ horiz e) (hf : horiz f) (hfd : ¬ degen f)
    (h : In q (interE z e f)) : OnSeg e.1 e.2 q ∧ OnSeg f.1 f.2 q := by
  obtain ⟨b1, b2⟩ := interE_in_ebox h
  have hq2 : q.2 = f.1.2 := by
    have := b2.2
    simp only [ebox, mem_hull2] at this
    have hv' : f.1.2 = f.2.2 := hf
    rcases this with ⟨k1, k2⟩ | ⟨k1, k2⟩ <;> linarith
  have hf' : f.1.2 = f.2.2 := hf
  have hv : ¬ vert f := fun hv => hfd (Prod.ext hv hf)
  refine ⟨onSeg_of_ebox b1 ?_, onSeg_of_ebox b2 (by unfold cr; rw [hq2, ← hf']; ring)⟩
  unfold interE at h
  rw [in_tpt, Itv.mem_inf, Itv.mem_inf] at h
  have hp1 := h.1.1.1
  unfold proj at hp1
  rw [if_neg (fun h => hfd h.2)] at hp1
  unfold projAux at hp1
  rw [if_neg (fun h => hfd h.2), if_neg hv, if_pos hf] at hp1
  have hed : ¬ degen e := fun h => he (by show e.1.2 = e.2.2; rw [show e.1 = e.2 from h])
  rw [if_neg hed, if_neg he] at hp1
  have hd2 : e.2.2 - e.1.2 ≠ 0 := fun h => he (by show e.1.2 = e.2.2; linarith)
  split_ifs at hp1 with k
  · have hk : e.1.1 = e.2.1 := k
    have hb := b1.1
    simp only [ebox, mem_hull2] at hb
    have : q.1 = e.1.1 := by rcases hb with ⟨k1, k2⟩ | ⟨k1, k2⟩ <;> linarith
    unfold cr; rw [this, hk]; ring
  · dsimp only at hp1
    have hd : e.2.1 - e.1.1 ≠ 0 := fun h => k (by show e.1.1 = e.2.1; linarith)
    have hq : q.1 = e.1.1 + (f.1.2 - e.1.2) / ((e.2.2 - e.1.2) / (e.2.1 - e.1.1)) := by
      unfold tpt at hp1
      split_ifs at hp1 with hem
      · exact absurd hp1 (by rw [Itv.bot_eq]; exact fun h => h)
      · exact Itv.mem_point.mp hp1
    unfold cr
    rw [hq2, hq]
    field_simp
    ring

/-- the intersection computed with a horizontal edge is nothing, or a point -/
theorem interE_point (z : K → Itv K) {e f : Edge K} {r : Pt K} (he : ¬ horiz e) (hf : horiz f) (hfd : ¬ degen f) (h1 : OnSeg e.1 e.2 r)
    (h2 : OnSeg f.1 f.2 r) : interE z e f = ofPt r := by
  unfold interE
  apply tpt_eq_ofPt
  intro q
  have key : In q (interE z e f) ↔ q = r := by
    constructor
    · intro h
      obtain ⟨k1, k2⟩ := interE_sound he hf hfd h
      have hf' : f.1.2 = f.2.2 := hf
      have e2 : q.2 = r.2 := by
        obtain ⟨s, _, _, _, i2⟩ := k2
        obtain ⟨s', _, _, _, j2⟩ := h2
        rw [i2, j2, ← hf']; ring
      have c1 := k1.cr_eq
      have c2 := h1.cr_eq
      unfold cr at c1 c2
      have hd2 : e.2.2 - e.1.2 ≠ 0 := fun h => he (by show e.1.2 = e.2.2; linarith)
      refine Prod.ext ?_ e2
      apply mul_left_cancel₀ hd2
      rw [e2] at c1
      linear_combination c2 - c1
    · rintro rfl
      exact interE_complete z hfd (.inr hf) h1 h2
  exact key

theorem interE_bot (z : K → Itv K) {e f : Edge K} (he : ¬ horiz e) (hf : horiz f) (hfd : ¬ degen f)
    (h : ∀ r, OnSeg e.1 e.2 r → ¬ OnSeg f.1 f.2 r) : interE z e f = ⊥ := by
  rcases tpt_cases ((proj z e f).1 ⊓ (ebox e).1 ⊓ (ebox f).1) ((proj z e f).2 ⊓ (ebox e).2 ⊓ (ebox f).2) with k | ⟨q, k⟩
  · exact k
  · obtain ⟨k1, k2⟩ := interE_sound he hf hfd k
    exact absurd k2 (h q k1)

/-! ### `contains` -/

/-- a point on an edge: `MAYBE` -/
theorem rayLoop_maybe (z : K → Itv K) {ray : Edge K} {lo hi : K} (hr : horiz ray) (hrd : ¬ degen ray) {es : List (Edge K)} {e : Edge K} (he : e ∈ es)
    (hp : OnSeg e.1 e.2 ray.1) : ∀ prev a, rayLoop z ray lo hi es prev a = .maybe := by
  induction es with
  | nil => simp at he
  | cons f es ih =>
    intro prev a
    rcases List.mem_cons.mp he with rfl | he
    · have hin := interE_complete z hrd (.inr hr) hp (OnSeg.left ray.1 ray.2)
      unfold rayLoop
      rw [if_neg (not_not.mpr hp.in_ebox.2)]
      dsimp only
      rw [if_pos (fun h => not_in_bot (h ▸ hin)), if_pos hin.1]
    · unfold rayLoop
      dsimp only
      split_ifs <;> first | rfl | exact ih he _ _

/-- number of changes counted by the loop: edges out of the line (`none`), edges that do not cross the ray (`some false`) or that cross it
(`some true`); `b`: the previous edge crosses it -/
def cnt : List (Option Bool) → Bool → Nat
  | [], _ => 0
  | none :: l, b => cnt l b
  | some false :: l, _ => cnt l false
  | some true :: l, true => cnt l true
  | some true :: l, false => 1 + cnt l true

theorem cnt_skip (A C : List (Option Bool)) (h : some true ∉ A) (b : Bool) :
    cnt (A ++ C) b = cnt C (if some false ∈ A then false else b) := by
  induction A generalizing b with
  | nil => simp
  | cons x A ih =>
    rw [List.mem_cons, not_or] at h
    match x, h with
    | none, h =>
      simp only [List.cons_append, cnt, List.mem_cons, reduceCtorEq, false_or]
      exact ih h.2 b
    | some false, h =>
      simp only [List.cons_append, cnt, List.mem_cons, true_or, if_true]
      rw [ih h.2 false]
      split_ifs <;> rfl
    | some true, h => exact absurd rfl h.1

theorem cnt_nil_of (A : List (Option Bool)) (h : some true ∉ A) (b : Bool) : cnt A b = 0 := by
  have := cnt_skip A [] h b
  rw [List.append_nil] at this
  rw [this]; rfl

/-- the edges that cross the ray are next to each other, some other edge crosses the line: one change is counted -/
theorem cnt_one {L : List (Option Bool)} (h1 : some true ∈ L) (h2 : some false ∈ L)
    (h3 : ∀ i j, L[i]? = some (some true) → L[j]? = some (some true) → i < j → j = i + 1 ∨ (i = 0 ∧ j + 1 = L.length)) :
    cnt L (decide (L.getLast? = some (some true))) = 1 := by
  -- first edge that crosses the ray
  obtain ⟨A, C, rfl, hA⟩ := List.eq_append_cons_of_mem h1
  by_cases hC : some true ∈ C
  · obtain ⟨B1, B2, rfl, hB1⟩ := List.eq_append_cons_of_mem hC
    have i1 : (A ++ some true :: (B1 ++ some true :: B2))[A.length]? = some (some true) := by simp
    have i2 : (A ++ some true :: (B1 ++ some true :: B2))[A.length + 1 + B1.length]? = some (some true) := by
      rw [List.getElem?_append_right (by omega)]
      have : A.length + 1 + B1.length - A.length = B1.length + 1 := by omega
      rw [this, List.getElem?_cons_succ, List.getElem?_append_right (by omega), Nat.sub_self]; rfl
    have hlen : (A ++ some true :: (B1 ++ some true :: B2)).length = A.length + 1 + B1.length + 1 + B2.length := by
      simp; omega
    have hB2 : some true ∉ B2 := by
      intro hm
      obtain ⟨k, hk⟩ := List.mem_iff_getElem?.mp hm
      have hkl : k < B2.length := (List.getElem?_eq_some_iff.mp hk).1
      have i3 : (A ++ some true :: (B1 ++ some true :: B2))[A.length + 1 + B1.length + 1 + k]? = some (some true) := by
        rw [List.getElem?_append_right (by omega)]
        have : A.length + 1 + B1.length + 1 + k - A.length = (B1.length + 1 + k) + 1 := by omega
        rw [this, List.getElem?_cons_succ, List.getElem?_append_right (by omega)]
        have : B1.length + 1 + k - B1.length = k + 1 := by omega
        rw [this, List.getElem?_cons_succ]; exact hk
      have j1 := h3 _ _ i1 i2 (by omega)
      have j2 := h3 _ _ i1 i3 (by omega)
      have j3 := h3 _ _ i2 i3 (by omega)
      rw [hlen] at j1 j2 j3
      -- only three edges, all crossing
      have ha : A.length = 0 := by omega
      have hb : B1.length = 0 := by omega
      have hB : B2.length = 1 := by omega
      rw [List.length_eq_zero_iff] at ha hb
      subst ha hb
      obtain ⟨x, rfl⟩ := List.length_eq_one_iff.mp hB
      have : x = some true := by
        have := List.mem_singleton.mp hm; exact this.symm
      subst this
      simp at h2
    have j1 := h3 _ _ i1 i2 (by omega)
    rw [hlen] at j1
    rcases j1 with j1 | ⟨j1, j2⟩
    · -- consecutive
      have hb : B1 = [] := List.length_eq_zero_iff.mp (by omega)
      subst hb
      simp only [List.nil_append]
      rw [cnt_skip A _ hA]
      have hf : (if some false ∈ A then false else decide ((A ++ some true :: some true :: B2).getLast? = some (some true))) = false := by
        split_ifs with hin
        · rfl
        · rw [decide_eq_false_iff_not]
          have hB : some false ∈ B2 := by
            simp only [List.nil_append, List.mem_append, List.mem_cons] at h2
            rcases h2 with h | h | h | h
            · exact absurd h hin
            · simp at h
            · simp at h
            · exact h
          have hne : B2 ≠ [] := List.ne_nil_of_mem hB
          obtain ⟨B3, x, rfl⟩ := (List.eq_nil_or_concat B2).resolve_left hne
          intro hl
          have : x = some true := by
            rw [List.getLast?_append, List.concat_eq_append] at hl
            simpa [List.getLast?_cons, List.getLast?_append] using hl
          exact hB2 (by rw [this]; simp)
      rw [hf]
      simp only [cnt]
      rw [cnt_nil_of B2 hB2]
    · -- the last one and the first one
      have ha : A = [] := List.length_eq_zero_iff.mp (by omega)
      have hb : B2 = [] := List.length_eq_zero_iff.mp (by omega)
      subst ha hb
      have hlast : ([] ++ some true :: (B1 ++ [some true]) : List (Option Bool)).getLast? = some (some true) := by
        rw [List.nil_append, ← List.cons_append, List.getLast?_append]; rfl
      rw [hlast]
      simp only [List.nil_append, decide_true, cnt]
      rw [cnt_skip B1 _ hB1]
      have hB : some false ∈ B1 := by simpa using h2
      rw [if_pos hB]
      rfl
  · -- only one edge crosses the ray
    rw [cnt_skip A _ hA]
    have hf : (if some false ∈ A then false else decide ((A ++ some true :: C).getLast? = some (some true))) = false := by
      split_ifs with hin
      · rfl
      · rw [decide_eq_false_iff_not]
        have hB : some false ∈ C := by
          simp only [List.mem_append, List.mem_cons] at h2
          rcases h2 with h | h | h
          · exact absurd h hin
          · simp at h
          · exact h
        have hne : C ≠ [] := List.ne_nil_of_mem hB
        obtain ⟨B3, x, rfl⟩ := (List.eq_nil_or_concat C).resolve_left hne
        intro hl
        have : x = some true := by
            rw [List.getLast?_append, List.concat_eq_append] at hl
            simpa [List.getLast?_cons, List.getLast?_append] using hl
        exact hC (by rw [this]; simp)
    rw [hf]
    simp only [cnt]
    rw [cnt_nil_of C hC]

/-- the label of an edge -/
def label (z : K → Itv K) (ray : Edge K) (e : Edge K) : Option Bool :=
  if ray.1.2 ∉ (ebox e).2 then none else some (decide (interE z e ray ≠ ⊥))

theorem rayLoop_count (z : K → Itv K) {ray : Edge K} {lo hi : K} {r : Pt K} (hx : ray.1.1 < r.1) (hlo : lo ≠ r.2) (hhi : hi ≠ r.2)
    (es : List (Edge K)) : ∀ (b : Bool) (a : Nat), (∀ e ∈ es, ray.1.2 ∈ (ebox e).2 → interE z e ray = ⊥ ∨ interE z e ray = ofPt r) →
      rayLoop z ray lo hi es (if b then ofPt r else ⊥) a = if (a + cnt (es.map (label z ray)) b) % 2 = 1 then .yes else .no := by
  have hne : ofPt r ≠ (⊥ : TPt K) := fun h => not_in_bot (h ▸ (in_ofPt.mpr rfl : In r (ofPt r)))
  induction es with
  | nil => intro b a _; simp [rayLoop, cnt]
  | cons e es ih =>
    intro b a h
    have h' : ∀ e ∈ es, ray.1.2 ∈ (ebox e).2 → interE z e ray = ⊥ ∨ interE z e ray = ofPt r :=
      fun f hf => h f (List.mem_cons_of_mem _ hf)
    unfold rayLoop
    dsimp only
    rw [List.map_cons]
    by_cases hfl : ray.1.2 ∈ (ebox e).2
    · rw [if_neg (not_not.mpr hfl)]
      rcases h e (by simp) hfl with k | k
      · have hl : label z ray e = some false := by
          unfold label; rw [if_neg (not_not.mpr hfl), k]; simp
        rw [if_neg (not_not.mpr k), hl]
        have := ih false a h'
        simp only [Bool.false_eq_true, if_false] at this
        rw [k, this]
        cases b <;> rfl
      · have hl : label z ray e = some true := by
          unfold label; rw [if_neg (not_not.mpr hfl), k]; simp [hne]
        rw [k, if_pos hne, hl]
        have n1 : ¬ ray.1.1 ∈ (ofPt r).1 := by
          simp only [ofPt, Itv.mem_point]; exact hx.ne
        have n2 : ¬ (lo ∈ (ofPt r).2 ∨ hi ∈ (ofPt r).2) := by
          simp only [ofPt, Itv.mem_point, not_or]; exact ⟨hlo, hhi⟩
        rw [if_neg n1, if_neg n2]
        cases b with
        | true =>
          have : (ofPt r).1.intersects (ofPt r).1 = true :=
            Itv.intersects_of_mem (x := r.1) (by simp [ofPt, Itv.mem_point]) (by simp [ofPt, Itv.mem_point])
          simp only [if_true]
          rw [if_pos this]
          have := ih true a h'
          simp only [if_true] at this
          rw [this]; rfl
        | false =>
          have hb : ((⊥ : TPt K).1).intersects (ofPt r).1 = false := by
            unfold Itv.intersects
            have : (⊥ : TPt K).1 ⊓ (ofPt r).1 = ⊥ := bot_inf_eq _
            rw [this]; rfl
          simp only [Bool.false_eq_true, if_false]
          rw [hb]
          simp only [Bool.false_eq_true, if_false]
          have hc : ((ofPt r).1.bounds?.map fun b => decide (ray.1.1 < b.1)) = some true := by
            simp only [ofPt, Itv.point, Itv.bounds?, Option.map_some, decide_eq_true hx]
          rw [if_pos hc]
          have := ih true (a + 1) h'
          simp only [if_true] at this
          rw [this]
          simp only [cnt]
          congr 1
          rw [add_assoc]
    · have hl : label z ray e = none := by unfold label; rw [if_pos hfl]
      rw [if_pos hfl, hl, ih b a h']
      cases b <;> rfl

/-! ### box of a polygon -/

theorem pbox_fold (l : List (Pt K)) : ∀ {a b c d : K} (hab : a ≤ b) (hcd : c ≤ d), ∃ a' b' c' d' : K, ∃ h1 : a' ≤ b', ∃ h2 : c' ≤ d',
    l.foldl (fun b p => b ⊔ ofPt p) ((.mk (some a) (some b) hab, .mk (some c) (some d) hcd) : TPt K)
      = (.mk (some a') (some b') h1, .mk (some c') (some d') h2) ∧
    (a' ≤ a ∧ b ≤ b' ∧ c' ≤ c ∧ d ≤ d') ∧ (∀ u ∈ l, a' ≤ u.1 ∧ u.1 ≤ b' ∧ c' ≤ u.2 ∧ u.2 ≤ d') ∧
    (a' = a ∨ ∃ u ∈ l, u.1 = a') ∧ (b' = b ∨ ∃ u ∈ l, u.1 = b') ∧ (c' = c ∨ ∃ u ∈ l, u.2 = c') ∧ (d' = d ∨ ∃ u ∈ l, u.2 = d') := by
  induction l with
  | nil => intro a b c d hab hcd; exact ⟨a, b, c, d, hab, hcd, rfl, ⟨le_rfl, le_rfl, le_rfl, le_rfl⟩, by simp, by simp, by simp, by simp, by simp⟩
  | cons p l ih =>
    intro a b c d hab hcd
    obtain ⟨a', b', c', d', h1, h2, he, ⟨i1, i2, i3, i4⟩, hm, j1, j2, j3, j4⟩ := ih (a := min a p.1) (b := max b p.1) (c := min c p.2)
      (d := max d p.2) (le_trans (min_le_left _ _) (le_trans hab (le_max_left _ _))) (le_trans (min_le_left _ _) (le_trans hcd (le_max_left _ _)))
    refine ⟨a', b', c', d', h1, h2, ?_, ⟨le_trans i1 (min_le_left _ _), le_trans (le_max_left _ _) i2, le_trans i3 (min_le_left _ _),
      le_trans (le_max_left _ _) i4⟩, ?_, ?_, ?_, ?_, ?_⟩
    · rw [List.foldl_cons, ← he]
      congr 1
    · intro u hu
      rcases List.mem_cons.mp hu with rfl | hu
      · exact ⟨le_trans i1 (min_le_right _ _), le_trans (le_max_right _ _) i2, le_trans i3 (min_le_right _ _), le_trans (le_max_right _ _) i4⟩
      · exact hm u hu
    · rcases j1 with j | ⟨u, hu, j⟩
      · rcases min_choice a p.1 with k | k
        · left; rw [j, k]
        · right; exact ⟨p, by simp, by rw [j, k]⟩
      · right; exact ⟨u, List.mem_cons_of_mem _ hu, j⟩
    · rcases j2 with j | ⟨u, hu, j⟩
      · rcases max_choice b p.1 with k | k
        · left; rw [j, k]
        · right; exact ⟨p, by simp, by rw [j, k]⟩
      · right; exact ⟨u, List.mem_cons_of_mem _ hu, j⟩
    · rcases j3 with j | ⟨u, hu, j⟩
      · rcases min_choice c p.2 with k | k
        · left; rw [j, k]
        · right; exact ⟨p, by simp, by rw [j, k]⟩
      · right; exact ⟨u, List.mem_cons_of_mem _ hu, j⟩
    · rcases j4 with j | ⟨u, hu, j⟩
      · rcases max_choice d p.2 with k | k
        · left; rw [j, k]
        · right; exact ⟨p, by simp, by rw [j, k]⟩
      · right; exact ⟨u, List.mem_cons_of_mem _ hu, j⟩

/-- the box of a polygon: the smallest box around its vertices -/
theorem pbox_spec {v : List (Pt K)} (hv : v ≠ []) : ∃ a b c d : K, ∃ h1 : a ≤ b, ∃ h2 : c ≤ d,
    pbox v = (.mk (some a) (some b) h1, .mk (some c) (some d) h2) ∧ (∀ u ∈ v, a ≤ u.1 ∧ u.1 ≤ b ∧ c ≤ u.2 ∧ u.2 ≤ d) ∧
    (∃ u ∈ v, u.1 = a) ∧ (∃ u ∈ v, u.1 = b) ∧ (∃ u ∈ v, u.2 = c) ∧ (∃ u ∈ v, u.2 = d) := by
  cases v with
  | nil => exact absurd rfl hv
  | cons p l =>
    obtain ⟨a', b', c', d', h1, h2, he, ⟨i1, i2, i3, i4⟩, hm, j1, j2, j3, j4⟩ := pbox_fold l (le_refl p.1) (le_refl p.2)
    refine ⟨a', b', c', d', h1, h2, ?_, ?_, ?_, ?_, ?_, ?_⟩
    · unfold pbox
      rw [List.foldl_cons, ← he]
      congr 1
    · intro u hu
      rcases List.mem_cons.mp hu with rfl | hu
      · exact ⟨i1, i2, i3, i4⟩
      · exact hm u hu
    · rcases j1 with j | ⟨u, hu, j⟩
      · exact ⟨p, by simp, j.symm⟩
      · exact ⟨u, List.mem_cons_of_mem _ hu, j⟩
    · rcases j2 with j | ⟨u, hu, j⟩
      · exact ⟨p, by simp, j.symm⟩
      · exact ⟨u, List.mem_cons_of_mem _ hu, j⟩
    · rcases j3 with j | ⟨u, hu, j⟩
      · exact ⟨p, by simp, j.symm⟩
      · exact ⟨u, List.mem_cons_of_mem _ hu, j⟩
    · rcases j4 with j | ⟨u, hu, j⟩
      · exact ⟨p, by simp, j.symm⟩
      · exact ⟨u, List.mem_cons_of_mem _ hu, j⟩

theorem hull_box {v : List (Pt K)} {a b c d : K} (h : ∀ u ∈ v, a ≤ u.1 ∧ u.1 ≤ b ∧ c ≤ u.2 ∧ u.2 ≤ d) {q : Pt K} (hq : q ∈ Hull v) :
    a ≤ q.1 ∧ q.1 ≤ b ∧ c ≤ q.2 ∧ q.2 ≤ d := by
  refine ⟨?_, ?_, ?_, ?_⟩
  · have := Hull.nonneg (α := 1) (β := 0) (γ := -a) (fun u hu => by have := h u hu; linarith) hq; linarith
  · have := Hull.nonneg (α := -1) (β := 0) (γ := b) (fun u hu => by have := h u hu; linarith) hq; linarith
  · have := Hull.nonneg (α := 0) (β := 1) (γ := -c) (fun u hu => by have := h u hu; linarith) hq; linarith
  · have := Hull.nonneg (α := 0) (β := -1) (γ := d) (fun u hu => by have := h u hu; linarith) hq; linarith

theorem ne_nil_of_hull {v : List (Pt K)} {q : Pt K} (hq : q ∈ Hull v) : v ≠ [] := by
  rintro rfl
  simp [Hull] at hq

theorem edge_in_hull {v : List (Pt K)} {e : Edge K} (he : e ∈ edges v) {q : Pt K} (hq : OnSeg e.1 e.2 q) : q ∈ Hull v := by
  rw [mem_edges] at he
  obtain ⟨i, hi, h1, h2⟩ := he
  have m1 : e.1 ∈ Hull v := Hull.mem (h1 ▸ List.getElem_mem _)
  have m2 : e.2 ∈ Hull v := Hull.mem (h2 ▸ List.getElem_mem _)
  exact (convex_convexHull K _).segment_subset m1 m2 (onSeg_iff_segment.mp hq)

/-- the two ends of an edge are different -/
theorem edge_ne {v : List (Pt K)} (hn : v.Nodup) (hs : Solid v) {e : Edge K} (he : e ∈ edges v) : e.1 ≠ e.2 := by
  rw [mem_edges] at he
  obtain ⟨i, hi, h1, h2⟩ := he
  have hl : 1 < v.length := by
    obtain ⟨a, ha, b, hb, c, hc, h⟩ := hs
    by_contra hl
    have h1 : v.length = 1 := by omega
    obtain ⟨x, rfl⟩ := List.length_eq_one_iff.mp h1
    simp only [List.mem_singleton] at ha hb hc
    subst ha hb hc
    apply h; unfold cr; ring
  rw [h1, h2]
  intro h
  have := (List.Nodup.getElem_inj_iff hn).mp h
  rcases Nat.lt_or_ge (i + 1) v.length with k | k
  · rw [Nat.mod_eq_of_lt k] at this; omega
  · have e' : i + 1 = v.length := by omega
    rw [e', Nat.mod_self] at this
    omega

/-- a point of the polygon on none of the edges is strictly on the inner side of each of them -/
theorem strict {σ : K} (hσ : σ ≠ 0) {v : List (Pt K)} (ht : Turns σ v) (hn : v.Nodup) {p : Pt K} (hp : p ∈ Hull v)
    (ho : ∀ e ∈ edges v, ¬ OnSeg e.1 e.2 p) : Solid v ∧ ∀ e ∈ edges v, 0 < σ * cr e.1 e.2 p := by
  have hs : Solid v := by
    by_contra h
    obtain ⟨e, he, h'⟩ := flat_on hn h hp
    exact ho e he h'
  refine ⟨hs, fun e he => ?_⟩
  have h0 := Hull.left (ht.left he) hp
  refine lt_of_le_of_ne h0 (fun h => ?_)
  have hz : cr e.1 e.2 p = 0 := by
    rcases mul_eq_zero.mp h.symm with k | k
    · exact absurd k hσ
    · exact k
  obtain ⟨w, hw, hw0⟩ := hs.off (edge_ne hn hs he)
  have hwp : 0 < σ * cr e.1 e.2 w := lt_of_le_of_ne (ht.left he w hw) (Ne.symm (mul_ne_zero hσ hw0))
  obtain ⟨f, hf, hf'⟩ := edge_on ht hn (a := e.1) (b := e.2) he hw hwp (fun f hf => Hull.left (ht.left hf) hp) (ht.left he) hz
  exact ho f hf hf'

/-- the points of the edges on the horizontal line of a point strictly inside: one on each side -/
structure Crosses (v : List (Pt K)) (p l r : Pt K) : Prop where
  left : l.1 < p.1
  right : p.1 < r.1
  l2 : l.2 = p.2
  r2 : r.2 = p.2
  on_l : ∃ e ∈ edges v, OnSeg e.1 e.2 l
  on_r : ∃ e ∈ edges v, OnSeg e.1 e.2 r
  only : ∀ e ∈ edges v, ∀ q, OnSeg e.1 e.2 q → q.2 = p.2 → q = l ∨ q = r
  not_both : ∀ e ∈ edges v, OnSeg e.1 e.2 l → ¬ OnSeg e.1 e.2 r
  not_horiz : ∀ e ∈ edges v, p.2 ∈ (ebox e).2 → ¬ horiz e

theorem crosses {σ : K} (hσ : σ ≠ 0) {v : List (Pt K)} (ht : Turns σ v) (hn : v.Nodup) {p : Pt K} (hp : p ∈ Hull v)
    (ho : ∀ e ∈ edges v, ¬ OnSeg e.1 e.2 p) : ∃ l r, Crosses v p l r := by
  obtain ⟨hs, hstr⟩ := strict hσ ht hn hp ho
  obtain ⟨t, ht0, er, her, hr⟩ := exit hσ ht hn hp 1 0 (.inl one_ne_zero)
  obtain ⟨s, hs0, el, hel, hl⟩ := exit hσ ht hn hp (-1) 0 (.inl (by norm_num))
  have htp : 0 < t := by
    rcases eq_or_lt_of_le ht0 with h | h
    · exfalso; apply ho er her
      have e : p = (p.1 + t * 1, p.2 + t * 0) := Prod.ext (by rw [← h]; ring) (by ring)
      rw [e]; exact hr
    · exact h
  have hsp : 0 < s := by
    rcases eq_or_lt_of_le hs0 with h | h
    · exfalso; apply ho el hel
      have e : p = (p.1 + s * -1, p.2 + s * 0) := Prod.ext (by rw [← h]; ring) (by ring)
      rw [e]; exact hl
    · exact h
  -- a point of an edge on the same side is the exit point
  have key : ∀ (x y : K) (e f : Edge K), e ∈ edges v → f ∈ edges v → OnSeg e.1 e.2 (p.1 + x, p.2) → OnSeg f.1 f.2 (p.1 + y, p.2) → 0 < x * y → x ^ 2 ≤ y ^ 2 → x = y := by
    intro x y e f he hf h1 h2 hxy hle
    have c1 := h1.cr_eq
    have c2 : 0 ≤ σ * cr e.1 e.2 (p.1 + y, p.2) := Hull.left (ht.left he) (edge_in_hull hf h2)
    have c3 := hstr e he
    have hid : y * (σ * cr e.1 e.2 (p.1 + x, p.2)) = (y - x) * (σ * cr e.1 e.2 p) + x * (σ * cr e.1 e.2 (p.1 + y, p.2)) := by
      unfold cr; ring
    rw [c1, mul_zero, mul_zero] at hid
    by_contra hne
    rcases lt_or_ge 0 y with hy | hy
    · have hx : 0 < x := by by_contra h; nlinarith
      have : x < y := lt_of_le_of_ne (by nlinarith) hne
      nlinarith [mul_pos (sub_pos.mpr this) c3, mul_nonneg hx.le c2]
    · have hy' : y < 0 := lt_of_le_of_ne hy (fun h => by rw [h, mul_zero] at hxy; exact lt_irrefl _ hxy)
      have hx : x < 0 := by by_contra h; nlinarith
      have : y < x := lt_of_le_of_ne (by nlinarith) (Ne.symm hne)
      nlinarith [mul_pos (sub_pos.mpr this) c3, mul_nonneg (neg_nonneg.mpr hx.le) c2]
  have key2 : ∀ (x y : K) (e f : Edge K), e ∈ edges v → f ∈ edges v → OnSeg e.1 e.2 (p.1 + x, p.2) → OnSeg f.1 f.2 (p.1 + y, p.2) → 0 < x * y → x = y := by
    intro x y e f he hf h1 h2 hxy
    rcases le_total (x ^ 2) (y ^ 2) with h | h
    · exact key x y e f he hf h1 h2 hxy h
    · exact (key y x f e hf he h2 h1 (by linarith) h).symm
  have er1 : (p.1 + t * 1, p.2 + t * 0) = ((p.1 + t, p.2) : Pt K) := Prod.ext (by ring) (by ring)
  have el1 : (p.1 + s * -1, p.2 + s * 0) = ((p.1 + -s, p.2) : Pt K) := Prod.ext (by ring) (by ring)
  rw [er1] at hr
  rw [el1] at hl
  refine ⟨(p.1 + -s, p.2), (p.1 + t, p.2), by show p.1 + -s < p.1; linarith, by show p.1 < p.1 + t; linarith, rfl, rfl, ⟨el, hel, hl⟩, ⟨er, her, hr⟩, ?_, ?_, ?_⟩
  · intro e he q hq h2
    have e1 : q = (p.1 + (q.1 - p.1), p.2) := Prod.ext (by ring) h2
    rw [e1] at hq
    rcases lt_trichotomy (q.1 - p.1) 0 with h | h | h
    · left
      have := key2 _ _ _ _ he hel hq hl (by nlinarith)
      rw [e1, this]
    · exfalso; apply ho e he
      rw [h, add_zero] at hq; exact hq
    · right
      have := key2 _ _ _ _ he her hq hr (by nlinarith)
      rw [e1, this]
  · intro e he h1 h2
    apply ho e he
    have c := (convex_segment (𝕜 := K) e.1 e.2).segment_subset (onSeg_iff_segment.mp h1) (onSeg_iff_segment.mp h2)
    rw [onSeg_iff_segment]
    apply c
    rw [← onSeg_iff_segment]
    have hst : 0 < s + t := by linarith
    refine ⟨s / (s + t), by positivity, by rw [div_le_one hst]; linarith, ?_, by simp⟩
    field_simp
    ring
  · intro e he hfl hh
    have hh' : e.1.2 = e.2.2 := hh
    have hc := hstr e he
    simp only [ebox, mem_hull2] at hfl
    have : p.2 = e.1.2 := by rcases hfl with ⟨k1, k2⟩ | ⟨k1, k2⟩ <;> linarith
    unfold cr at hc
    rw [this, ← hh', sub_self, mul_zero, zero_mul, sub_self, mul_zero] at hc
    exact lt_irrefl _ hc

/-- strictly inside: strictly between the ordinates of the box -/
theorem inside_strict_y {σ : K} (hσ : σ ≠ 0) {v : List (Pt K)} (ht : Turns σ v) (hn : v.Nodup) {p : Pt K} (hp : p ∈ Hull v)
    (ho : ∀ e ∈ edges v, ¬ OnSeg e.1 e.2 p) {a b c d : K} (h : ∀ u ∈ v, a ≤ u.1 ∧ u.1 ≤ b ∧ c ≤ u.2 ∧ u.2 ≤ d) : c < p.2 ∧ p.2 < d := by
  obtain ⟨t, ht0, eu, heu, hu⟩ := exit hσ ht hn hp 0 1 (.inr one_ne_zero)
  obtain ⟨s, hs0, ed, hed, hd⟩ := exit hσ ht hn hp 0 (-1) (.inr (by norm_num))
  have b1 := hull_box h (edge_in_hull heu hu)
  have b2 := hull_box h (edge_in_hull hed hd)
  simp only at b1 b2
  constructor
  · rcases eq_or_lt_of_le hs0 with k | k
    · exfalso; apply ho ed hed
      have e : p = (p.1 + s * 0, p.2 + s * -1) := Prod.ext (by ring) (by rw [← k]; ring)
      rw [e]; exact hd
    · linarith [b2.2.2.1]
  · rcases eq_or_lt_of_le ht0 with k | k
    · exfalso; apply ho eu heu
      have e : p = (p.1 + t * 0, p.2 + t * 1) := Prod.ext (by ring) (by rw [← k]; ring)
      rw [e]; exact hu
    · linarith [b1.2.2.2]

theorem ebox_cross {e : Edge K} {y : K} (h : y ∈ (ebox e).2) : ∃ q, OnSeg e.1 e.2 q ∧ q.2 = y := by
  simp only [ebox, mem_hull2] at h
  by_cases hd : e.1.2 = e.2.2
  · exact ⟨e.1, OnSeg.left _ _, by rcases h with ⟨k1, k2⟩ | ⟨k1, k2⟩ <;> linarith⟩
  · have hd' : e.2.2 - e.1.2 ≠ 0 := fun h => hd (by linarith)
    refine ⟨(e.1.1 + (y - e.1.2) / (e.2.2 - e.1.2) * (e.2.1 - e.1.1), y), ⟨(y - e.1.2) / (e.2.2 - e.1.2), ?_, ?_, rfl, ?_⟩, rfl⟩
    · rcases h with ⟨k1, k2⟩ | ⟨k1, k2⟩
      · exact div_nonneg (by linarith) (by linarith)
      · exact div_nonneg_of_nonpos (by linarith) (by linarith)
    · rcases h with ⟨k1, k2⟩ | ⟨k1, k2⟩
      · rw [div_le_one (lt_of_le_of_ne (by linarith) (Ne.symm hd'))]; linarith
      · rw [div_le_one_of_neg (lt_of_le_of_ne (by linarith) hd')]; linarith
    · rw [div_mul_cancel₀ _ hd']; ring

/-- the edges through a point of the border are next to each other -/
theorem adjacent {σ : K} (hσ : σ ≠ 0) {v : List (Pt K)} (ht : Turns σ v) (hn : v.Nodup) (hs : Solid v) {i j : Nat} (hi : i < (edges v).length)
    (hj : j < (edges v).length) (hij : i < j) {r : Pt K} (h1 : OnSeg (edges v)[i].1 (edges v)[i].2 r) (h2 : OnSeg (edges v)[j].1 (edges v)[j].2 r) :
    j = i + 1 ∨ (i = 0 ∧ j + 1 = (edges v).length) := by
  have hi' : i < v.length := by rw [edges_length] at hi; exact hi
  have hj' : j < v.length := by rw [edges_length] at hj; exact hj
  have m1 := List.getElem_mem hi
  have m2 := List.getElem_mem hj
  have n1 := edge_ne hn hs m1
  have n2 := edge_ne hn hs m2
  have u := unique ht hn hs hσ (a := (edges v)[i].1) (b := (edges v)[i].2) (c := (edges v)[j].1) (d := (edges v)[j].2) m1 m2 n1 n2 h1 h2
  rw [edges_getElem hi, edges_getElem hj] at u
  rw [edges_length]
  rcases u with ⟨k, _⟩ | ⟨k1, k2⟩ | ⟨k1, k2⟩
  · have := (List.Nodup.getElem_inj_iff hn).mp k; omega
  · have := (List.Nodup.getElem_inj_iff hn).mp (k1.trans k2)
    rw [Nat.mod_eq_of_lt (by omega)] at this
    left; omega
  · have := (List.Nodup.getElem_inj_iff hn).mp (k1.trans k2)
    rcases Nat.lt_or_ge (j + 1) v.length with k | k
    · rw [Nat.mod_eq_of_lt k] at this; omega
    · have e : j + 1 = v.length := by omega
      rw [e, Nat.mod_self] at this
      right; omega

/-- a point of a polygon is on an edge, and `contains` answers `MAYBE`, or is not, and it answers `YES` -/
theorem contains_of_hull {σ : K} (hσ : σ ≠ 0) (z : K → Itv K) {v : List (Pt K)} (ht : Turns σ v) (hn : v.Nodup) {p : Pt K} (hp : p ∈ Hull v) :
    ((∃ e ∈ edges v, OnSeg e.1 e.2 p) ∧ contains z v p = .maybe) ∨ ((∀ e ∈ edges v, ¬ OnSeg e.1 e.2 p) ∧ contains z v p = .yes) := by
  obtain ⟨a, b, c, d, h1, h2, hb, hm, -, -, -, -⟩ := pbox_spec (ne_nil_of_hull hp)
  obtain ⟨p1, p2, p3, p4⟩ := hull_box hm hp
  have hne : edges v ≠ [] := by
    intro h
    have := edges_length v
    rw [h] at this
    exact ne_nil_of_hull hp (List.length_eq_zero_iff.mp this.symm)
  have hrd : ¬ degen ((p, (b + 1, p.2)) : Edge K) := fun h => by
    have : p.1 = b + 1 := congrArg Prod.fst h
    linarith
  have hrh : horiz ((p, (b + 1, p.2)) : Edge K) := rfl
  have hc : contains z v p = rayLoop z (p, (b + 1, p.2)) c d (edges v) (interE z ((edges v).getLast hne) (p, (b + 1, p.2))) 0 := by
    unfold contains
    rw [hb, List.getLast?_eq_some_getLast hne]
    simp only [Itv.bounds?]
    rw [if_pos ⟨⟨p1, p2⟩, p3, p4⟩]
  by_cases ho : ∃ e ∈ edges v, OnSeg e.1 e.2 p
  · left
    refine ⟨ho, ?_⟩
    obtain ⟨e, he, hoe⟩ := ho
    rw [hc]
    exact rayLoop_maybe z hrh hrd he hoe _ _
  · right
    push Not at ho
    refine ⟨ho, ?_⟩
    obtain ⟨l, r, hcr⟩ := crosses hσ ht hn hp ho
    obtain ⟨hs, -⟩ := strict hσ ht hn hp ho
    obtain ⟨y1, y2⟩ := inside_strict_y hσ ht hn hp ho hm
    have hray : ∀ q : Pt K, OnSeg p (b + 1, p.2) q ↔ q.2 = p.2 ∧ p.1 ≤ q.1 ∧ q.1 ≤ b + 1 := by
      intro q
      constructor
      · intro h
        have e := h.in_ebox (e := (p, (b + 1, p.2)))
        obtain ⟨s, _, _, _, e2⟩ := h
        refine ⟨by rw [e2]; simp, ?_⟩
        have := e.1
        simp only [ebox, mem_hull2] at this
        rcases this with k | k
        · exact k
        · constructor <;> linarith
      · rintro ⟨e2, e3, e4⟩
        apply onSeg_of_ebox (e := (p, (b + 1, p.2)))
        · constructor
          · simp only [ebox, mem_hull2]; exact .inl ⟨e3, e4⟩
          · simp only [ebox, mem_hull2]; exact .inl ⟨e2.ge, e2.le⟩
        · unfold cr; rw [e2]; ring
    have hrb : r.1 ≤ b := by
      obtain ⟨e, he, h⟩ := hcr.on_r
      exact (hull_box hm (edge_in_hull he h)).2.1
    have hr_ray : OnSeg p (b + 1, p.2) r := (hray r).mpr ⟨hcr.r2, hcr.right.le, by linarith⟩
    have hno : ∀ e ∈ edges v, ¬ OnSeg e.1 e.2 r → p.2 ∈ (ebox e).2 → interE z e (p, (b + 1, p.2)) = ⊥ := by
      intro e he hnr hfl
      apply interE_bot z (hcr.not_horiz e he hfl) hrh hrd
      intro q hq hq2
      obtain ⟨k1, k2, k3⟩ := (hray q).mp hq2
      rcases hcr.only e he q hq k1 with rfl | rfl
      · exact absurd hcr.left (not_lt.mpr k2)
      · exact hnr hq
    have hyes : ∀ e ∈ edges v, OnSeg e.1 e.2 r → interE z e (p, (b + 1, p.2)) = ofPt r := by
      intro e he hr
      have hfl : p.2 ∈ (ebox e).2 := hcr.r2 ▸ hr.in_ebox.2
      exact interE_point z (hcr.not_horiz e he hfl) hrh hrd hr hr_ray
    have hrne : ofPt r ≠ (⊥ : TPt K) := fun h => not_in_bot (h ▸ (in_ofPt.mpr rfl : In r (ofPt r)))
    have hlab : ∀ e ∈ edges v, label z (p, (b + 1, p.2)) e = some true ↔ OnSeg e.1 e.2 r := by
      intro e he
      unfold label
      constructor
      · intro h
        split_ifs at h with k
        simp only [Option.some.injEq, decide_eq_true_eq] at h
        by_contra hnr
        exact h (hno e he hnr k)
      · intro hr
        have hfl : p.2 ∈ (ebox e).2 := hcr.r2 ▸ hr.in_ebox.2
        rw [if_neg (not_not.mpr hfl), hyes e he hr]
        simp [hrne]
    -- the last edge
    have hlast := List.getLast_mem hne
    have hprev : interE z ((edges v).getLast hne) (p, (b + 1, p.2))
        = if decide (((edges v).map (label z (p, (b + 1, p.2)))).getLast? = some (some true)) then ofPt r else ⊥ := by
      rw [List.getLast?_map, List.getLast?_eq_some_getLast hne, Option.map_some]
      by_cases k : OnSeg ((edges v).getLast hne).1 ((edges v).getLast hne).2 r
      · rw [(hlab _ hlast).mpr k, hyes _ hlast k]; simp
      · have : ¬ label z (p, (b + 1, p.2)) ((edges v).getLast hne) = some true := fun h => k ((hlab _ hlast).mp h)
        rw [if_neg (by simpa using this)]
        by_cases hfl : p.2 ∈ (ebox ((edges v).getLast hne)).2
        · exact hno _ hlast k hfl
        · rcases tpt_cases ((proj z ((edges v).getLast hne) (p, (b + 1, p.2))).1 ⊓ (ebox ((edges v).getLast hne)).1 ⊓ (ebox (p, (b + 1, p.2))).1)
            ((proj z ((edges v).getLast hne) (p, (b + 1, p.2))).2 ⊓ (ebox ((edges v).getLast hne)).2 ⊓ (ebox (p, (b + 1, p.2))).2) with k | ⟨q, k⟩
          · exact k
          · obtain ⟨k1, k2⟩ := interE_in_ebox (z := z) (e := (edges v).getLast hne) (f := (p, (b + 1, p.2))) k
            have : q.2 = p.2 := by
              have := k2.2
              simp only [ebox, mem_hull2] at this
              rcases this with ⟨j1, j2⟩ | ⟨j1, j2⟩ <;> linarith
            exact absurd (this ▸ k1.2) hfl
    rw [hc, hprev, rayLoop_count z (by exact hcr.right) (by rw [hcr.r2]; exact y1.ne) (by rw [hcr.r2]; exact y2.ne') (edges v) _ 0 ?_, cnt_one]
    · rfl
    · obtain ⟨e, he, h⟩ := hcr.on_r
      exact List.mem_map.mpr ⟨e, he, (hlab e he).mpr h⟩
    · obtain ⟨e, he, h⟩ := hcr.on_l
      refine List.mem_map.mpr ⟨e, he, ?_⟩
      have hfl : p.2 ∈ (ebox e).2 := hcr.l2 ▸ h.in_ebox.2
      unfold label
      rw [if_neg (not_not.mpr hfl), hno e he (hcr.not_both e he h) hfl]
      simp
    · intro i j hi hj hij
      rw [List.getElem?_map] at hi hj
      obtain ⟨ei, hei, li⟩ := Option.map_eq_some_iff.mp hi
      obtain ⟨ej, hej, lj⟩ := Option.map_eq_some_iff.mp hj
      obtain ⟨bi, rfl⟩ := List.getElem?_eq_some_iff.mp hei
      obtain ⟨bj, rfl⟩ := List.getElem?_eq_some_iff.mp hej
      rw [List.length_map]
      exact adjacent hσ ht hn hs bi bj hij ((hlab _ (List.getElem_mem bi)).mp li) ((hlab _ (List.getElem_mem bj)).mp lj)
    · intro e he hfl
      by_cases k : OnSeg e.1 e.2 r
      · exact .inr (hyes e he k)
      · exact .inl (hno e he k hfl)

/-! ### points outside -/

/-- what is computed as the intersection with a horizontal edge only has common points -/
theorem interE_common {z : K → Itv K} {e f : Edge K} {q : Pt K} (hf : horiz f) (hfd : ¬ degen f) (h : In q (interE z e f)) :
    OnSeg e.1 e.2 q ∧ OnSeg f.1 f.2 q := by
  by_cases he : horiz e
  · obtain ⟨b1, b2⟩ := interE_in_ebox h
    have hh : ∀ g : Edge K, horiz g → In q (ebox g) → OnSeg g.1 g.2 q := by
      intro g hg hb
      apply onSeg_of_ebox hb
      have hg' : g.1.2 = g.2.2 := hg
      have := hb.2
      simp only [ebox, mem_hull2] at this
      have : q.2 = g.1.2 := by rcases this with ⟨k1, k2⟩ | ⟨k1, k2⟩ <;> linarith
      unfold cr; rw [this, ← hg']; ring
    exact ⟨hh e he b1, hh f hf b2⟩
  · exact interE_sound he hf hfd h

theorem interE_cases (z : K → Itv K) (e f : Edge K) : interE z e f = ⊥ ∨ ∃ q, In q (interE z e f) := tpt_cases _ _

/-- no edge is counted -/
theorem rayLoop_none (z : K → Itv K) {ray : Edge K} {lo hi : K} (es : List (Edge K)) : ∀ (prev : TPt K) (a : Nat),
    (∀ e ∈ es, ray.1.2 ∈ (ebox e).2 → interE z e ray = ⊥ ∨ (ray.1.1 ∉ (interE z e ray).1 ∧ (lo ∈ (interE z e ray).2 ∨ hi ∈ (interE z e ray).2))) →
      rayLoop z ray lo hi es prev a = if a % 2 = 1 then .yes else .no := by
  induction es with
  | nil => intro prev a _; rfl
  | cons e es ih =>
    intro prev a h
    have h' : ∀ e ∈ es, ray.1.2 ∈ (ebox e).2 → interE z e ray = ⊥ ∨ (ray.1.1 ∉ (interE z e ray).1 ∧ (lo ∈ (interE z e ray).2 ∨ hi ∈ (interE z e ray).2)) :=
      fun f hf => h f (List.mem_cons_of_mem _ hf)
    unfold rayLoop
    dsimp only
    by_cases hfl : ray.1.2 ∈ (ebox e).2
    · rw [if_neg (not_not.mpr hfl)]
      rcases h e (by simp) hfl with k | ⟨k1, k2⟩
      · rw [if_neg (not_not.mpr k)]; exact ih _ _ h'
      · by_cases hb : interE z e ray ≠ ⊥
        · rw [if_pos hb, if_neg k1, if_pos k2]; exact ih _ _ h'
        · rw [if_neg hb]; exact ih _ _ h'
    · rw [if_pos hfl]; exact ih _ _ h'

/-- number of changes between two crossing points; `none`: the edge does not cross the line -/
def cnt2 : List (Option Bool) → Option Bool → Nat
  | [], _ => 0
  | none :: l, b => cnt2 l b
  | some x :: l, b => if b = some x then cnt2 l b else 1 + cnt2 l (some x)

theorem rayLoop_count2 (z : K → Itv K) {ray : Edge K} {lo hi : K} {l r : Pt K} (hl : ray.1.1 < l.1) (hlr : l.1 < r.1) (h2 : r.2 = l.2)
    (hlo : lo ≠ r.2) (hhi : hi ≠ r.2) (lab : Edge K → Option Bool) (es : List (Edge K)) : ∀ (b : Option Bool) (a : Nat),
      (∀ e ∈ es, (ray.1.2 ∉ (ebox e).2 ∧ lab e = none) ∨ (ray.1.2 ∈ (ebox e).2 ∧ ((interE z e ray = ofPt l ∧ lab e = some false) ∨
        (interE z e ray = ofPt r ∧ lab e = some true)))) →
      rayLoop z ray lo hi es (match b with | none => ⊥ | some false => ofPt l | some true => ofPt r) a
        = if (a + cnt2 (es.map lab) b) % 2 = 1 then .yes else .no := by
  have hne : ∀ r : Pt K, ofPt r ≠ (⊥ : TPt K) := fun r h => not_in_bot (h ▸ (in_ofPt.mpr rfl : In r (ofPt r)))
  have hself : ∀ r : Pt K, (ofPt r).1.intersects (ofPt r).1 = true := fun r =>
    Itv.intersects_of_mem (x := r.1) (by simp [ofPt, Itv.mem_point]) (by simp [ofPt, Itv.mem_point])
  have hdiff : ∀ r s : Pt K, r.1 ≠ s.1 → (ofPt r).1.intersects (ofPt s).1 = false := by
    intro r s h
    rw [Bool.eq_false_iff]
    intro k
    rw [Itv.intersects_iff] at k
    obtain ⟨x, hx1, hx2⟩ := k
    simp only [ofPt, Itv.mem_point] at hx1 hx2
    exact h (hx1.symm.trans hx2)
  have hbot : ∀ r : Pt K, ((⊥ : TPt K).1).intersects (ofPt r).1 = false := by
    intro r
    unfold Itv.intersects
    have : (⊥ : TPt K).1 ⊓ (ofPt r).1 = ⊥ := bot_inf_eq _
    rw [this]; rfl
  have hcnt : ∀ r : Pt K, ray.1.1 < r.1 → ((ofPt r).1.bounds?.map fun b => decide (ray.1.1 < b.1)) = some true := by
    intro r h
    simp only [ofPt, Itv.point, Itv.bounds?, Option.map_some, decide_eq_true h]
  induction es with
  | nil => intro b a _; simp [rayLoop, cnt2]
  | cons e es ih =>
    intro b a h
    have ih' := fun b a => ih b a (fun f hf => h f (List.mem_cons_of_mem _ hf))
    rw [List.map_cons]
    rcases h e (by simp) with ⟨k, kl⟩ | ⟨k, ⟨k1, kl⟩ | ⟨k1, kl⟩⟩
    · unfold rayLoop
      rw [if_pos k, ih' b a, kl]; rfl
    · have n1 : ¬ ray.1.1 ∈ (ofPt l).1 := by
        simp only [ofPt, Itv.mem_point]; exact hl.ne
      have n2 : ¬ (lo ∈ (ofPt l).2 ∨ hi ∈ (ofPt l).2) := by
        simp only [ofPt, Itv.mem_point, not_or]; rw [← h2]; exact ⟨hlo, hhi⟩
      unfold rayLoop
      dsimp only
      rw [if_neg (not_not.mpr k), k1, if_pos (hne l), if_neg n1, if_neg n2, kl, if_pos (hcnt l hl)]
      match b with
      | none =>
        dsimp only
        rw [hbot, if_neg (by simp)]
        have := ih' (some false) (a + 1)
        dsimp only at this
        rw [this]; simp only [cnt2, reduceCtorEq, if_false]; congr 1; rw [add_assoc]
      | some false =>
        dsimp only
        rw [hself, if_pos rfl]
        have := ih' (some false) a
        dsimp only at this
        rw [this]; simp only [cnt2, if_true]
      | some true =>
        dsimp only
        rw [hdiff r l hlr.ne', if_neg (by simp)]
        have := ih' (some false) (a + 1)
        dsimp only at this
        rw [this]; simp only [cnt2, Option.some.injEq, Bool.true_eq_false, if_false]; congr 1; rw [add_assoc]
    · have hr : ray.1.1 < r.1 := lt_trans hl hlr
      have n1 : ¬ ray.1.1 ∈ (ofPt r).1 := by
        simp only [ofPt, Itv.mem_point]; exact hr.ne
      have n2 : ¬ (lo ∈ (ofPt r).2 ∨ hi ∈ (ofPt r).2) := by
        simp only [ofPt, Itv.mem_point, not_or]; exact ⟨hlo, hhi⟩
      unfold rayLoop
      dsimp only
      rw [if_neg (not_not.mpr k), k1, if_pos (hne r), if_neg n1, if_neg n2, kl, if_pos (hcnt r hr)]
      match b with
      | none =>
        dsimp only
        rw [hbot, if_neg (by simp)]
        have := ih' (some true) (a + 1)
        dsimp only at this
        rw [this]; simp only [cnt2, reduceCtorEq, if_false]; congr 1; rw [add_assoc]
      | some true =>
        dsimp only
        rw [hself, if_pos rfl]
        have := ih' (some true) a
        dsimp only at this
        rw [this]; simp only [cnt2, if_true]
      | some false =>
        dsimp only
        rw [hdiff l r hlr.ne, if_neg (by simp)]
        have := ih' (some true) (a + 1)
        dsimp only at this
        rw [this]; simp only [cnt2, Option.some.injEq, Bool.false_eq_true, if_false]; congr 1; rw [add_assoc]

/-- starting from the last crossing point, the number of changes is even -/
theorem cnt2_cyclic (L : List (Option Bool)) : ∀ (b x : Bool), L.getLast? = some (some x) →
    cnt2 L (some b) % 2 = if b = x then 0 else 1 := by
  induction L with
  | nil => intro b x h; simp at h
  | cons y L ih =>
    intro b x h
    by_cases hL : L = []
    · subst hL
      simp at h
      subst h
      simp only [cnt2, Option.some.injEq]
      split_ifs <;> rfl
    · have hl : L.getLast? = some (some x) := by
        rw [List.getLast?_cons] at h
        obtain ⟨w, hw⟩ : ∃ w, L.getLast? = some w := ⟨_, List.getLast?_eq_some_getLast hL⟩
        rw [hw] at h ⊢
        simpa using h
      match y with
      | none => simp only [cnt2]; exact ih b x hl
      | some y =>
        simp only [cnt2, Option.some.injEq]
        split_ifs with k1 k2 k2
        · rw [ih b x hl, if_pos k2]
        · rw [ih b x hl, if_neg k2]
        · have := ih y x hl
          rw [if_neg (fun h => k1 (k2.trans h.symm))] at this
          omega
        · have := ih y x hl
          have hyx : y = x := by revert k1 k2; cases b <;> cases x <;> cases y <;> simp
          rw [if_pos hyx] at this
          omega

/-- a path that comes back on the side it started from crosses the line an even number of times -/
theorem cnt2_path (s : Pt K → K) (lab : Edge K → Option Bool) (t : Bool) (es : List (Edge K)) : ∀ (x b : Pt K) (prev : Option Bool),
    List.IsChain (fun e f : Edge K => e.2 = f.1) es → (∀ e ∈ es.head?, e.1 = x) → (∀ e ∈ es.getLast?, e.2 = b) → (es = [] → x = b) → 0 < s b →
    (∀ e ∈ es, (lab e = none ∧ 0 < s e.1 * s e.2) ∨ (lab e = some t ∧ s e.1 ≤ 0 ∧ 0 ≤ s e.2) ∨ (lab e = some (!t) ∧ s e.2 ≤ 0 ∧ 0 ≤ s e.1)) →
    (prev = none → 0 < s x → cnt2 (es.map lab) prev % 2 = 0) ∧ (prev = some t → 0 ≤ s x → cnt2 (es.map lab) prev % 2 = 0) ∧
      (prev = some (!t) → s x ≤ 0 → cnt2 (es.map lab) prev % 2 = 1) := by
  induction es with
  | nil =>
    intro x b prev _ _ _ hx hb _
    have := hx rfl
    subst this
    exact ⟨fun _ _ => rfl, fun _ _ => rfl, fun _ h => absurd hb (not_lt.mpr h)⟩
  | cons e es ih =>
    intro x b prev hc hh hl _ hb h
    have hx : e.1 = x := hh e (by simp)
    subst hx
    have hc' : List.IsChain (fun e f : Edge K => e.2 = f.1) es := List.IsChain.of_cons hc
    have hh' : ∀ f ∈ es.head?, f.1 = e.2 := by
      intro f hf
      cases es with
      | nil => simp at hf
      | cons g es =>
        simp at hf; subst hf
        exact (List.isChain_cons_cons.mp hc).1.symm
    have hl' : ∀ f ∈ es.getLast?, f.2 = b := by
      intro f hf
      apply hl
      rw [List.getLast?_cons]
      simp only [Option.mem_def] at hf ⊢
      rw [hf]; rfl
    have he' : es = [] → e.2 = b := by rintro rfl; exact hl e (by simp)
    have ih' := fun prev => ih e.2 b prev hc' hh' hl' he' hb (fun f hf => h f (List.mem_cons_of_mem _ hf))
    rw [List.map_cons]
    rcases h e (by simp) with ⟨k, k1⟩ | ⟨k, k1, k2⟩ | ⟨k, k1, k2⟩
    · rw [k]
      simp only [cnt2]
      refine ⟨fun hp h0 => (ih' prev).1 hp ?_, fun hp h0 => (ih' prev).2.1 hp ?_, fun hp h0 => (ih' prev).2.2 hp ?_⟩
      · by_contra hn; nlinarith
      · by_contra hn; nlinarith
      · by_contra hn; nlinarith
    · rw [k]
      refine ⟨fun hp h0 => absurd h0 (not_lt.mpr k1), fun hp h0 => ?_, fun hp h0 => ?_⟩
      · subst hp
        simp only [cnt2, if_true]
        exact (ih' _).2.1 rfl k2
      · subst hp
        have hne : (some (!t) : Option Bool) ≠ some t := by cases t <;> simp
        simp only [cnt2]
        rw [if_neg hne]
        have := (ih' (some t)).2.1 rfl k2
        omega
    · rw [k]
      have hne : (some t : Option Bool) ≠ some (!t) := by cases t <;> simp
      refine ⟨fun hp h0 => ?_, fun hp h0 => ?_, fun hp h0 => ?_⟩
      · subst hp
        simp only [cnt2, reduceCtorEq, if_false]
        have := (ih' (some (!t))).2.2 rfl k1
        omega
      · subst hp
        simp only [cnt2]
        rw [if_neg hne]
        have := (ih' (some (!t))).2.2 rfl k1
        omega
      · subst hp
        simp only [cnt2, if_true]
        exact (ih' _).2.2 rfl k1

theorem edges_chain (v : List (Pt K)) : List.IsChain (fun e f : Edge K => e.2 = f.1) (edges v) := by
  rw [List.isChain_iff_getElem]
  intro i hi
  have h1 : i < (edges v).length := by omega
  rw [edges_getElem h1, edges_getElem hi]
  have : i + 1 < v.length := by rw [edges_length] at hi; exact hi
  simp only [Nat.mod_eq_of_lt this]

/-- a line strictly between the ordinates of the vertices has a point strictly inside the polygon -/
theorem inside_on_line {σ : K} (hσ : σ ≠ 0) {v : List (Pt K)} (ht : Turns σ v) (hn : v.Nodup) (hs : Solid v) {y : K} {u w : Pt K}
    (hu : u ∈ v) (hw : w ∈ v) (h1 : u.2 < y) (h2 : y < w.2) : ∃ m, m ∈ Hull v ∧ m.2 = y ∧ ∀ e ∈ edges v, ¬ OnSeg e.1 e.2 m := by
  have huw : u ≠ w := by rintro rfl; linarith
  obtain ⟨z, hz, hz0⟩ := hs.off huw
  have seg : ∀ {a b q : Pt K}, a ∈ v → b ∈ v → OnSeg a b q → q ∈ Hull v := fun ha hb hq =>
    (convex_convexHull K _).segment_subset (Hull.mem ha) (Hull.mem hb) (onSeg_iff_segment.mp hq)
  obtain ⟨m1, hm1, hm1y⟩ := ebox_cross (e := (u, w)) (y := y) (by simp only [ebox, mem_hull2]; exact .inl ⟨h1.le, h2.le⟩)
  obtain ⟨m2, hm2, hm2y, hne⟩ : ∃ m2, m2 ∈ Hull v ∧ m2.2 = y ∧ m1.1 ≠ m2.1 := by
    have c1 := hm1.cr_eq
    rcases le_or_gt y z.2 with hzy | hzy
    · obtain ⟨m2, hm2, hm2y⟩ := ebox_cross (e := (u, z)) (y := y) (by simp only [ebox, mem_hull2]; exact .inl ⟨h1.le, hzy⟩)
      refine ⟨m2, seg hu hz hm2, hm2y, fun h => hz0 ?_⟩
      have e : m1 = m2 := Prod.ext h (hm1y.trans hm2y.symm)
      subst e
      have c2 := hm2.cr_eq
      have hum : u ≠ m1 := by rintro rfl; linarith
      refine cr_of_line hum (by unfold cr; ring) ?_ ?_
      · unfold cr at c1 ⊢; linarith
      · unfold cr at c2 ⊢; linarith
    · obtain ⟨m2, hm2, hm2y⟩ := ebox_cross (e := (w, z)) (y := y) (by simp only [ebox, mem_hull2]; exact .inr ⟨hzy.le, h2.le⟩)
      refine ⟨m2, seg hw hz hm2, hm2y, fun h => hz0 ?_⟩
      have e : m1 = m2 := Prod.ext h (hm1y.trans hm2y.symm)
      subst e
      have c2 := hm2.cr_eq
      have hwm : w ≠ m1 := by rintro rfl; linarith
      refine cr_of_line hwm ?_ (by unfold cr; ring) ?_
      · unfold cr at c1 ⊢; linarith
      · unfold cr at c2 ⊢; linarith
  have hm1H := seg hu hw hm1
  have hmid : OnSeg m1 m2 ((m1.1 + m2.1) / 2, y) := ⟨1 / 2, by norm_num, by norm_num, by simp only; ring, by simp only; rw [hm1y, hm2y]; ring⟩
  refine ⟨_, (convex_convexHull K _).segment_subset hm1H hm2 (onSeg_iff_segment.mp hmid), rfl, fun e he hoe => ?_⟩
  have c0 := hoe.cr_eq
  have c1 := Hull.left (ht.left he) hm1H
  have c2 := Hull.left (ht.left he) hm2
  have hid : σ * cr e.1 e.2 m1 + σ * cr e.1 e.2 m2 = 2 * (σ * cr e.1 e.2 ((m1.1 + m2.1) / 2, y)) := by
    unfold cr; simp only; rw [hm1y, hm2y]; ring
  rw [c0, mul_zero, mul_zero] at hid
  have z1 : cr e.1 e.2 m1 = 0 := (mul_eq_zero.mp (by linarith : σ * cr e.1 e.2 m1 = 0)).resolve_left hσ
  have z2 : cr e.1 e.2 m2 = 0 := (mul_eq_zero.mp (by linarith : σ * cr e.1 e.2 m2 = 0)).resolve_left hσ
  have hor : e.1.2 = e.2.2 := by
    have : (e.2.2 - e.1.2) * (m1.1 - m2.1) = 0 := by
      unfold cr at z1 z2
      rw [hm1y] at z1
      rw [hm2y] at z2
      linear_combination z2 - z1
    rcases mul_eq_zero.mp this with k | k
    · linarith
    · exact absurd (by linarith) hne
  have hdx : e.2.1 - e.1.1 ≠ 0 := fun h => edge_ne hn hs he (Prod.ext (by linarith) hor)
  have hy : e.1.2 = y := by
    unfold cr at z1
    rw [hm1y, ← hor, sub_self, zero_mul, sub_zero] at z1
    have := (mul_eq_zero.mp z1).resolve_left hdx
    linarith
  have l1 := ht.left he u hu
  have l2 := ht.left he w hw
  unfold cr at l1 l2
  rw [← hor, hy, sub_self, zero_mul, sub_zero] at l1 l2
  have hprod : σ * (e.2.1 - e.1.1) ≠ 0 := mul_ne_zero hσ hdx
  rcases lt_or_gt_of_ne hprod with k | k
  · nlinarith
  · nlinarith

/-- `contains` answers `NO` outside a polygon whose vertices are not aligned -/
theorem contains_of_not_hull {σ : K} (hσ : σ ≠ 0) (z : K → Itv K) {v : List (Pt K)} (ht : Turns σ v) (hn : v.Nodup) (hs : Solid v) {p : Pt K}
    (hp : p ∉ Hull v) : contains z v p = .no := by
  have hv : v ≠ [] := by obtain ⟨a, ha, _⟩ := hs; exact List.ne_nil_of_mem ha
  obtain ⟨a, b, c, d, h1, h2, hb, hm, -, -, ⟨u, hu, hu2⟩, ⟨w, hw, hw2⟩⟩ := pbox_spec hv
  have hne : edges v ≠ [] := by
    intro h
    have := edges_length v
    rw [h] at this
    exact hv (List.length_eq_zero_iff.mp this.symm)
  by_cases hin : p.1 ∈ (pbox v).1 ∧ p.2 ∈ (pbox v).2
  swap
  · unfold contains
    rw [hb, List.getLast?_eq_some_getLast hne]
    rw [hb] at hin
    simp only [Itv.bounds?]
    rw [if_neg hin]
  have hc : contains z v p = rayLoop z (p, (b + 1, p.2)) c d (edges v) (interE z ((edges v).getLast hne) (p, (b + 1, p.2))) 0 := by
    unfold contains
    rw [hb, List.getLast?_eq_some_getLast hne]
    rw [hb] at hin
    simp only [Itv.bounds?]
    rw [if_pos hin]
  rw [hb] at hin
  obtain ⟨⟨p1, p2⟩, p3, p4⟩ := hin
  change a ≤ p.1 at p1
  change p.1 ≤ b at p2
  change c ≤ p.2 at p3
  change p.2 ≤ d at p4
  have hrd : ¬ degen ((p, (b + 1, p.2)) : Edge K) := fun h => by
    have : p.1 = b + 1 := congrArg Prod.fst h
    linarith
  have hrh : horiz ((p, (b + 1, p.2)) : Edge K) := rfl
  have hray2 : ∀ q : Pt K, OnSeg p (b + 1, p.2) q → q.2 = p.2 ∧ p.1 ≤ q.1 := by
    intro q h
    have e := h.in_ebox (e := (p, (b + 1, p.2)))
    obtain ⟨s, _, _, _, e2⟩ := h
    refine ⟨by rw [e2]; simp, ?_⟩
    have := e.1
    simp only [ebox, mem_hull2] at this
    rcases this with k | k
    · exact k.1
    · linarith
  have hray1 : ∀ q : Pt K, q.2 = p.2 → p.1 ≤ q.1 → q.1 ≤ b + 1 → OnSeg p (b + 1, p.2) q := by
    intro q e2 e3 e4
    apply onSeg_of_ebox (e := (p, (b + 1, p.2)))
    · constructor
      · simp only [ebox, mem_hull2]; exact .inl ⟨e3, e4⟩
      · simp only [ebox, mem_hull2]; exact .inl ⟨e2.ge, e2.le⟩
    · unfold cr; rw [e2]; ring
  by_cases hty : p.2 = c ∨ p.2 = d
  · -- the ray is tangent to the polygon
    rw [hc, rayLoop_none]
    · rfl
    · intro e he hfl
      rcases interE_cases z e (p, (b + 1, p.2)) with k | ⟨q, k⟩
      · exact .inl k
      · right
        have hq2 := (hray2 q (interE_common hrh hrd k).2).1
        constructor
        · intro hx
          have : In p (interE z e (p, (b + 1, p.2))) := ⟨hx, hq2 ▸ k.2⟩
          exact hp (edge_in_hull he (interE_common hrh hrd this).1)
        · rcases hty with h | h
          · left; exact (hq2.trans h) ▸ k.2
          · right; exact (hq2.trans h) ▸ k.2
  · rw [not_or] at hty
    have hlo : c < p.2 := lt_of_le_of_ne p3 (Ne.symm hty.1)
    have hhi : p.2 < d := lt_of_le_of_ne p4 hty.2
    obtain ⟨m, hmH, hm2, hmo⟩ := inside_on_line hσ ht hn hs hu hw (hu2 ▸ hlo) (hw2 ▸ hhi)
    obtain ⟨l, r, hcr⟩ := crosses hσ ht hn hmH hmo
    have hstr := (strict hσ ht hn hmH hmo).2
    have hl2 : l.2 = p.2 := hcr.l2.trans hm2
    have hr2 : r.2 = p.2 := hcr.r2.trans hm2
    have hlr : l.1 < r.1 := lt_trans hcr.left hcr.right
    have hlH : l ∈ Hull v := by obtain ⟨e, he, h⟩ := hcr.on_l; exact edge_in_hull he h
    have hrH : r ∈ Hull v := by obtain ⟨e, he, h⟩ := hcr.on_r; exact edge_in_hull he h
    have hrb := (hull_box hm hrH).2.1
    have hnh : ∀ e ∈ edges v, p.2 ∈ (ebox e).2 → ¬ horiz e := fun e he h => hcr.not_horiz e he (hm2 ▸ h)
    have honly : ∀ e ∈ edges v, ∀ q, OnSeg e.1 e.2 q → q.2 = p.2 → q = l ∨ q = r := fun e he q h1 h2 => hcr.only e he q h1 (h2.trans hm2.symm)
    rcases lt_or_ge p.1 l.1 with hpl | hpl
    · -- on the left: two crossing points
      have hl_ray : OnSeg p (b + 1, p.2) l := hray1 l hl2 hpl.le (by linarith)
      have hr_ray : OnSeg p (b + 1, p.2) r := hray1 r hr2 (by linarith) (by linarith)
      have hneq : ofPt l ≠ ofPt r := fun h => by
        have h1 : In l (ofPt r) := h ▸ (in_ofPt.mpr rfl : In l (ofPt l))
        have := in_ofPt.mp h1
        rw [this] at hlr; exact lt_irrefl _ hlr
      let lab : Edge K → Option Bool := fun e => if p.2 ∉ (ebox e).2 then none else some (decide (interE z e (p, (b + 1, p.2)) = ofPt r))
      have hcase : ∀ e ∈ edges v, (p.2 ∉ (ebox e).2 ∧ lab e = none) ∨ (p.2 ∈ (ebox e).2 ∧
          ((interE z e (p, (b + 1, p.2)) = ofPt l ∧ lab e = some false ∧ OnSeg e.1 e.2 l) ∨
            (interE z e (p, (b + 1, p.2)) = ofPt r ∧ lab e = some true ∧ OnSeg e.1 e.2 r))) := by
        intro e he
        by_cases hfl : p.2 ∈ (ebox e).2
        · right
          refine ⟨hfl, ?_⟩
          obtain ⟨q, hq, hq2⟩ := ebox_cross hfl
          rcases honly e he q hq hq2 with rfl | rfl
          · have e1 := interE_point z (hnh e he hfl) hrh hrd hq hl_ray
            exact .inl ⟨e1, by simp only [lab]; rw [if_neg (not_not.mpr hfl), e1, decide_eq_false hneq], hq⟩
          · have e1 := interE_point z (hnh e he hfl) hrh hrd hq hr_ray
            exact .inr ⟨e1, by simp only [lab]; rw [if_neg (not_not.mpr hfl), e1, decide_eq_true rfl], hq⟩
        · left
          exact ⟨hfl, by simp only [lab]; rw [if_pos hfl]⟩
      have hlast := List.getLast_mem hne
      have hprev : interE z ((edges v).getLast hne) (p, (b + 1, p.2)) = (match lab ((edges v).getLast hne) with
          | none => ⊥ | some false => ofPt l | some true => ofPt r) := by
        rcases hcase _ hlast with ⟨k, kl⟩ | ⟨k, ⟨k1, kl, -⟩ | ⟨k1, kl, -⟩⟩
        · rw [kl]
          rcases interE_cases z ((edges v).getLast hne) (p, (b + 1, p.2)) with j | ⟨q, j⟩
          · exact j
          · exfalso
            obtain ⟨j1, j2⟩ := interE_common hrh hrd j
            exact k ((hray2 q j2).1 ▸ j1.in_ebox.2)
        · rw [kl, k1]
        · rw [kl, k1]
      rw [hc, hprev, rayLoop_count2 z (by exact hpl) hlr (hr2.trans hl2.symm) (by rw [hr2]; exact hlo.ne) (by rw [hr2]; exact hhi.ne') lab (edges v) _ 0 ?_]
      · suffices h : cnt2 ((edges v).map lab) (lab ((edges v).getLast hne)) % 2 = 0 by
          rw [if_neg (by omega)]
        rcases hcase _ hlast with ⟨k, kl⟩ | ⟨k, hk⟩
        · -- the last edge does not cross the line
          rw [kl]
          let s : Pt K → K := fun q => σ * (q.2 - p.2)
          have hsg : ∀ e ∈ edges v, (lab e = none ∧ 0 < s e.1 * s e.2) ∨ (lab e = some true ∧ s e.1 ≤ 0 ∧ 0 ≤ s e.2) ∨
              (lab e = some false ∧ s e.2 ≤ 0 ∧ 0 ≤ s e.1) := by
            intro e he
            rcases hcase e he with ⟨k, kl⟩ | ⟨k, ⟨k1, kl, k2⟩ | ⟨k1, kl, k2⟩⟩
            · left
              refine ⟨kl, ?_⟩
              simp only [ebox, mem_hull2, not_or, not_and, not_le] at k
              have hs2 : 0 < σ * σ := mul_self_pos.mpr hσ
              simp only [s]
              rcases le_or_gt e.1.2 p.2 with i | i
              · have i2 := k.1 i
                have i1 : e.1.2 < p.2 := by
                  refine lt_of_le_of_ne i (fun hh => ?_)
                  exact absurd (k.2 (by linarith)) (not_lt.mpr hh.ge)
                nlinarith [mul_pos hs2 (mul_pos (sub_pos.mpr i1) (sub_pos.mpr i2))]
              · have i2 : p.2 < e.2.2 := by
                  by_contra hh
                  exact absurd (k.2 (not_lt.mp hh)) (not_lt.mpr i.le)
                nlinarith [mul_pos hs2 (mul_pos (sub_pos.mpr i) (sub_pos.mpr i2))]
            · right; right
              have hc1 := hstr e he
              have hc2 := k2.cr_eq
              have hpos : σ * (e.2.2 - e.1.2) < 0 := by
                have : σ * cr e.1 e.2 m = (σ * (e.2.2 - e.1.2)) * (l.1 - m.1) := by
                  have : σ * cr e.1 e.2 m = σ * cr e.1 e.2 m - σ * cr e.1 e.2 l := by rw [hc2, mul_zero, sub_zero]
                  rw [this]; unfold cr; rw [hcr.l2]; ring
                rw [this] at hc1
                by_contra hn
                nlinarith [hcr.left]
              refine ⟨kl, ?_, ?_⟩
              · obtain ⟨t, t0, t1, -, t2⟩ := k2
                simp only [s]; rw [← hl2, t2]; nlinarith
              · obtain ⟨t, t0, t1, -, t2⟩ := k2
                simp only [s]; rw [← hl2, t2]; nlinarith
            · right; left
              have hc1 := hstr e he
              have hc2 := k2.cr_eq
              have hpos : 0 < σ * (e.2.2 - e.1.2) := by
                have : σ * cr e.1 e.2 m = (σ * (e.2.2 - e.1.2)) * (r.1 - m.1) := by
                  have : σ * cr e.1 e.2 m = σ * cr e.1 e.2 m - σ * cr e.1 e.2 r := by rw [hc2, mul_zero, sub_zero]
                  rw [this]; unfold cr; rw [hcr.r2]; ring
                rw [this] at hc1
                by_contra hn
                nlinarith [hcr.right]
              refine ⟨kl, ?_, ?_⟩
              · obtain ⟨t, t0, t1, -, t2⟩ := k2
                simp only [s]; rw [← hr2, t2]; nlinarith
              · obtain ⟨t, t0, t1, -, t2⟩ := k2
                simp only [s]; rw [← hr2, t2]; nlinarith
          obtain ⟨v0, v', rfl⟩ := List.exists_cons_of_ne_nil hv
          have hend : ∀ e ∈ (edges (v0 :: v')).getLast?, e.2 = v0 := by
            intro e he
            rw [List.getLast?_eq_getElem?, Option.mem_def, List.getElem?_eq_some_iff] at he
            obtain ⟨hlt, he⟩ := he
            rw [← he, edges_getElem]
            simp only [edges_length, List.length_cons]
            have : (v'.length + 1 - 1 + 1) % (v'.length + 1) = 0 := by
              rw [show v'.length + 1 - 1 + 1 = v'.length + 1 by omega, Nat.mod_self]
            simp only [this, List.getElem_cons_zero]
          have hstart : ∀ e ∈ (edges (v0 :: v')).head?, e.1 = v0 := by
            intro e he
            simp only [edges, List.tail_cons, List.take_succ_cons, List.take_zero] at he
            cases v' with
            | nil => simp at he; rw [← he]
            | cons x v' => simp at he; rw [← he]
          have hs0 : s v0 ≠ 0 := by
            have := hend _ (List.getLast?_eq_some_getLast hne)
            rcases hsg _ hlast with ⟨-, i⟩ | ⟨i, -⟩ | ⟨i, -⟩
            · rw [this] at i
              intro h; rw [h, mul_zero] at i; exact lt_irrefl _ i
            · rw [kl] at i; simp at i
            · rw [kl] at i; simp at i
          rcases lt_or_gt_of_ne hs0 with hs0 | hs0
          · have := cnt2_path (fun q => - s q) lab false (edges (v0 :: v')) v0 v0 none (edges_chain _) hstart hend (fun h => absurd h hne)
              (by linarith) (fun e he => by
                rcases hsg e he with ⟨i, j⟩ | ⟨i, j1, j2⟩ | ⟨i, j1, j2⟩
                · left; exact ⟨i, by linarith⟩
                · right; right; exact ⟨i, by linarith, by linarith⟩
                · right; left; exact ⟨i, by linarith, by linarith⟩)
            exact this.1 rfl (by linarith)
          · exact (cnt2_path s lab true (edges (v0 :: v')) v0 v0 none (edges_chain _) hstart hend (fun h => absurd h hne) hs0 hsg).1 rfl hs0
        · -- the last edge crosses the line
          have : ∃ x, lab ((edges v).getLast hne) = some x := by
            rcases hk with ⟨-, i, -⟩ | ⟨-, i, -⟩
            · exact ⟨_, i⟩
            · exact ⟨_, i⟩
          obtain ⟨x, hx⟩ := this
          rw [hx]
          have := cnt2_cyclic ((edges v).map lab) x x (by rw [List.getLast?_map, List.getLast?_eq_some_getLast hne, Option.map_some, hx])
          rw [if_pos rfl] at this
          exact this
      · intro e he
        rcases hcase e he with k | ⟨k, ⟨k1, kl, -⟩ | ⟨k1, kl, -⟩⟩
        · exact .inl k
        · exact .inr ⟨k, .inl ⟨k1, kl⟩⟩
        · exact .inr ⟨k, .inr ⟨k1, kl⟩⟩
    · -- on the right: no crossing point
      have hrp : r.1 < p.1 := by
        by_contra hn'
        apply hp
        refine (convex_convexHull K _).segment_subset hlH hrH (onSeg_iff_segment.mp ?_)
        apply onSeg_of_ebox (e := (l, r))
        · constructor
          · simp only [ebox, mem_hull2]; exact .inl ⟨hpl, not_lt.mp hn'⟩
          · simp only [ebox, mem_hull2]; exact .inl ⟨hl2.le, hr2.ge⟩
        · unfold cr; simp only; rw [hl2, hr2]; ring
      rw [hc, rayLoop_none]
      · rfl
      · intro e he hfl
        left
        apply interE_bot z (hnh e he hfl) hrh hrd
        intro q hq hq2
        obtain ⟨k1, k2⟩ := hray2 q hq2
        rcases honly e he q hq k1 with rfl | rfl
        · linarith
        · linarith

end Codac.Poly
