import Verif.Thick.SweepProofs

/-!
# Lemmas on the second stage of the sweep test
-/

set_option linter.unusedSectionVars false

namespace Codac.Sweep
variable {K : Type*} [Field K] [LinearOrder K] [IsStrictOrderedRing K]

/-- `w` is between `a` and `b` -/
def Btw (a b w : K) : Prop := (a ≤ w ∧ w ≤ b) ∨ (b ≤ w ∧ w ≤ a)

theorem btw_seg {a b w : K} (h : Btw a b w) : ∃ t, 0 ≤ t ∧ t ≤ 1 ∧ w = a + t * (b - a) := by
  by_cases hab : a = b
  · subst hab
    refine ⟨0, le_refl 0, zero_le_one, ?_⟩
    rcases h with h | h <;> linarith [h.1, h.2, le_antisymm h.2 h.1]
  · have hne : b - a ≠ 0 := fun h => hab (by linarith)
    refine ⟨(w - a) / (b - a), ?_, ?_, by rw [div_mul_cancel₀ _ hne]; ring⟩
    · rcases h with h | h
      · exact div_nonneg (by linarith [h.1]) (by linarith [h.1, h.2])
      · exact div_nonneg_of_nonpos (by linarith [h.2]) (by linarith [h.1, h.2])
    · rcases h with h | h
      · have : 0 < b - a := lt_of_le_of_ne (by linarith [h.1, h.2]) (Ne.symm hne)
        rw [div_le_one this]; linarith [h.2]
      · have : b - a < 0 := lt_of_le_of_ne (by linarith [h.1, h.2]) hne
        rw [div_le_one_of_neg this]; linarith [h.1]

theorem mem_seg {X : Itv K} {a b t : K} (ha : a ∈ X) (hb : b ∈ X) (h0 : 0 ≤ t) (h1 : t ≤ 1) : a + t * (b - a) ∈ X := by
  have lo : ∀ c, c ≤ a → c ≤ b → c ≤ a + t * (b - a) := by
    intro c h2 h3
    have : 0 ≤ (1 - t) * (a - c) := mul_nonneg (by linarith) (by linarith)
    have : 0 ≤ t * (b - c) := mul_nonneg h0 (by linarith)
    nlinarith
  have hi : ∀ c, a ≤ c → b ≤ c → a + t * (b - a) ≤ c := by
    intro c h2 h3
    have : 0 ≤ (1 - t) * (c - a) := mul_nonneg (by linarith) (by linarith)
    have : 0 ≤ t * (c - b) := mul_nonneg h0 (by linarith)
    nlinarith
  match X, ha, hb with
  | .mk l h p, ha, hb =>
    constructor
    · cases l with
      | none => trivial
      | some c => exact lo c ha.1 hb.1
    · cases h with
      | none => trivial
      | some c => exact hi c ha.2 hb.2

/-- the products `u (q - z)` over two intervals take all the values between two of them -/
theorem prod_btw {U Z : Itv K} {u₁ u₂ z₁ z₂ q w : K} (h1 : u₁ ∈ U) (h2 : u₂ ∈ U) (h3 : z₁ ∈ Z) (h4 : z₂ ∈ Z)
    (h : Btw (u₁ * (q - z₁)) (u₂ * (q - z₂)) w) : ∃ u ∈ U, ∃ z ∈ Z, u * (q - z) = w := by
  have hc : Btw (u₁ * (q - z₁)) (u₂ * (q - z₁)) w ∨ Btw (u₂ * (q - z₁)) (u₂ * (q - z₂)) w := by
    unfold Btw at *
    rcases le_total w (u₂ * (q - z₁)) with h5 | h5 <;> rcases h with h | h
    · exact Or.inl (Or.inl ⟨h.1, h5⟩)
    · exact Or.inr (Or.inr ⟨h.1, h5⟩)
    · exact Or.inr (Or.inl ⟨h5, h.2⟩)
    · exact Or.inl (Or.inr ⟨h5, h.2⟩)
  rcases hc with hc | hc
  · obtain ⟨t, t0, t1, e⟩ := btw_seg hc
    exact ⟨u₁ + t * (u₂ - u₁), mem_seg h1 h2 t0 t1, z₁, h3, by rw [e]; ring⟩
  · obtain ⟨t, t0, t1, e⟩ := btw_seg hc
    exact ⟨u₂, h2, z₁ + t * (z₂ - z₁), mem_seg h3 h4 t0 t1, by rw [e]; ring⟩

theorem btw_meet {a₁ a₂ b₁ b₂ : K} (h1 : a₁ ≤ b₁) (h2 : b₂ ≤ a₂) : ∃ w, Btw a₁ a₂ w ∧ Btw b₁ b₂ w := by
  refine ⟨max (min a₁ a₂) (min b₁ b₂), ?_⟩
  unfold Btw
  rcases le_total a₁ a₂ with h3 | h3 <;> rcases le_total b₁ b₂ with h4 | h4 <;>
    simp only [h3, h4, min_eq_left, min_eq_right] <;>
    rcases max_cases a₁ b₁ with ⟨e, h5⟩ | ⟨e, h5⟩ <;> rcases max_cases a₁ b₂ with ⟨e', h5'⟩ | ⟨e', h5'⟩ <;>
    rcases max_cases a₂ b₁ with ⟨e'', h6⟩ | ⟨e'', h6⟩ <;> rcases max_cases a₂ b₂ with ⟨e3, h7⟩ | ⟨e3, h7⟩ <;>
    simp only [e, e', e'', e3] <;>
    constructor <;> first
      | exact Or.inl ⟨by linarith, by linarith⟩
      | exact Or.inr ⟨by linarith, by linarith⟩

theorem mem_minI {X Y : Itv K} {a b : K} (ha : a ∈ X) (hb : b ∈ Y) : min a b ∈ minI X Y := by
  match X, Y, ha, hb with
  | .mk l h _, .mk l' h' _, ha, hb =>
    simp only [minI, Itv.mem_ofBounds, Itv.loLe_minLo, Itv.leHi_minHi]
    constructor
    · rcases min_choice a b with e | e <;> rw [e]
      · exact Or.inl ha.1
      · exact Or.inr hb.1
    · constructor
      · cases h with
        | none => trivial
        | some c => exact le_trans (min_le_left _ _) ha.2
      · cases h' with
        | none => trivial
        | some c => exact le_trans (min_le_right _ _) hb.2

theorem mem_maxI {X Y : Itv K} {a b : K} (ha : a ∈ X) (hb : b ∈ Y) : max a b ∈ maxI X Y := by
  match X, Y, ha, hb with
  | .mk l h _, .mk l' h' _, ha, hb =>
    simp only [maxI, Itv.mem_ofBounds, Itv.loLe_maxLo, Itv.leHi_maxHi]
    constructor
    · constructor
      · cases l with
        | none => trivial
        | some c => exact le_trans ha.1 (le_max_left _ _)
      · cases l' with
        | none => trivial
        | some c => exact le_trans hb.1 (le_max_right _ _)
    · rcases max_choice a b with e | e <;> rw [e]
      · exact Or.inl ha.2
      · exact Or.inr hb.2

theorem lt0_of_ubLt0 {X : Itv K} (h : ubLt0 X = true) {a : K} (ha : a ∈ X) : a < 0 := by
  match X, h, ha with
  | .mk lo (some b) p, h, ha => simp only [ubLt0, decide_eq_true_eq] at h; exact lt_of_le_of_lt ha.2 h

/-- an interval which is not empty and has two finite bounds -/
def Bdd (X : Itv K) : Prop := ∃ a b, ∃ h, X = Itv.mk (some a) (some b) h

/-- the value of the nested minima is one of the products -/
theorem min4_att (A : IArith K) {U Z Q : Itv K} (hU : Bdd U) (hZ : Bdd Z) {q : K} (hq : q ∈ Q) :
    ∃ u ∈ U, ∃ z ∈ Z, u * (q - z) ∈ min4 A U (A.sub Q (ptLo Z)) (A.sub Q (ptHi Z)) := by
  obtain ⟨u0, u1, hu, rfl⟩ := hU
  obtain ⟨z0, z1, hz, rfl⟩ := hZ
  have mU0 : u0 ∈ Itv.mk (some u0) (some u1) hu := ⟨le_refl _, hu⟩
  have mU1 : u1 ∈ Itv.mk (some u0) (some u1) hu := ⟨hu, le_refl _⟩
  have mZ0 : z0 ∈ Itv.mk (some z0) (some z1) hz := ⟨le_refl _, hz⟩
  have mZ1 : z1 ∈ Itv.mk (some z0) (some z1) hz := ⟨hz, le_refl _⟩
  have e0 : q - z0 ∈ A.sub Q (ptLo (Itv.mk (some z0) (some z1) hz)) := A.sub_mem hq (by simp [ptLo])
  have e1 : q - z1 ∈ A.sub Q (ptHi (Itv.mk (some z0) (some z1) hz)) := A.sub_mem hq (by simp [ptHi])
  have f0 : u0 ∈ ptLo (Itv.mk (some u0) (some u1) hu) := by simp [ptLo]
  have f1 : u1 ∈ ptHi (Itv.mk (some u0) (some u1) hu) := by simp [ptHi]
  have M := mem_minI (mem_minI (A.mul_mem f1 e0) (A.mul_mem f1 e1)) (mem_minI (A.mul_mem f0 e0) (A.mul_mem f0 e1))
  change _ ∈ min4 A _ _ _ at M
  rcases min_choice (min (u1 * (q - z0)) (u1 * (q - z1))) (min (u0 * (q - z0)) (u0 * (q - z1))) with e | e <;> rw [e] at M
  · rcases min_choice (u1 * (q - z0)) (u1 * (q - z1)) with e | e <;> rw [e] at M
    · exact ⟨u1, mU1, z0, mZ0, M⟩
    · exact ⟨u1, mU1, z1, mZ1, M⟩
  · rcases min_choice (u0 * (q - z0)) (u0 * (q - z1)) with e | e <;> rw [e] at M
    · exact ⟨u0, mU0, z0, mZ0, M⟩
    · exact ⟨u0, mU0, z1, mZ1, M⟩

/-- the value of the nested maxima is one of the products -/
theorem max4_att (A : IArith K) {U Z Q : Itv K} (hU : Bdd U) (hZ : Bdd Z) {q : K} (hq : q ∈ Q) :
    ∃ u ∈ U, ∃ z ∈ Z, u * (q - z) ∈ max4 A U (A.sub Q (ptLo Z)) (A.sub Q (ptHi Z)) := by
  obtain ⟨u0, u1, hu, rfl⟩ := hU
  obtain ⟨z0, z1, hz, rfl⟩ := hZ
  have mU0 : u0 ∈ Itv.mk (some u0) (some u1) hu := ⟨le_refl _, hu⟩
  have mU1 : u1 ∈ Itv.mk (some u0) (some u1) hu := ⟨hu, le_refl _⟩
  have mZ0 : z0 ∈ Itv.mk (some z0) (some z1) hz := ⟨le_refl _, hz⟩
  have mZ1 : z1 ∈ Itv.mk (some z0) (some z1) hz := ⟨hz, le_refl _⟩
  have e0 : q - z0 ∈ A.sub Q (ptLo (Itv.mk (some z0) (some z1) hz)) := A.sub_mem hq (by simp [ptLo])
  have e1 : q - z1 ∈ A.sub Q (ptHi (Itv.mk (some z0) (some z1) hz)) := A.sub_mem hq (by simp [ptHi])
  have f0 : u0 ∈ ptLo (Itv.mk (some u0) (some u1) hu) := by simp [ptLo]
  have f1 : u1 ∈ ptHi (Itv.mk (some u0) (some u1) hu) := by simp [ptHi]
  have M := mem_maxI (mem_maxI (A.mul_mem f1 e0) (A.mul_mem f1 e1)) (mem_maxI (A.mul_mem f0 e0) (A.mul_mem f0 e1))
  change _ ∈ max4 A _ _ _ at M
  rcases max_choice (max (u1 * (q - z0)) (u1 * (q - z1))) (max (u0 * (q - z0)) (u0 * (q - z1))) with e | e <;> rw [e] at M
  · rcases max_choice (u1 * (q - z0)) (u1 * (q - z1)) with e | e <;> rw [e] at M
    · exact ⟨u1, mU1, z0, mZ0, M⟩
    · exact ⟨u1, mU1, z1, mZ1, M⟩
  · rcases max_choice (u0 * (q - z0)) (u0 * (q - z1)) with e | e <;> rw [e] at M
    · exact ⟨u0, mU0, z0, mZ0, M⟩
    · exact ⟨u0, mU0, z1, mZ1, M⟩

/-- all the intervals of the slice are bounded and not empty -/
def BddSl (s : Sl K) : Prop := Bdd s.x ∧ Bdd s.y ∧ Bdd s.ux ∧ Bdd s.uy ∧ Bdd s.l

/-- when the extreme values of the first quantity have opposite signs it is zero for some values in the slice -/
theorem det_zero (A : IArith K) {X : Bx K} {s : Sl K} (hs : BddSl s) {p q : K} (hp : p ∈ X.p) (hq : q ∈ X.q)
    (h1 : ubLe0 (v1Minus A X s) = true) (h2 : lbGe0 (v1Plus A X s) = true) :
    ∃ x ∈ s.x, ∃ y ∈ s.y, ∃ ux ∈ s.ux, ∃ uy ∈ s.uy, det x y ux uy p q = 0 := by
  obtain ⟨bx, bY, bu, bv, _⟩ := hs
  obtain ⟨u1, m1, y1, n1, k1⟩ := min4_att A bu bY hq
  obtain ⟨u2, m2, y2, n2, k2⟩ := max4_att A bu bY hq
  obtain ⟨v1, m3, x1, n3, k3⟩ := min4_att A bv bx hp
  obtain ⟨v2, m4, x2, n4, k4⟩ := max4_att A bv bx hp
  have c1 := le0_of_ubLe0 h1 (A.sub_mem k1 k4)
  have c2 := ge0_of_lbGe0 h2 (A.sub_mem k2 k3)
  obtain ⟨w, w1, w2⟩ := btw_meet (a₁ := u1 * (q - y1)) (a₂ := u2 * (q - y2)) (b₁ := v2 * (p - x2)) (b₂ := v1 * (p - x1)) (by linarith) (by linarith)
  obtain ⟨u, hu, y, hy, e⟩ := prod_btw m1 m2 n1 n2 w1
  obtain ⟨v, hv, x, hx, e'⟩ := prod_btw m4 m3 n4 n3 w2
  exact ⟨x, hx, y, hy, u, hu, v, hv, by unfold det; rw [e, e', sub_self]⟩

/-- when the largest value of the second quantity is nonnegative, the point is at the sensor range for some values in the slice -/
theorem along_near (A : IArith K) {X : Bx K} {s : Sl K} (hs : BddSl s) {p q : K} (hp : p ∈ X.p) (hq : q ∈ X.q)
    (h : lbGe0 (v2High A X s) = true) {l : K} (hl : l ∈ s.l) :
    ∃ x ∈ s.x, ∃ y ∈ s.y, ∃ ux ∈ s.ux, ∃ uy ∈ s.uy, |along x y ux uy p q| ≤ l := by
  obtain ⟨bx, bY, bu, bv, _⟩ := hs
  obtain ⟨u1, m1, x1, n1, k1⟩ := min4_att A bu bx hp
  obtain ⟨u2, m2, x2, n2, k2⟩ := max4_att A bu bx hp
  obtain ⟨v1, m3, y1, n3, k3⟩ := min4_att A bv bY hq
  obtain ⟨v2, m4, y2, n4, k4⟩ := max4_att A bv bY hq
  have sm : u1 * (p - x1) + v1 * (q - y1) ∈ sumMinus A X s := A.add_mem k1 k3
  have sp : u2 * (p - x2) + v2 * (q - y2) ∈ sumPlus A X s := A.add_mem k2 k4
  have pr := A.mul_mem sm sp
  have mn := mem_minI (mem_absI sm) (mem_absI sp)
  unfold v2High at h
  generalize hP : A.mul (sumMinus A X s) (sumPlus A X s) = P at pr h
  match P, pr with
  | .mk lo hi hlh, pr =>
    by_cases hneg : ubLt0 (Itv.mk lo hi hlh) = true
    · -- opposite signs: the sum is zero somewhere
      have hlt : (u1 * (p - x1) + v1 * (q - y1)) * (u2 * (p - x2) + v2 * (q - y2)) < 0 := by
        exact lt0_of_ubLt0 hneg pr
      have e0 : signI (Itv.mk lo hi hlh) = .point (-1) := by simp only [signI, if_pos hneg]
      rw [e0] at h
      have l0 : 0 ≤ l := by
        have hm : max (0 : K) (-1) ∈ maxI (Itv.point 0) (Itv.point (-1)) := mem_maxI (by simp) (by simp)
        have := ge0_of_lbGe0 h (A.sub_mem hl (A.mul_mem hm mn))
        have e1 : max (0 : K) (-1) = 0 := by rw [max_eq_left]; linarith [zero_lt_one (α := K)]
        rw [e1, zero_mul, sub_zero] at this
        exact this
      have hsig : (u1 * (p - x1) + v1 * (q - y1) < 0 ∧ 0 < u2 * (p - x2) + v2 * (q - y2)) ∨
          (0 < u1 * (p - x1) + v1 * (q - y1) ∧ u2 * (p - x2) + v2 * (q - y2) < 0) := by
        rcases mul_neg_iff.mp hlt with h | h
        · exact Or.inr h
        · exact Or.inl h
      have fin : ∃ w, Btw (u1 * (p - x1)) (u2 * (p - x2)) w ∧ Btw (v1 * (q - y1)) (v2 * (q - y2)) (-w) := by
        have key : ∃ w, Btw (u1 * (p - x1)) (u2 * (p - x2)) w ∧ Btw (-(v1 * (q - y1))) (-(v2 * (q - y2))) w := by
          rcases hsig with ⟨g1, g2⟩ | ⟨g1, g2⟩
          · exact btw_meet (by linarith) (by linarith)
          · obtain ⟨w, w1, w2⟩ := btw_meet (a₁ := u2 * (p - x2)) (a₂ := u1 * (p - x1)) (b₁ := -(v2 * (q - y2))) (b₂ := -(v1 * (q - y1)))
              (by linarith) (by linarith)
            exact ⟨w, w1.symm, w2.symm⟩
        obtain ⟨w, w1, w2⟩ := key
        refine ⟨w, w1, ?_⟩
        rcases w2 with w2 | w2
        · exact Or.inr ⟨by linarith [w2.2], by linarith [w2.1]⟩
        · exact Or.inl ⟨by linarith [w2.2], by linarith [w2.1]⟩
      obtain ⟨w, w1, w2⟩ := fin
      obtain ⟨u, hu, x, hx, e⟩ := prod_btw m1 m2 n1 n2 w1
      obtain ⟨v, hv, y, hy, e'⟩ := prod_btw m3 m4 n3 n4 w2
      exact ⟨x, hx, y, hy, u, hu, v, hv, by unfold along; rw [e, e', add_neg_cancel, abs_zero]; exact l0⟩
    · -- the factor may be one
      have one : (1 : K) ∈ maxI (Itv.point 0) (signI (Itv.mk lo hi hlh)) := by
        have h1 : (1 : K) ∈ signI (Itv.mk lo hi hlh) := by
          simp only [signI, if_neg hneg]
          split
          · simp
          · rw [Itv.mem_ofBounds]
            exact ⟨by simp only [loLe_some]; linarith [zero_lt_one (α := K)], by simp⟩
        have := mem_maxI (a := (0 : K)) (X := Itv.point 0) (by simp) h1
        rwa [max_eq_right zero_le_one] at this
      have := ge0_of_lbGe0 h (A.sub_mem hl (A.mul_mem one mn))
      rw [one_mul] at this
      rcases min_choice |u1 * (p - x1) + v1 * (q - y1)| |u2 * (p - x2) + v2 * (q - y2)| with e | e <;> rw [e] at this
      · exact ⟨x1, n1, y1, n3, u1, m1, v1, m3, by unfold along; linarith⟩
      · exact ⟨x2, n2, y2, n4, u2, m2, v2, m4, by unfold along; linarith⟩

end Codac.Sweep
