import Verif.Ctc.Polar

/-!
# `SepPolarXY`

Models `/repo/src/core/geometry/codac_SepPolarXY.cpp`: the points whose polar coordinates are in `[rho]×[theta]`, seen from the origin.
-/

namespace Codac
open Real

/-- the attributes of `SepPolarXY`, codac_SepPolarXY.h:43-46. The angles have finite bounds. -/
structure PolarSep where
  rho : Itv ℝ
  thLb : ℝ
  thUb : ℝ
  /-- `M_PI` -/
  mPi : ℝ
  /-- `Interval::mid()` (IBEX) -/
  mid : ℝ → ℝ → ℝ

namespace PolarSep
variable (O : PolarOps) (fuel : Nat) (s : PolarSep)

/-- `theta` -/
noncomputable def theta : Itv ℝ := Itv.icc s.thLb s.thUb

/-- `limit`, codac_SepPolarXY.cpp:46 -/
noncomputable def limit : ℝ := s.mid s.thLb s.thUb - s.mPi

/-- `theta_m`, codac_SepPolarXY.cpp:47; an `Interval` with its bounds in the wrong order is empty (IBEX) -/
noncomputable def thetaM : Itv ℝ := Itv.icc s.limit s.thLb

/-- `theta_p`, codac_SepPolarXY.cpp:48 -/
noncomputable def thetaP : Itv ℝ := Itv.icc s.thUb (s.limit + 2 * s.mPi)

/-- `rho_m`, codac_SepPolarXY.cpp:44 -/
noncomputable def rhoM : Itv ℝ := match s.rho.lb? with | some l => Itv.icc 0 l | none => ⊥

/-- `rho_p`, codac_SepPolarXY.cpp:45; `[+oo,+oo]` is empty (IBEX) -/
noncomputable def rhoP : Itv ℝ := match s.rho.ub? with | some u => Itv.mk (some u) none trivial | none => ⊥

/-- a box that becomes empty as a whole -/
noncomputable def whole (b : Itv ℝ × Itv ℝ) : Itv ℝ × Itv ℝ := if b.1.isEmpty || b.2.isEmpty then (⊥, ⊥) else b

/-- `SepPolarXY::contractOut`, codac_SepPolarXY.cpp:29-35 -/
noncomputable def contractOut (b : Itv ℝ × Itv ℝ) : Option (Itv ℝ × Itv ℝ) :=
  (polarContract O fuel ⟨b.1, b.2, s.rho, s.theta⟩).map fun r => whole (r.x, r.y)

/-- `SepPolarXY::contractIn`, codac_SepPolarXY.cpp:38-63 -/
noncomputable def contractIn (b : Itv ℝ × Itv ℝ) : Option (Itv ℝ × Itv ℝ) :=
  (polarContract O fuel ⟨b.1, b.2, posReals, s.thetaM⟩).bind fun r1 =>
  (polarContract O fuel ⟨b.1, b.2, posReals, s.thetaP⟩).bind fun r2 =>
  (polarContract O fuel ⟨b.1, b.2, s.rhoM, s.theta⟩).bind fun r3 =>
  (polarContract O fuel ⟨b.1, b.2, s.rhoP, s.theta⟩).map fun r4 =>
    whole (b.1 ⊓ (r1.x ⊔ r2.x ⊔ r3.x ⊔ r4.x), b.2 ⊓ (r1.y ⊔ r2.y ⊔ r3.y ⊔ r4.y))

/-- `SepPolarXY::separate`, codac_SepPolarXY.cpp:65-96: the new `x_in` and `x_out` (the messages are left out) -/
noncomputable def separate (xin xout : Itv ℝ × Itv ℝ) : Option ((Itv ℝ × Itv ℝ) × (Itv ℝ × Itv ℝ)) :=
  let o := whole (xout.1 ⊓ xin.1, xout.2 ⊓ xin.2)
  let i := whole (xin.1 ⊓ o.1, xin.2 ⊓ o.2)
  if i.1.isEmpty then some (i, o)
  else (s.contractOut O fuel o).bind fun o' => (s.contractIn O fuel i).map fun i' => (i', o')

end PolarSep

/-! ### Proofs -/

namespace PolarSep
variable (O : PolarOps) (s : PolarSep)

theorem mem_whole {b : Itv ℝ × Itv ℝ} {x y : ℝ} (hx : x ∈ b.1) (hy : y ∈ b.2) : x ∈ (whole b).1 ∧ y ∈ (whole b).2 := by
  unfold whole
  rw [if_neg]
  · exact ⟨hx, hy⟩
  · simp only [Bool.or_eq_true, Itv.isEmpty_iff, not_or]
    exact ⟨Itv.ne_bot_of_mem hx, Itv.ne_bot_of_mem hy⟩

theorem whole_le (b : Itv ℝ × Itv ℝ) : (whole b).1 ≤ b.1 ∧ (whole b).2 ≤ b.2 := by
  unfold whole
  split
  · exact ⟨bot_le, bot_le⟩
  · exact ⟨le_rfl, le_rfl⟩

theorem contractOut_le (n : Nat) (b : Itv ℝ × Itv ℝ) : ∃ r, s.contractOut O (n + 2) b = some r ∧ r.1 ≤ b.1 ∧ r.2 ≤ b.2 := by
  obtain ⟨R, e, h1, h2, _⟩ := polarContract_le O n ⟨b.1, b.2, s.rho, s.theta⟩
  have := whole_le (R.x, R.y)
  exact ⟨whole (R.x, R.y), by simp [contractOut, e], this.1.trans h1, this.2.trans h2⟩

theorem contractIn_le (n : Nat) (b : Itv ℝ × Itv ℝ) : ∃ r, s.contractIn O (n + 2) b = some r ∧ r.1 ≤ b.1 ∧ r.2 ≤ b.2 := by
  obtain ⟨R1, e1, _⟩ := polarContract_le O n ⟨b.1, b.2, posReals, s.thetaM⟩
  obtain ⟨R2, e2, _⟩ := polarContract_le O n ⟨b.1, b.2, posReals, s.thetaP⟩
  obtain ⟨R3, e3, _⟩ := polarContract_le O n ⟨b.1, b.2, s.rhoM, s.theta⟩
  obtain ⟨R4, e4, _⟩ := polarContract_le O n ⟨b.1, b.2, s.rhoP, s.theta⟩
  have := whole_le (b.1 ⊓ (R1.x ⊔ R2.x ⊔ R3.x ⊔ R4.x), b.2 ⊓ (R1.y ⊔ R2.y ⊔ R3.y ⊔ R4.y))
  exact ⟨_, by simp only [contractIn, e1, e2, e3, e4, Option.bind_some, Option.map_some], this.1.trans inf_le_left, this.2.trans inf_le_left⟩

theorem contractOut_keeps (n : Nat) {b r : Itv ℝ × Itv ℝ} (h : s.contractOut O (n + 2) b = some r) {ρ t : ℝ} (hρ : 0 < ρ) (hx : ρ * cos t ∈ b.1)
    (hy : ρ * sin t ∈ b.2) (h1 : ρ ∈ s.rho) (h2 : t ∈ s.theta) (hs : sin t ≠ 0 ∨ O.Relational) : ρ * cos t ∈ r.1 ∧ ρ * sin t ∈ r.2 := by
  obtain ⟨R, e, k1, k2, _⟩ := polarContract_keeps O n (X := ⟨b.1, b.2, s.rho, s.theta⟩) hρ ⟨hx, hy, h1, h2⟩ hs
  simp only [contractOut, e, Option.map_some, Option.some.injEq] at h
  subst h
  exact mem_whole k1 k2

theorem contractIn_keeps (n : Nat) {b r : Itv ℝ × Itv ℝ} (h : s.contractIn O (n + 2) b = some r) {ρ t : ℝ} (hρ : 0 < ρ) (hx : ρ * cos t ∈ b.1)
    (hy : ρ * sin t ∈ b.2) (hc : (t ∈ s.thetaM ∨ t ∈ s.thetaP) ∨ ((ρ ∈ s.rhoM ∨ ρ ∈ s.rhoP) ∧ t ∈ s.theta)) (hs : sin t ≠ 0 ∨ O.Relational) :
    ρ * cos t ∈ r.1 ∧ ρ * sin t ∈ r.2 := by
  obtain ⟨R1, e1, _⟩ := polarContract_le O n ⟨b.1, b.2, posReals, s.thetaM⟩
  obtain ⟨R2, e2, _⟩ := polarContract_le O n ⟨b.1, b.2, posReals, s.thetaP⟩
  obtain ⟨R3, e3, _⟩ := polarContract_le O n ⟨b.1, b.2, s.rhoM, s.theta⟩
  obtain ⟨R4, e4, _⟩ := polarContract_le O n ⟨b.1, b.2, s.rhoP, s.theta⟩
  have hp : ρ ∈ posReals := mem_posReals.mpr hρ.le
  simp only [contractIn, e1, e2, e3, e4, Option.bind_some, Option.map_some, Option.some.injEq] at h
  subst h
  have main : (ρ * cos t ∈ R1.x ⊔ R2.x ⊔ R3.x ⊔ R4.x) ∧ (ρ * sin t ∈ R1.y ⊔ R2.y ⊔ R3.y ⊔ R4.y) := by
    rcases hc with (hc | hc) | ⟨hc | hc, ht⟩
    · obtain ⟨R, e, k1, k2, _⟩ := polarContract_keeps O n (X := ⟨b.1, b.2, posReals, s.thetaM⟩) hρ ⟨hx, hy, hp, hc⟩ hs
      obtain rfl := Option.some.inj (e1.symm.trans e)
      exact ⟨Itv.mem_sup_left (Itv.mem_sup_left (Itv.mem_sup_left k1)), Itv.mem_sup_left (Itv.mem_sup_left (Itv.mem_sup_left k2))⟩
    · obtain ⟨R, e, k1, k2, _⟩ := polarContract_keeps O n (X := ⟨b.1, b.2, posReals, s.thetaP⟩) hρ ⟨hx, hy, hp, hc⟩ hs
      obtain rfl := Option.some.inj (e2.symm.trans e)
      exact ⟨Itv.mem_sup_left (Itv.mem_sup_left (Itv.mem_sup_right k1)), Itv.mem_sup_left (Itv.mem_sup_left (Itv.mem_sup_right k2))⟩
    · obtain ⟨R, e, k1, k2, _⟩ := polarContract_keeps O n (X := ⟨b.1, b.2, s.rhoM, s.theta⟩) hρ ⟨hx, hy, hc, ht⟩ hs
      obtain rfl := Option.some.inj (e3.symm.trans e)
      exact ⟨Itv.mem_sup_left (Itv.mem_sup_right k1), Itv.mem_sup_left (Itv.mem_sup_right k2)⟩
    · obtain ⟨R, e, k1, k2, _⟩ := polarContract_keeps O n (X := ⟨b.1, b.2, s.rhoP, s.theta⟩) hρ ⟨hx, hy, hc, ht⟩ hs
      obtain rfl := Option.some.inj (e4.symm.trans e)
      exact ⟨Itv.mem_sup_right k1, Itv.mem_sup_right k2⟩
  exact mem_whole (Itv.mem_inf.mpr ⟨hx, main.1⟩) (Itv.mem_inf.mpr ⟨hy, main.2⟩)

/-! ### The origin -/

theorem catanInner_zero (TH : Itv ℝ) : (catanInner O (Itv.point 0) (Itv.point 0) TH).1 = ⊥ ∧ (catanInner O (Itv.point 0) (Itv.point 0) TH).2.1 = ⊥ := by
  unfold catanInner
  split
  · exact ⟨rfl, rfl⟩
  · rw [catanQuadrant, if_pos ⟨rfl, rfl⟩]
    exact ⟨rfl, rfl⟩

theorem point_inf_pos : (Itv.point 0 ⊓ posReals : Itv ℝ) = Itv.point 0 :=
  inf_eq_left.mpr (Itv.le_iff.mpr fun t ht => mem_posReals.mpr (by rw [Itv.mem_point.mp ht]))

theorem point_inf_neg : (Itv.point 0 ⊓ negReals : Itv ℝ) = Itv.point 0 :=
  inf_eq_left.mpr (Itv.le_iff.mpr fun t ht => mem_negReals.mpr (by rw [Itv.mem_point.mp ht]))

theorem neg_point : Itv.neg (Itv.point (0 : ℝ)) = Itv.point 0 := by
  refine Itv.ext_mem fun x => ?_
  rw [Itv.mem_neg_iff, Itv.mem_point, Itv.mem_point, neg_eq_zero]

theorem catan2_zero (n : Nat) (TH : Itv ℝ) : ∃ th, catan2 O (n + 2) (Itv.point 0) (Itv.point 0) TH = some (⊥, ⊥, th) := by
  rw [catan2_eq]
  split
  · exact ⟨_, rfl⟩
  split
  · rw [catanQuadrant, if_pos ⟨rfl, rfl⟩]; exact ⟨_, rfl⟩
  · unfold catanFour
    simp only [point_inf_pos, point_inf_neg, neg_point, (catanInner_zero O _).1, (catanInner_zero O _).2]
    exact ⟨_, by simp [Itv.bot_eq, Itv.neg]; rfl⟩

theorem polar_zero (n : Nat) (ρ TH : Itv ℝ) : polarContract O (n + 2) ⟨Itv.point 0, Itv.point 0, ρ, TH⟩ = some ⟨⊥, ⊥, ⊥, ⊥⟩ := by
  have hb : ∀ Y Z : Itv ℝ, (O.S.bwdSqr Y ⊥ ⊓ Z).isEmpty = true := fun Y Z =>
    Itv.isEmpty_iff.mpr (le_bot_iff.mp (inf_le_left.trans (O.S.bwdSqr_le ..)))
  obtain ⟨th, e⟩ := catan2_zero O n TH
  have e1 : polarPass O (n + 2) ⟨Itv.point 0, Itv.point 0, ρ, TH⟩ = some ⟨⊥, ⊥, ⊥, ⊥⟩ := by
    simp only [polarPass, e, Option.bind_eq_bind, Option.bind_some, hb, Bool.true_or, if_true]
  have e2 : catan2 O (n + 2) ⊥ ⊥ ⊥ = some (⊥, ⊥, ⊥) := by rw [catan2_eq, if_pos (.inl rfl)]
  rw [polarContract, e1, Option.bind_some]
  simp only [polarPass, e2, Option.bind_eq_bind, Option.bind_some, hb, Bool.true_or, if_true]

end PolarSep
end Codac
