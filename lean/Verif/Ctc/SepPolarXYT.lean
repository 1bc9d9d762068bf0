import Verif.Ctc.HullOps
import Mathlib.Analysis.SpecialFunctions.Complex.Arg

/-!
# `SepPolarXYT`

Models `/repo/src/unsupported/geometry/codac_SepPolarXYT.cpp`: the poses `(x, y, θ)` from which a known landmark `(mx, my)` is seen at a distance in
`[rho]`, with a bearing in `[theta]`.
-/

set_option linter.unusedSectionVars false

namespace Codac.XYT
open Codac Real

/-- the angle of a point, between `-π` (excluded) and `π` -/
noncomputable def argOf (x y : ℝ) : ℝ := Complex.arg ⟨x, y⟩

/-- what is assumed of the IBEX functions that the separator calls: `bwd_add` on the sum of the squares, `atan2` (undefined at the origin only),
`bwd_atan2`, `bwd_imod`. `imod p X Y` are the new domains for `x ≡ y` modulo `p`. -/
structure Ops where
  S : SqrOps
  cos : Itv ℝ → Itv ℝ
  sin : Itv ℝ → Itv ℝ
  /-- `bwd_add(z, x, y)`: the new `x` and `y` -/
  bwdAdd : Itv ℝ → Itv ℝ → Itv ℝ → Itv ℝ × Itv ℝ
  /-- `atan2(y, x)` -/
  atan2 : Itv ℝ → Itv ℝ → Itv ℝ
  /-- `bwd_atan2(a, y, x)`: the new `y` and `x` -/
  bwdAtan2 : Itv ℝ → Itv ℝ → Itv ℝ → Itv ℝ × Itv ℝ
  /-- `bwd_imod(x, y, p)`: the new `x` and `y` -/
  imod : ℝ → Itv ℝ → Itv ℝ → Itv ℝ × Itv ℝ
  cos_mem : ∀ {X : Itv ℝ} {x : ℝ}, x ∈ X → Real.cos x ∈ cos X
  sin_mem : ∀ {X : Itv ℝ} {x : ℝ}, x ∈ X → Real.sin x ∈ sin X
  bwdAdd_mem : ∀ {Z X Y : Itv ℝ} {x y : ℝ}, x ∈ X → y ∈ Y → x + y ∈ Z → x ∈ (bwdAdd Z X Y).1 ∧ y ∈ (bwdAdd Z X Y).2
  atan2_mem : ∀ {Y X : Itv ℝ} {y x : ℝ}, y ∈ Y → x ∈ X → x ≠ 0 ∨ y ≠ 0 → argOf x y ∈ atan2 Y X
  bwdAtan2_mem : ∀ {A Y X : Itv ℝ} {y x : ℝ}, y ∈ Y → x ∈ X → x ≠ 0 ∨ y ≠ 0 → argOf x y ∈ A → y ∈ (bwdAtan2 A Y X).1 ∧ x ∈ (bwdAtan2 A Y X).2
  imod_mem : ∀ {X Y : Itv ℝ} {p x y : ℝ} (k : ℤ), x ∈ X → y ∈ Y → x = y + k * p → x ∈ (imod p X Y).1 ∧ y ∈ (imod p X Y).2

/-- `bwd_imod` with the period `p`, a double, keeps the angles that differ by turns: `p` is `2π`, or the rounding of IBEX covers the difference -/
def Ops.Covers (O : Ops) (p : ℝ) : Prop :=
  ∀ {X Y : Itv ℝ} {x y : ℝ} (k : ℤ), x ∈ X → y ∈ Y → x = y + k * (2 * π) → x ∈ (O.imod p X Y).1 ∧ y ∈ (O.imod p X Y).2

/-- a box of poses -/
structure Pose where
  x : Itv ℝ
  y : Itv ℝ
  th : Itv ℝ

/-- the attributes of `SepPolarXYT`, codac_SepPolarXYT.h:47-51; the angles have finite bounds -/
structure Sep where
  rho : Itv ℝ
  thLb : ℝ
  thUb : ℝ
  mx : ℝ
  my : ℝ
  /-- `M_PI` -/
  mPi : ℝ
  /-- `Interval::mid()` (IBEX) -/
  mid : ℝ → ℝ → ℝ

/-- a pose box that becomes empty as a whole, codac_SepPolarXYT.cpp:58-60, 67-68, 95-96 -/
noncomputable def whole (b : Pose) : Pose := if b.x.isEmpty || b.y.isEmpty || b.th.isEmpty then ⟨⊥, ⊥, ⊥⟩ else b

namespace Sep
variable (O : Ops) (s : Sep)

/-- `theta` -/
noncomputable def theta : Itv ℝ := Itv.icc s.thLb s.thUb

/-- `rho_m`, codac_SepPolarXYT.cpp:22 -/
noncomputable def rhoM : Itv ℝ := match s.rho.lb? with | some l => Itv.icc 0 l | none => ⊥

/-- `rho_p`, codac_SepPolarXYT.cpp:23; `[+oo,+oo]` is empty (IBEX) -/
noncomputable def rhoP : Itv ℝ := match s.rho.ub? with | some u => Itv.mk (some u) none trivial | none => ⊥

/-- `limit`, codac_SepPolarXYT.cpp:24 -/
noncomputable def limit : ℝ := s.mid s.thLb s.thUb - s.mPi

/-- `theta_m`, codac_SepPolarXYT.cpp:25 -/
noncomputable def thetaM : Itv ℝ := Itv.icc s.limit s.thLb

/-- `theta_p`, codac_SepPolarXYT.cpp:26 -/
noncomputable def thetaP : Itv ℝ := Itv.icc s.thUb (s.limit + 2 * s.mPi)

/-- `cmpl`, codac_SepPolarXYT.cpp:27 -/
noncomputable def cmpl : Itv ℝ := Itv.icc 0 (2 * s.mPi)

/-- `SepPolarXYT::contract`, codac_SepPolarXYT.cpp:30-61: the new pose (the contracted `rho` and `phi`, copies that the callers do not read, are not
returned) -/
noncomputable def contract (b : Pose) (rho phi : Itv ℝ) : Pose :=
  let A := O.S.A
  let dx0 := A.sub (Itv.point s.mx) b.x
  let dy0 := A.sub (Itv.point s.my) b.y
  let dx1 := dx0 ⊓ A.mul rho (O.cos (A.add b.th phi))
  let dy1 := dy0 ⊓ A.mul rho (O.sin (A.add b.th phi))
  let a3 := A.add (O.S.sqr dx1) (O.S.sqr dy1)
  let a4 := O.S.sqr rho ⊓ a3
  let a3' := a3 ⊓ a4
  let q := O.bwdAdd a3' (O.S.sqr dy1) (O.S.sqr dx1)
  let dx2 := O.S.bwdSqr q.2 dx1
  let dy2 := O.S.bwdSqr q.1 dy1
  let a1 := O.atan2 dy2 dx2
  let a2 := (O.imod (2 * s.mPi) phi (A.sub a1 b.th)).2
  let a1' := a1 ⊓ A.add a2 b.th
  let th' := b.th ⊓ A.sub a1' a2
  let d := O.bwdAtan2 a1' dy2 dx2
  whole ⟨b.x ⊓ A.sub (Itv.point s.mx) d.2, b.y ⊓ A.sub (Itv.point s.my) d.1, th'⟩

/-- `SepPolarXYT::contractOut`, codac_SepPolarXYT.cpp:63-69 -/
noncomputable def contractOut (b : Pose) : Pose := whole (s.contract O b s.rho s.theta)

/-- `SepPolarXYT::contractIn`, codac_SepPolarXYT.cpp:72-97; the third component is assigned, not intersected -/
noncomputable def contractIn (b : Pose) : Pose :=
  let r1 := s.contract O b posReals s.thetaM
  let r2 := s.contract O b posReals s.thetaP
  let r3 := s.contract O b s.rhoM s.cmpl
  let r4 := s.contract O b s.rhoP s.cmpl
  whole ⟨b.x ⊓ (r1.x ⊔ r2.x ⊔ r3.x ⊔ r4.x), b.y ⊓ (r1.y ⊔ r2.y ⊔ r3.y ⊔ r4.y), r1.th ⊔ r2.th ⊔ r3.th ⊔ r4.th⟩

/-- `SepPolarXYT::separate`, codac_SepPolarXYT.cpp:99-108: the new `x_in` and `x_out` (the messages are left out; the two sizes are 3) -/
noncomputable def separate (xin xout : Pose) : Pose × Pose :=
  let o := whole ⟨xout.x ⊓ xin.x, xout.y ⊓ xin.y, xout.th ⊓ xin.th⟩
  let i := whole ⟨xin.x ⊓ o.x, xin.y ⊓ o.y, xin.th ⊓ o.th⟩
  (s.contractIn O i, s.contractOut O o)

end Sep

/-! ### Proofs -/

/-- the pose is in the box -/
def Pose.Mem (b : Pose) (x y th : ℝ) : Prop := x ∈ b.x ∧ y ∈ b.y ∧ th ∈ b.th

/-- inclusion of boxes -/
def Pose.Le (b c : Pose) : Prop := b.x ≤ c.x ∧ b.y ≤ c.y ∧ b.th ≤ c.th

theorem Pose.Le.trans {a b c : Pose} (h : a.Le b) (h' : b.Le c) : a.Le c := ⟨h.1.trans h'.1, h.2.1.trans h'.2.1, h.2.2.trans h'.2.2⟩

theorem mem_whole {b : Pose} {x y th : ℝ} (h : b.Mem x y th) : (whole b).Mem x y th := by
  unfold whole
  rw [if_neg]
  · exact h
  · simp only [Bool.or_eq_true, Itv.isEmpty_iff, not_or]
    exact ⟨⟨Itv.ne_bot_of_mem h.1, Itv.ne_bot_of_mem h.2.1⟩, Itv.ne_bot_of_mem h.2.2⟩

theorem whole_le (b : Pose) : (whole b).Le b := by
  unfold whole
  split
  · exact ⟨bot_le, bot_le, bot_le⟩
  · exact ⟨le_rfl, le_rfl, le_rfl⟩

/-- the angle of a point given by polar coordinates, up to turns -/
theorem argOf_polar {ρ t : ℝ} (h : 0 < ρ) : ∃ k : ℤ, t = argOf (ρ * cos t) (ρ * sin t) + k * (2 * π) := by
  have hz : (⟨ρ * cos t, ρ * sin t⟩ : ℂ) ≠ 0 := by
    intro c
    have h1 : ρ * cos t = 0 := congrArg Complex.re c
    have h2 : ρ * sin t = 0 := congrArg Complex.im c
    have := sin_sq_add_cos_sq t
    rw [(mul_eq_zero.mp h1).resolve_left h.ne', (mul_eq_zero.mp h2).resolve_left h.ne'] at this
    norm_num at this
  have hn : ‖(⟨ρ * cos t, ρ * sin t⟩ : ℂ)‖ = ρ := by
    rw [Complex.norm_eq_sqrt_sq_add_sq]
    have : (ρ * cos t) ^ 2 + (ρ * sin t) ^ 2 = ρ ^ 2 := by
      have := sin_sq_add_cos_sq t
      linear_combination ρ ^ 2 * this
    simp only [this]
    exact Real.sqrt_sq h.le
  have e1 : cos (argOf (ρ * cos t) (ρ * sin t)) = cos t := by
    unfold argOf; rw [Complex.cos_arg hz, hn]; field_simp
  have e2 : sin (argOf (ρ * cos t) (ρ * sin t)) = sin t := by
    unfold argOf; rw [Complex.sin_arg, hn]; field_simp
  have : ((argOf (ρ * cos t) (ρ * sin t) : ℝ) : Real.Angle) = ((t : ℝ) : Real.Angle) := Real.Angle.cos_sin_inj e1 e2
  obtain ⟨k, hk⟩ := Real.Angle.angle_eq_iff_two_pi_dvd_sub.mp this.symm
  exact ⟨k, by linear_combination hk⟩

namespace Sep
variable (O : Ops) (s : Sep)

theorem contract_le (b : Pose) (rho phi : Itv ℝ) : (s.contract O b rho phi).Le b :=
  (whole_le _).trans ⟨inf_le_left, inf_le_left, inf_le_left⟩

theorem contractOut_le (b : Pose) : (s.contractOut O b).Le b := (whole_le _).trans (s.contract_le O b _ _)

theorem contractIn_le (b : Pose) : (s.contractIn O b).Le b := by
  refine (whole_le _).trans ⟨inf_le_left, inf_le_left, ?_⟩
  exact sup_le (sup_le (sup_le (s.contract_le O b _ _).2.2 (s.contract_le O b _ _).2.2) (s.contract_le O b _ _).2.2) (s.contract_le O b _ _).2.2

/-- the contraction keeps the poses that see the landmark at a positive distance of `[rho]`, with a bearing of `[phi]` -/
theorem contract_keeps {b : Pose} {rho phi : Itv ℝ} {x y th ρ φ : ℝ} (h : b.Mem x y th) (h0 : 0 < ρ) (hρ : ρ ∈ rho) (hφ : φ ∈ phi)
    (ex : s.mx - x = ρ * Real.cos (th + φ)) (ey : s.my - y = ρ * Real.sin (th + φ))
    (hp : O.Covers (2 * s.mPi) ∨ argOf (s.mx - x) (s.my - y) = th + φ) : (s.contract O b rho phi).Mem x y th := by
  unfold contract
  extract_lets A dx0 dy0 dx1 dy1 a3 a4 a3' q dx2 dy2 a1 a2 a1' th' d
  have hne : s.mx - x ≠ 0 ∨ s.my - y ≠ 0 := by
    rw [ex, ey]
    by_contra c
    push Not at c
    have := sin_sq_add_cos_sq (th + φ)
    rw [(mul_eq_zero.mp c.1).resolve_left h0.ne', (mul_eq_zero.mp c.2).resolve_left h0.ne'] at this
    norm_num at this
  have hmx : s.mx ∈ Itv.point s.mx := Itv.mem_point.mpr rfl
  have hmy : s.my ∈ Itv.point s.my := Itv.mem_point.mpr rfl
  have hs : th + φ ∈ A.add b.th phi := A.add_mem h.2.2 hφ
  have kx1 : s.mx - x ∈ dx1 := Itv.mem_inf.mpr ⟨A.sub_mem hmx h.1, by rw [ex]; exact A.mul_mem hρ (O.cos_mem hs)⟩
  have ky1 : s.my - y ∈ dy1 := Itv.mem_inf.mpr ⟨A.sub_mem hmy h.2.1, by rw [ey]; exact A.mul_mem hρ (O.sin_mem hs)⟩
  have esq : (s.mx - x) ^ 2 + (s.my - y) ^ 2 = ρ ^ 2 := by
    rw [ex, ey]
    have := sin_sq_add_cos_sq (th + φ)
    linear_combination ρ ^ 2 * this
  have k3 : (s.mx - x) ^ 2 + (s.my - y) ^ 2 ∈ a3 := A.add_mem (O.S.sqr_mem kx1) (O.S.sqr_mem ky1)
  have k4 : (s.mx - x) ^ 2 + (s.my - y) ^ 2 ∈ a4 := Itv.mem_inf.mpr ⟨by rw [esq]; exact O.S.sqr_mem hρ, k3⟩
  have k3' : (s.mx - x) ^ 2 + (s.my - y) ^ 2 ∈ a3' := Itv.mem_inf.mpr ⟨k3, k4⟩
  have kq : (s.my - y) ^ 2 ∈ q.1 ∧ (s.mx - x) ^ 2 ∈ q.2 := O.bwdAdd_mem (O.S.sqr_mem ky1) (O.S.sqr_mem kx1) (by rw [add_comm]; exact k3')
  have kx2 : s.mx - x ∈ dx2 := O.S.bwdSqr_mem kx1 kq.2
  have ky2 : s.my - y ∈ dy2 := O.S.bwdSqr_mem ky1 kq.1
  have ka : argOf (s.mx - x) (s.my - y) ∈ a1 := O.atan2_mem ky2 kx2 hne
  have ka2 : argOf (s.mx - x) (s.my - y) - th ∈ a2 := by
    rcases hp with hp | hp
    · obtain ⟨k, hk⟩ := argOf_polar (t := th + φ) h0
      rw [← ex, ← ey] at hk
      exact (hp k hφ (A.sub_mem ka h.2.2) (by linear_combination hk)).2
    · refine (O.imod_mem 0 hφ (A.sub_mem ka h.2.2) ?_).2
      rw [hp]; push_cast; ring
  have ka1 : argOf (s.mx - x) (s.my - y) ∈ a1' := Itv.mem_inf.mpr ⟨ka, by
    have := A.add_mem ka2 h.2.2
    rwa [sub_add_cancel] at this⟩
  have kth : th ∈ th' := Itv.mem_inf.mpr ⟨h.2.2, by
    have := A.sub_mem ka1 ka2
    rwa [sub_sub_cancel] at this⟩
  have kd : s.my - y ∈ d.1 ∧ s.mx - x ∈ d.2 := O.bwdAtan2_mem ky2 kx2 hne ka1
  refine mem_whole ⟨Itv.mem_inf.mpr ⟨h.1, ?_⟩, Itv.mem_inf.mpr ⟨h.2.1, ?_⟩, kth⟩
  · have := A.sub_mem hmx kd.2
    rwa [sub_sub_cancel] at this
  · have := A.sub_mem hmy kd.1
    rwa [sub_sub_cancel] at this

/-- the boxes that `separate` gives to the two contractions -/
theorem separate_start (xin xout : Pose) : ∃ i o : Pose, s.separate O xin xout = (s.contractIn O i, s.contractOut O o) ∧ i.Le xin ∧ o.Le xout ∧
    ∀ x y th, xin.Mem x y th → xout.Mem x y th → i.Mem x y th ∧ o.Mem x y th := by
  let o := whole ⟨xout.x ⊓ xin.x, xout.y ⊓ xin.y, xout.th ⊓ xin.th⟩
  let i := whole ⟨xin.x ⊓ o.x, xin.y ⊓ o.y, xin.th ⊓ o.th⟩
  refine ⟨i, o, rfl, (whole_le _).trans ⟨inf_le_left, inf_le_left, inf_le_left⟩, (whole_le _).trans ⟨inf_le_left, inf_le_left, inf_le_left⟩, ?_⟩
  intro x y th h1 h2
  have ho : o.Mem x y th := mem_whole ⟨Itv.mem_inf.mpr ⟨h2.1, h1.1⟩, Itv.mem_inf.mpr ⟨h2.2.1, h1.2.1⟩, Itv.mem_inf.mpr ⟨h2.2.2, h1.2.2⟩⟩
  exact ⟨mem_whole ⟨Itv.mem_inf.mpr ⟨h1.1, ho.1⟩, Itv.mem_inf.mpr ⟨h1.2.1, ho.2.1⟩, Itv.mem_inf.mpr ⟨h1.2.2, ho.2.2⟩⟩, ho⟩

/-- a pose kept by one of the four contractions is kept by `contractIn` -/
theorem contractIn_keeps {b : Pose} {x y th : ℝ} (h : b.Mem x y th)
    (hc : (s.contract O b posReals s.thetaM).Mem x y th ∨ (s.contract O b posReals s.thetaP).Mem x y th ∨ (s.contract O b s.rhoM s.cmpl).Mem x y th ∨
      (s.contract O b s.rhoP s.cmpl).Mem x y th) : (s.contractIn O b).Mem x y th := by
  have key : ∀ {X1 X2 X3 X4 : Itv ℝ} {v : ℝ}, v ∈ X1 ∨ v ∈ X2 ∨ v ∈ X3 ∨ v ∈ X4 → v ∈ X1 ⊔ X2 ⊔ X3 ⊔ X4 := by
    rintro X1 X2 X3 X4 v (c | c | c | c)
    · exact Itv.mem_sup_left (Itv.mem_sup_left (Itv.mem_sup_left c))
    · exact Itv.mem_sup_left (Itv.mem_sup_left (Itv.mem_sup_right c))
    · exact Itv.mem_sup_left (Itv.mem_sup_right c)
    · exact Itv.mem_sup_right c
  refine mem_whole ⟨Itv.mem_inf.mpr ⟨h.1, key ?_⟩, Itv.mem_inf.mpr ⟨h.2.1, key ?_⟩, key ?_⟩
  · exact hc.imp (fun c => c.1) (Or.imp (fun c => c.1) (Or.imp (fun c => c.1) fun c => c.1))
  · exact hc.imp (fun c => c.2.1) (Or.imp (fun c => c.2.1) (Or.imp (fun c => c.2.1) fun c => c.2.1))
  · exact hc.imp (fun c => c.2.2) (Or.imp (fun c => c.2.2) (Or.imp (fun c => c.2.2) fun c => c.2.2))

end Sep

/-- the exact operations -/
noncomputable def hullOps : Ops where
  S := hullSqr
  cos X := Itv.hullOf {z | ∃ x ∈ X, z = Real.cos x}
  sin X := Itv.hullOf {z | ∃ x ∈ X, z = Real.sin x}
  bwdAdd Z X Y := (Itv.hullOf {x | x ∈ X ∧ ∃ y ∈ Y, x + y ∈ Z}, Itv.hullOf {y | y ∈ Y ∧ ∃ x ∈ X, x + y ∈ Z})
  atan2 Y X := Itv.hullOf {z | ∃ y x, y ∈ Y ∧ x ∈ X ∧ (x ≠ 0 ∨ y ≠ 0) ∧ z = argOf x y}
  bwdAtan2 A Y X := (Itv.hullOf {y | y ∈ Y ∧ ∃ x ∈ X, (x ≠ 0 ∨ y ≠ 0) ∧ argOf x y ∈ A}, Itv.hullOf {x | x ∈ X ∧ ∃ y ∈ Y, (x ≠ 0 ∨ y ≠ 0) ∧ argOf x y ∈ A})
  imod p X Y := (Itv.hullOf {x | x ∈ X ∧ ∃ y ∈ Y, ∃ k : ℤ, x = y + k * p}, Itv.hullOf {y | y ∈ Y ∧ ∃ x ∈ X, ∃ k : ℤ, x = y + k * p})
  cos_mem h := Itv.mem_hullOf ⟨_, h, rfl⟩
  sin_mem h := Itv.mem_hullOf ⟨_, h, rfl⟩
  bwdAdd_mem hx hy h := ⟨Itv.mem_hullOf ⟨hx, _, hy, h⟩, Itv.mem_hullOf ⟨hy, _, hx, h⟩⟩
  atan2_mem hy hx h := Itv.mem_hullOf ⟨_, _, hy, hx, h, rfl⟩
  bwdAtan2_mem hy hx h ha := ⟨Itv.mem_hullOf ⟨hy, _, hx, h, ha⟩, Itv.mem_hullOf ⟨hx, _, hy, h, ha⟩⟩
  imod_mem k hx hy h := ⟨Itv.mem_hullOf ⟨hx, _, hy, k, h⟩, Itv.mem_hullOf ⟨hy, _, hx, k, h⟩⟩

theorem hullOps_covers : hullOps.Covers (2 * π) := fun k hx hy h => hullOps.imod_mem k hx hy h

end Codac.XYT
