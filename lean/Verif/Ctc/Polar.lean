import Verif.Ctc.Geometry
import Mathlib.Analysis.SpecialFunctions.Trigonometric.Arctan
import Mathlib.Analysis.SpecialFunctions.Complex.Arg

/-!
# `CtcPolar`

Models `/repo/src/core/contractors/static/codac_CtcPolar.cpp`.
-/

set_option linter.unusedSectionVars false

namespace Codac

open Real

/-- what is assumed of IBEX's functions and constants. The interval `HALF_PI` is `[h0, h]`; `big` is the largest double. -/
structure PolarOps where
  S : SqrOps
  div : Itv ℝ → Itv ℝ → Itv ℝ
  /-- `integer(x)`: the hull of the integers of `x` -/
  integer : Itv ℝ → Itv ℝ
  tan : Itv ℝ → Itv ℝ
  atan : Itv ℝ → Itv ℝ
  cos : Itv ℝ → Itv ℝ
  sin : Itv ℝ → Itv ℝ
  pi : Itv ℝ
  h0 : ℝ
  h : ℝ
  big : ℝ
  div_mem : ∀ {X Y : Itv ℝ} {x y : ℝ}, x ∈ X → y ∈ Y → y ≠ 0 → x / y ∈ div X Y
  integer_mem : ∀ {X : Itv ℝ} {k : ℤ}, (k : ℝ) ∈ X → (k : ℝ) ∈ integer X
  tan_mem : ∀ {X : Itv ℝ} {x : ℝ}, x ∈ X → Real.cos x ≠ 0 → Real.tan x ∈ tan X
  atan_mem : ∀ {X : Itv ℝ} {x : ℝ}, x ∈ X → arctan x ∈ atan X
  cos_mem : ∀ {X : Itv ℝ} {x : ℝ}, x ∈ X → Real.cos x ∈ cos X
  sin_mem : ∀ {X : Itv ℝ} {x : ℝ}, x ∈ X → Real.sin x ∈ sin X
  pi_mem : π ∈ pi
  h0_pos : 0 < h0
  h0_le : h0 ≤ π / 2
  le_h : π / 2 ≤ h
  h_le : h ≤ π
  /-- `h` is the smallest machine number above `π/2`: no bound computed by a subtraction is between the two -/
  sub_rep : ∀ (X Y : Itv ℝ) (u : ℝ), (S.A.sub X Y).ub? = some u → u < h → u < π / 2

namespace PolarOps
variable (O : PolarOps)

/-- `Interval::HALF_PI` -/
noncomputable def halfPi : Itv ℝ := Itv.mk (some O.h0) (some O.h) (O.h0_le.trans O.le_h)

/-- `2*Interval::PI` -/
noncomputable def twoPi : Itv ℝ := O.S.A.mul (Itv.point 2) O.pi

/-- `i_0_pi2`, codac_CtcPolar.cpp:47 -/
noncomputable def i0pi2 : Itv ℝ := Itv.point 0 ⊔ O.halfPi

/-- `i_pi_2pi`, codac_CtcPolar.cpp:48 -/
noncomputable def iPi2Pi : Itv ℝ := O.halfPi ⊔ O.pi

end PolarOps

/-- `Interval::POS_REALS` -/
noncomputable def posReals : Itv ℝ := Itv.mk (some 0) none trivial

/-- `Interval::NEG_REALS` -/
noncomputable def negReals : Itv ℝ := Itv.mk none (some 0) trivial

/-- `bwd_imod2(x, y, p)`, codac_CtcPolar.cpp:20-27: the new `x` and `y` -/
noncomputable def bwdImod2 (O : PolarOps) (x y p : Itv ℝ) : Itv ℝ × Itv ℝ :=
  let z2 := O.integer (O.div (O.S.A.sub x y) p)
  let x' := x ⊓ O.S.A.add y (O.S.A.mul z2 p)
  (x', y ⊓ O.S.A.sub x' (O.S.A.mul z2 p))

/-- `Cmod(x, y)`, codac_CtcPolar.cpp:29-35 -/
noncomputable def cMod (O : PolarOps) (x y : Itv ℝ) : Itv ℝ := (bwdImod2 O x y O.twoPi).2

/-- `Cmod_bwd(x, y)`, codac_CtcPolar.cpp:37-43 -/
noncomputable def cModBwd (O : PolarOps) (x y : Itv ℝ) : Itv ℝ := (bwdImod2 O x y O.twoPi).1

/-- `tanTh`, codac_CtcPolar.cpp:60-64: `tan` of the two bounds of `th_tmp`, `[DBL_MAX, +oo]` instead of the second one at the upper
bound of `HALF_PI`. The domain `th_tmp` is non-empty with finite bounds when its bounds are used (it is included in `i_0_pi2`, and
`tan` of an empty interval is empty). -/
noncomputable def tanHull (O : PolarOps) (th : Itv ℝ) : Itv ℝ :=
  match th.lb?, th.ub? with
  | some l, some u => O.tan (Itv.point l) ⊔ (if u = O.h then Itv.mk (some O.big) none trivial else O.tan (Itv.point u))
  | _, _ => ⊥

/-- the first quadrant in `Catan2`, codac_CtcPolar.cpp:53-74 -/
noncomputable def catanQuadrant (O : PolarOps) (x y th : Itv ℝ) : Itv ℝ × Itv ℝ × Itv ℝ :=
  open Classical in
  if x = Itv.point 0 ∧ y = Itv.point 0 then (⊥, ⊥, ⊥)
  else
    let thTmp := cMod O th O.i0pi2
    let tanTh := tanHull O thTmp
    let x' := if y ≠ Itv.point 0 then x ⊓ O.div y tanTh else x
    let y' := if x ≠ Itv.point 0 then y ⊓ O.S.A.mul x tanTh else y
    let thr := thTmp ⊓ (if x ≠ Itv.point 0 then O.atan (O.div y x) else O.halfPi)
    if x'.isEmpty || y'.isEmpty || thr.isEmpty then (⊥, ⊥, ⊥) else (x', y', thr)

/-- `Catan2(x, y, th)`, codac_CtcPolar.cpp:45-110. The function calls itself: `fuel` bounds the depth of the recursion, `none` when
it is exhausted. -/
noncomputable def catan2 (O : PolarOps) : Nat → Itv ℝ → Itv ℝ → Itv ℝ → Option (Itv ℝ × Itv ℝ × Itv ℝ)
  | 0, _, _, _ => none
  | fuel + 1, x, y, th =>
    open Classical in
    if x = ⊥ ∨ y = ⊥ ∨ th = ⊥ then some (⊥, ⊥, ⊥)
    else if x ≤ posReals ∧ y ≤ posReals ∧ th ≤ O.i0pi2 then some (catanQuadrant O x y th)
    else do
      let (x1, y1, th1) ← catan2 O fuel (x ⊓ posReals) (y ⊓ posReals) (cMod O th O.i0pi2)
      let th11 := cModBwd O th th1
      let (x2, y2, th2) ← catan2 O fuel (x ⊓ posReals) (Itv.neg (y ⊓ negReals)) (Itv.neg (cMod O th (Itv.neg O.i0pi2)))
      let th22 := cModBwd O th (Itv.neg th2)
      let (x3, y3, th3) ← catan2 O fuel (Itv.neg (x ⊓ negReals)) (Itv.neg (y ⊓ negReals))
        (O.S.A.add O.pi (cMod O th (Itv.neg O.iPi2Pi)) ⊓ O.i0pi2)
      let th33 := cModBwd O th (O.S.A.sub th3 O.pi)
      let (x4, y4, th4) ← catan2 O fuel (Itv.neg (x ⊓ negReals)) (y ⊓ posReals)
        (O.S.A.sub O.pi (cMod O th O.iPi2Pi) ⊓ O.i0pi2)
      let th44 := cModBwd O th (O.S.A.sub O.pi th4)
      some (x1 ⊔ x2 ⊔ Itv.neg x3 ⊔ Itv.neg x4, y1 ⊔ Itv.neg y2 ⊔ Itv.neg y3 ⊔ y4, th11 ⊔ th22 ⊔ th33 ⊔ th44)

/-- the four domains of `CtcPolar` -/
structure PolarDom where
  x : Itv ℝ
  y : Itv ℝ
  rho : Itv ℝ
  theta : Itv ℝ

/-- `_contract(x, y, rho, theta)`, codac_CtcPolar.cpp:122-154. `bwd_add(a3, a2, a1)` is IBEX's: `a2 &= a3-a1`, `a1 &= a3-a2`. -/
noncomputable def polarPass (O : PolarOps) (fuel : Nat) (X : PolarDom) : Option PolarDom := do
  let (x, y, theta) ← catan2 O fuel X.x X.y X.theta
  let a1 := O.S.sqr x
  let a2 := O.S.sqr y
  let a3 := O.S.A.add a1 a2
  let a4 := O.S.sqr X.rho ⊓ a3
  let a3 := a3 ⊓ a4
  let rho := O.S.bwdSqr a4 X.rho
  let a2 := a2 ⊓ O.S.A.sub a3 a1
  let a1 := a1 ⊓ O.S.A.sub a3 a2
  let x := O.S.bwdSqr a1 x
  let y := O.S.bwdSqr a2 y
  let x := x ⊓ O.S.A.mul rho (O.cos theta)
  let y := y ⊓ O.S.A.mul rho (O.sin theta)
  if x.isEmpty || y.isEmpty || rho.isEmpty || theta.isEmpty then some ⟨⊥, ⊥, ⊥, ⊥⟩ else some ⟨x, y, rho, theta⟩

/-- `CtcPolar::contract`, codac_CtcPolar.cpp:156-166 -/
noncomputable def polarContract (O : PolarOps) (fuel : Nat) (X : PolarDom) : Option PolarDom :=
  (polarPass O fuel X).bind (polarPass O fuel)

/-- division of intervals as a relation: `0/0` may be anything -/
def PolarOps.Relational (O : PolarOps) : Prop := ∀ X Y : Itv ℝ, (0 : ℝ) ∈ X → (0 : ℝ) ∈ Y → ∀ z : ℝ, z ∈ O.div X Y

/-! ### Intervals -/

theorem mem_posReals {x : ℝ} : x ∈ posReals ↔ 0 ≤ x := ⟨fun h => h.1, fun h => ⟨h, trivial⟩⟩

theorem mem_negReals {x : ℝ} : x ∈ negReals ↔ x ≤ 0 := ⟨fun h => h.2, fun h => ⟨trivial, h⟩⟩

/-- a point approached by elements of an interval is in the interval -/
theorem Itv.mem_of_approx {X : Itv ℝ} {a : ℝ} (h : ∀ ε > 0, ∃ b ∈ X, |b - a| < ε) : a ∈ X := by
  cases X with
  | empty => obtain ⟨b, hb, -⟩ := h 1 one_pos; exact hb.elim
  | mk l u p =>
    refine ⟨?_, ?_⟩
    · cases l with
      | none => trivial
      | some l =>
        refine le_of_forall_pos_le_add fun ε hε => ?_
        obtain ⟨b, hb, hd⟩ := h ε hε
        have := (abs_lt.mp hd).2
        have h1 : l ≤ b := hb.1
        linarith
    · cases u with
      | none => trivial
      | some u =>
        refine le_of_forall_pos_le_add fun ε hε => ?_
        obtain ⟨b, hb, hd⟩ := h ε hε
        have := (abs_lt.mp hd).1
        have h1 : b ≤ u := hb.2
        linarith

theorem Itv.mem_neg_iff {X : Itv ℝ} {x : ℝ} : x ∈ Itv.neg X ↔ -x ∈ X := by
  refine ⟨fun h => ?_, fun h => by have := Itv.mem_neg h; rwa [neg_neg] at this⟩
  cases X with
  | empty => exact h.elim
  | mk l u p =>
    simp only [Itv.neg, Itv.mem_ofBounds] at h
    refine ⟨?_, ?_⟩
    · cases l with
      | none => trivial
      | some l => have : x ≤ -l := h.2; show l ≤ -x; linarith
    · cases u with
      | none => trivial
      | some u => have : -u ≤ x := h.1; show -x ≤ u; linarith

theorem neg_inf_le_pos (X : Itv ℝ) : Itv.neg (X ⊓ negReals) ≤ posReals := by
  rw [Itv.le_iff]
  intro x hx
  have := mem_negReals.mp (Itv.mem_inf.mp (Itv.mem_neg_iff.mp hx)).2
  exact mem_posReals.mpr (by linarith)

/-- an interval of non-negative numbers which contains `0` and is not `[0]` has a positive element -/
theorem exists_pos_of_ne {X : Itv ℝ} (h : X ≤ posReals) (h0 : (0 : ℝ) ∈ X) (hne : X ≠ Itv.point 0) : ∃ x ∈ X, 0 < x := by
  by_contra hc
  refine hne (Itv.ext_mem fun x => ⟨fun hx => Itv.mem_point.mpr ?_, fun hx => by rw [Itv.mem_point.mp hx]; exact h0⟩)
  exact le_antisymm (not_lt.mp fun hp => hc ⟨x, hx, hp⟩) (mem_posReals.mp (Itv.mem_of_le h hx))

/-! ### Modulo -/

theorem mem_twoPi (O : PolarOps) : 2 * π ∈ O.twoPi := O.S.A.mul_mem (Itv.mem_point.mpr rfl) O.pi_mem

theorem bwdImod2_mem (O : PolarOps) {X Y : Itv ℝ} {x y : ℝ} (hx : x ∈ X) (hy : y ∈ Y) {k : ℤ} (h : x = y + k * (2 * π)) :
    x ∈ (bwdImod2 O X Y O.twoPi).1 ∧ y ∈ (bwdImod2 O X Y O.twoPi).2 := by
  have hp := mem_twoPi O
  have hne : 2 * π ≠ 0 := by positivity
  have hz : (k : ℝ) ∈ O.integer (O.div (O.S.A.sub X Y) O.twoPi) := by
    refine O.integer_mem ?_
    have := O.div_mem (O.S.A.sub_mem hx hy) hp hne
    rwa [h, add_sub_cancel_left, mul_div_assoc, div_self hne, mul_one] at this
  have hm := O.S.A.mul_mem hz hp
  have h1 : x ∈ (bwdImod2 O X Y O.twoPi).1 := Itv.mem_inf.mpr ⟨hx, by have := O.S.A.add_mem hy hm; rwa [← h] at this⟩
  refine ⟨h1, Itv.mem_inf.mpr ⟨hy, ?_⟩⟩
  have := O.S.A.sub_mem h1 hm
  rwa [h, add_sub_cancel_right] at this

theorem cMod_mem (O : PolarOps) {X Y : Itv ℝ} {x y : ℝ} (hx : x ∈ X) (hy : y ∈ Y) {k : ℤ} (h : x = y + k * (2 * π)) :
    y ∈ cMod O X Y := (bwdImod2_mem O hx hy h).2

theorem cModBwd_mem (O : PolarOps) {X Y : Itv ℝ} {x y : ℝ} (hx : x ∈ X) (hy : y ∈ Y) {k : ℤ} (h : x = y + k * (2 * π)) :
    x ∈ cModBwd O X Y := (bwdImod2_mem O hx hy h).1

theorem cMod_le (O : PolarOps) (X Y : Itv ℝ) : cMod O X Y ≤ Y := inf_le_left
theorem cModBwd_le (O : PolarOps) (X Y : Itv ℝ) : cModBwd O X Y ≤ X := inf_le_left

/-! ### The quadrant -/

theorem cos_pos_of_quadrant {t : ℝ} (h0 : 0 ≤ t) (h1 : t < π / 2) : 0 < Real.cos t :=
  Real.cos_pos_of_mem_Ioo ⟨by linarith [pi_pos], h1⟩

theorem mem_i0pi2 (O : PolarOps) {t : ℝ} (h0 : 0 ≤ t) (h1 : t ≤ π / 2) : t ∈ O.i0pi2 :=
  Itv.mem_sup_of_between (Itv.mem_point.mpr rfl) (b := O.h) ⟨O.h0_le.trans O.le_h, le_refl _⟩ h0 (h1.trans O.le_h)

theorem mem_iPi2Pi (O : PolarOps) {t : ℝ} (h0 : π / 2 ≤ t) (h1 : t ≤ π) : t ∈ O.iPi2Pi :=
  Itv.mem_sup_of_between (a := π / 2) ⟨O.h0_le, O.le_h⟩ O.pi_mem h0 h1

theorem h_pos (O : PolarOps) : 0 < O.h := lt_of_lt_of_le (by positivity) O.le_h

theorem i0pi2_eq (O : PolarOps) : O.i0pi2 = Itv.mk (some 0) (some O.h) (h_pos O).le := by
  refine Itv.ext_mem fun x => ⟨fun h => ?_, fun h => ?_⟩
  · have h : loLe (some (min 0 O.h0)) x ∧ leHi x (some (max 0 O.h)) := h
    rw [min_eq_left O.h0_pos.le, max_eq_right (h_pos O).le] at h
    exact h
  · exact Itv.mem_sup_of_between (Itv.mem_point.mpr rfl) (b := O.h) ⟨O.h0_le.trans O.le_h, le_refl _⟩ h.1 h.2

theorem Itv.ub?_inf {X Y : Itv ℝ} {t : ℝ} (ht : t ∈ X ⊓ Y) : (X ⊓ Y).ub? = Itv.minHi X.ub? Y.ub? := by
  cases X with
  | empty => exact (Itv.mem_inf.mp ht).1.elim
  | mk l u p =>
    cases Y with
    | empty => exact (Itv.mem_inf.mp ht).2.elim
    | mk l' u' p' =>
      have h : t ∈ Itv.ofBounds (Itv.maxLo l l') (Itv.minHi u u') := ht
      show (Itv.ofBounds (Itv.maxLo l l') (Itv.minHi u u')).ub? = Itv.minHi u u'
      unfold Itv.ofBounds at h ⊢
      split at h
      · next hb => rw [dif_pos hb]; rfl
      · exact h.elim

theorem Itv.ub?_mem {X : Itv ℝ} {t u : ℝ} (ht : t ∈ X) (hu : X.ub? = some u) : u ∈ X ∧ t ≤ u := by
  cases X with
  | empty => exact ht.elim
  | mk l w p =>
    have e : w = some u := hu
    subst e
    have h1 : t ≤ u := ht.2
    refine ⟨⟨?_, le_refl _⟩, h1⟩
    cases l with
    | none => trivial
    | some l => exact le_trans (show l ≤ t from ht.1) h1

theorem Itv.lb?_mem {X : Itv ℝ} {t l : ℝ} (ht : t ∈ X) (hl : X.lb? = some l) : l ∈ X ∧ l ≤ t := by
  cases X with
  | empty => exact ht.elim
  | mk w u p =>
    have e : w = some l := hl
    subst e
    have h1 : l ≤ t := ht.1
    refine ⟨⟨le_refl _, ?_⟩, h1⟩
    cases u with
    | none => trivial
    | some u => exact le_trans h1 (show t ≤ u from ht.2)

/-- the upper bound of `th_tmp`: the one of `i_0_pi2` or a computed one -/
theorem ub_cMod (O : PolarOps) (X : Itv ℝ) {t : ℝ} (ht : t ∈ cMod O X O.i0pi2) :
    ∃ u, (cMod O X O.i0pi2).ub? = some u ∧ t ≤ u ∧ (u = O.h ∨ u < π / 2) := by
  have e := Itv.ub?_inf (X := O.i0pi2) ht
  have e0 : O.i0pi2.ub? = some O.h := by rw [i0pi2_eq]; rfl
  rw [e0] at e
  cases hs : (O.S.A.sub (X ⊓ O.S.A.add O.i0pi2 (O.S.A.mul (O.integer (O.div (O.S.A.sub X O.i0pi2) O.twoPi)) O.twoPi))
      (O.S.A.mul (O.integer (O.div (O.S.A.sub X O.i0pi2) O.twoPi)) O.twoPi)).ub? with
  | none =>
    rw [hs] at e
    exact ⟨O.h, e, (Itv.ub?_mem ht e).2, .inl rfl⟩
  | some w =>
    rw [hs] at e
    refine ⟨min O.h w, e, (Itv.ub?_mem ht e).2, ?_⟩
    rcases le_or_gt O.h w with h | h
    · exact .inl (min_eq_left h)
    · exact .inr (by rw [min_eq_right h.le]; exact O.sub_rep _ _ _ hs h)

/-- the lower bound of `th_tmp` is not negative -/
theorem lb_cMod (O : PolarOps) (X : Itv ℝ) {t : ℝ} (ht : t ∈ cMod O X O.i0pi2) :
    ∃ l, (cMod O X O.i0pi2).lb? = some l ∧ 0 ≤ l ∧ l ≤ t := by
  have hle := cMod_le O X O.i0pi2
  rw [i0pi2_eq] at hle ht ⊢
  generalize cMod O X (Itv.mk (some 0) (some O.h) (h_pos O).le) = Z at *
  cases Z with
  | empty => exact ht.elim
  | mk l u p =>
    have h := Itv.le_mk_mk.mp hle
    cases l with
    | none => exact h.1.elim
    | some l => exact ⟨l, rfl, h.1, ht.1⟩

theorem tanHull_lt (O : PolarOps) (X : Itv ℝ) {t : ℝ} (ht : t ∈ cMod O X O.i0pi2) (h1 : t < π / 2) :
    Real.tan t ∈ tanHull O (cMod O X O.i0pi2) := by
  obtain ⟨u, hu, htu, hc⟩ := ub_cMod O X ht
  obtain ⟨l, hl, h0, hlt⟩ := lb_cMod O X ht
  have mono : ∀ a b : ℝ, 0 ≤ a → a ≤ b → b < π / 2 → Real.tan a ≤ Real.tan b := by
    intro a b ha hab hb
    rcases eq_or_lt_of_le hab with rfl | hab
    · exact le_rfl
    · exact (Real.tan_lt_tan_of_lt_of_lt_pi_div_two (by linarith [pi_pos]) hb hab).le
  unfold tanHull
  simp only [hl, hu]
  have hl' := O.tan_mem (X := Itv.point l) (Itv.mem_point.mpr rfl) (cos_pos_of_quadrant h0 (by linarith)).ne'
  have m1 := mono l t h0 hlt h1
  by_cases hh : u = O.h
  · rw [if_pos hh]
    exact Itv.mem_sup_of_between hl' (b := max O.big (Real.tan t)) ⟨le_max_left _ _, trivial⟩ m1 (le_max_right _ _)
  · rw [if_neg hh]
    have hu' : u < π / 2 := hc.resolve_left hh
    exact Itv.mem_sup_of_between hl' (O.tan_mem (X := Itv.point u) (Itv.mem_point.mpr rfl) (cos_pos_of_quadrant (by linarith) hu').ne') m1
      (mono t u (by linarith) htu hu')

theorem tanHull_eq (O : PolarOps) (X : Itv ℝ) (ht : π / 2 ∈ cMod O X O.i0pi2) {w : ℝ} (hw : O.big ≤ w) :
    w ∈ tanHull O (cMod O X O.i0pi2) := by
  obtain ⟨u, hu, htu, hc⟩ := ub_cMod O X ht
  obtain ⟨l, hl, h0, hlt⟩ := lb_cMod O X ht
  have : u = O.h := hc.resolve_right (by linarith)
  unfold tanHull
  simp only [hl, hu]
  rw [if_pos this]
  exact Itv.mem_sup_right ⟨hw, trivial⟩

theorem quadrant_keeps (O : PolarOps) {X Y TH : Itv ℝ} (hX : X ≤ posReals) (hY : Y ≤ posReals) {r t : ℝ} (hr : 0 < r)
    (hx : r * Real.cos t ∈ X) (hy : r * Real.sin t ∈ Y) (ht : t ∈ TH) (h0 : 0 ≤ t) (h1 : t ≤ π / 2) (hs : Real.sin t ≠ 0 ∨ O.Relational) :
    r * Real.cos t ∈ (catanQuadrant O X Y TH).1 ∧ r * Real.sin t ∈ (catanQuadrant O X Y TH).2.1 ∧ t ∈ (catanQuadrant O X Y TH).2.2 := by
  have hth : t ∈ cMod O TH O.i0pi2 := cMod_mem O ht (mem_i0pi2 O h0 h1) (k := 0) (by simp)
  have hcase : t < π / 2 ∨ t = π / 2 := lt_or_eq_of_le h1
  -- the new `x`
  have kx : r * Real.cos t ∈ O.div Y (tanHull O (cMod O TH O.i0pi2)) ∨ Y = Itv.point 0 := by
    by_cases hY0 : Y = Itv.point 0
    · exact .inr hY0
    left
    rcases hcase with h | h
    · have hc := cos_pos_of_quadrant h0 h
      have hT := tanHull_lt O TH hth h
      by_cases hst : Real.sin t = 0
      · have hrel := hs.resolve_left (not_not.mpr hst)
        refine hrel _ _ (by rwa [hst, mul_zero] at hy) ?_ _
        rwa [Real.tan_eq_sin_div_cos, hst, zero_div] at hT
      · have := O.div_mem hy hT (by rw [Real.tan_eq_sin_div_cos]; exact div_ne_zero hst hc.ne')
        rwa [Real.tan_eq_sin_div_cos, show r * Real.sin t / (Real.sin t / Real.cos t) = r * Real.cos t by field_simp] at this
    · subst h
      rw [Real.cos_pi_div_two, mul_zero]
      rw [Real.sin_pi_div_two, mul_one] at hy
      refine Itv.mem_of_approx fun ε hε => ?_
      have hw : 0 < max O.big (2 * r / ε) := lt_of_lt_of_le (by positivity) (le_max_right _ _)
      refine ⟨_, O.div_mem hy (tanHull_eq O TH hth (le_max_left O.big (2 * r / ε))) hw.ne', ?_⟩
      rw [sub_zero, abs_of_pos (by positivity), div_lt_iff₀ hw]
      calc r < ε * (2 * r / ε) := by field_simp; linarith
        _ ≤ _ := mul_le_mul_of_nonneg_left (le_max_right _ _) hε.le
  have ky : r * Real.sin t ∈ O.S.A.mul X (tanHull O (cMod O TH O.i0pi2)) ∨ X = Itv.point 0 := by
    by_cases hX0 : X = Itv.point 0
    · exact .inr hX0
    left
    rcases hcase with h | h
    · have hc := cos_pos_of_quadrant h0 h
      have := O.S.A.mul_mem hx (tanHull_lt O TH hth h)
      rwa [Real.tan_eq_sin_div_cos, show r * Real.cos t * (Real.sin t / Real.cos t) = r * Real.sin t by field_simp] at this
    · subst h
      rw [Real.cos_pi_div_two, mul_zero] at hx
      rw [Real.sin_pi_div_two, mul_one]
      obtain ⟨x', hx', hp⟩ := exists_pos_of_ne hX hx hX0
      -- a small element of `X` times a large element of the tangents
      have hb : 0 < max O.big (r / x') := lt_of_lt_of_le (by positivity) (le_max_right _ _)
      have hm : r / max O.big (r / x') ∈ X := by
        refine Itv.mem_of_between hx hx' (by positivity) ?_
        rw [div_le_iff₀ hb]
        calc r = x' * (r / x') := by field_simp
          _ ≤ _ := mul_le_mul_of_nonneg_left (le_max_right _ _) hp.le
      have := O.S.A.mul_mem hm (tanHull_eq O TH hth (le_max_left O.big (r / x')))
      rwa [div_mul_cancel₀ _ hb.ne'] at this
  have kt : t ∈ (if X ≠ Itv.point 0 then O.atan (O.div Y X) else O.halfPi) := by
    by_cases hX0 : X = Itv.point 0
    · rw [if_neg (not_not.mpr hX0)]
      have hc0 : Real.cos t = 0 := by
        rw [hX0, Itv.mem_point] at hx
        exact (mul_eq_zero.mp hx).resolve_left hr.ne'
      have : t = π / 2 := hcase.resolve_left fun h => (cos_pos_of_quadrant h0 h).ne' hc0
      rw [this]
      exact ⟨O.h0_le, O.le_h⟩
    · rw [if_pos hX0]
      rcases hcase with h | h
      · have hc := cos_pos_of_quadrant h0 h
        have := O.atan_mem (O.div_mem hy hx (by positivity))
        rwa [mul_div_mul_left _ _ hr.ne', ← Real.tan_eq_sin_div_cos, Real.arctan_tan (by linarith [pi_pos]) h] at this
      · subst h
        rw [Real.cos_pi_div_two, mul_zero] at hx
        rw [Real.sin_pi_div_two, mul_one] at hy
        obtain ⟨x', hx', hp⟩ := exists_pos_of_ne hX hx hX0
        refine Itv.mem_of_approx fun ε hε => ?_
        -- `arctan w` is close to `π/2`
        have hlim := (Real.tendsto_arctan_atTop.mono_right nhdsWithin_le_nhds).eventually (Metric.ball_mem_nhds (π / 2) hε)
        obtain ⟨w, hw, hwb⟩ := (hlim.and (Filter.eventually_ge_atTop (max 1 (r / x')))).exists
        have hw0 : 0 < w := lt_of_lt_of_le one_pos ((le_max_left _ _).trans hwb)
        have hm : r / w ∈ X := by
          refine Itv.mem_of_between hx hx' (by positivity) ?_
          rw [div_le_iff₀ hw0]
          calc r = x' * (r / x') := by field_simp
            _ ≤ _ := mul_le_mul_of_nonneg_left ((le_max_right _ _).trans hwb) hp.le
        refine ⟨_, O.atan_mem (O.div_mem hy hm (by positivity)), ?_⟩
        rw [div_div_cancel₀ hr.ne']
        exact hw
  have mx : r * Real.cos t ∈ (if Y ≠ Itv.point 0 then X ⊓ O.div Y (tanHull O (cMod O TH O.i0pi2)) else X) := by
    by_cases h : Y = Itv.point 0
    · rwa [if_neg (not_not.mpr h)]
    · rw [if_pos h]; exact Itv.mem_inf.mpr ⟨hx, kx.resolve_right h⟩
  have my : r * Real.sin t ∈ (if X ≠ Itv.point 0 then Y ⊓ O.S.A.mul X (tanHull O (cMod O TH O.i0pi2)) else Y) := by
    by_cases h : X = Itv.point 0
    · rwa [if_neg (not_not.mpr h)]
    · rw [if_pos h]; exact Itv.mem_inf.mpr ⟨hy, ky.resolve_right h⟩
  have mt := Itv.mem_inf.mpr ⟨hth, kt⟩
  have hz : ¬ (X = Itv.point 0 ∧ Y = Itv.point 0) := by
    rintro ⟨rfl, rfl⟩
    have e1 := Itv.mem_point.mp hx
    have e2 := Itv.mem_point.mp hy
    have := Real.sin_sq_add_cos_sq t
    rw [(mul_eq_zero.mp e1).resolve_left hr.ne', (mul_eq_zero.mp e2).resolve_left hr.ne'] at this
    norm_num at this
  unfold catanQuadrant
  rw [if_neg hz]
  simp only [Itv.isEmpty_false_iff.mpr (Itv.ne_bot_of_mem mx), Itv.isEmpty_false_iff.mpr (Itv.ne_bot_of_mem my),
    Itv.isEmpty_false_iff.mpr (Itv.ne_bot_of_mem mt), Bool.or_self, Bool.false_eq_true, if_false]
  exact ⟨mx, my, mt⟩

theorem quadrant_le (O : PolarOps) (X Y TH : Itv ℝ) : (catanQuadrant O X Y TH).1 ≤ X ∧ (catanQuadrant O X Y TH).2.1 ≤ Y ∧
    (catanQuadrant O X Y TH).2.2 ≤ cMod O TH O.i0pi2 := by
  have e1 : (if Y ≠ Itv.point 0 then X ⊓ O.div Y (tanHull O (cMod O TH O.i0pi2)) else X) ≤ X := by
    split
    · exact inf_le_left
    · exact le_rfl
  have e2 : (if X ≠ Itv.point 0 then Y ⊓ O.S.A.mul X (tanHull O (cMod O TH O.i0pi2)) else Y) ≤ Y := by
    split
    · exact inf_le_left
    · exact le_rfl
  unfold catanQuadrant
  by_cases h : X = Itv.point 0 ∧ Y = Itv.point 0
  · rw [if_pos h]; exact ⟨bot_le, bot_le, bot_le⟩
  · rw [if_neg h]
    dsimp only
    generalize (if Y ≠ Itv.point 0 then X ⊓ O.div Y (tanHull O (cMod O TH O.i0pi2)) else X) = x' at *
    generalize (if X ≠ Itv.point 0 then Y ⊓ O.S.A.mul X (tanHull O (cMod O TH O.i0pi2)) else Y) = y' at *
    generalize (if X ≠ Itv.point 0 then O.atan (O.div Y X) else O.halfPi) = z
    by_cases hc : (x'.isEmpty || y'.isEmpty || (cMod O TH O.i0pi2 ⊓ z).isEmpty) = true
    · rw [if_pos hc]; exact ⟨bot_le, bot_le, bot_le⟩
    · rw [if_neg hc]; exact ⟨e1, e2, inf_le_left⟩

/-! ### `Catan2` -/

/-- reducing an angle does not enlarge a domain of angles of the first quadrant (rounding does not add anything: `integer` of
`(th - i_0_pi2)/2π` is `[0]`, then `th - 0` is computed exactly) -/
def PolarOps.Tight (O : PolarOps) : Prop := ∀ TH ≤ O.i0pi2, cMod O TH O.i0pi2 ≤ TH

theorem Itv.neg_neg_le (X : Itv ℝ) : Itv.neg (Itv.neg X) ≤ X := by
  rw [Itv.le_iff]
  intro x hx
  have := Itv.mem_neg_iff.mp (Itv.mem_neg_iff.mp hx)
  rwa [neg_neg] at this

theorem neg_cMod_le (O : PolarOps) (TH : Itv ℝ) : Itv.neg (cMod O TH (Itv.neg O.i0pi2)) ≤ O.i0pi2 :=
  (Itv.neg_mono (cMod_le ..)).trans (Itv.neg_neg_le _)

/-- one level of recursion is enough in the first quadrant -/
theorem catan2_direct (O : PolarOps) (n : Nat) {X Y TH : Itv ℝ} (hX : X ≤ posReals) (hY : Y ≤ posReals) (hT : TH ≤ O.i0pi2) :
    catan2 O (n + 1) X Y TH = some (open Classical in if X = ⊥ ∨ Y = ⊥ ∨ TH = ⊥ then (⊥, ⊥, ⊥) else catanQuadrant O X Y TH) := by
  rw [catan2]
  split
  · rfl
  · rw [if_pos ⟨hX, hY, hT⟩]

/-- `Catan2` on domains included in the first quadrant: the value of the inner calls -/
noncomputable def catanInner (O : PolarOps) (X Y TH : Itv ℝ) : Itv ℝ × Itv ℝ × Itv ℝ :=
  open Classical in if X = ⊥ ∨ Y = ⊥ ∨ TH = ⊥ then (⊥, ⊥, ⊥) else catanQuadrant O X Y TH

theorem catanInner_keeps (O : PolarOps) {X Y TH : Itv ℝ} (hX : X ≤ posReals) (hY : Y ≤ posReals) {r t : ℝ} (hr : 0 < r)
    (hx : r * Real.cos t ∈ X) (hy : r * Real.sin t ∈ Y) (ht : t ∈ TH) (h0 : 0 ≤ t) (h1 : t ≤ π / 2) (hs : Real.sin t ≠ 0 ∨ O.Relational) :
    r * Real.cos t ∈ (catanInner O X Y TH).1 ∧ r * Real.sin t ∈ (catanInner O X Y TH).2.1 ∧ t ∈ (catanInner O X Y TH).2.2 := by
  unfold catanInner
  rw [if_neg]
  · exact quadrant_keeps O hX hY hr hx hy ht h0 h1 hs
  · rintro (h | h | h)
    · exact Itv.ne_bot_of_mem hx h
    · exact Itv.ne_bot_of_mem hy h
    · exact Itv.ne_bot_of_mem ht h

theorem catanInner_le (O : PolarOps) (X Y TH : Itv ℝ) : (catanInner O X Y TH).1 ≤ X ∧ (catanInner O X Y TH).2.1 ≤ Y ∧
    (catanInner O X Y TH).2.2 ≤ cMod O TH O.i0pi2 := by
  unfold catanInner
  split
  · exact ⟨bot_le, bot_le, bot_le⟩
  · exact quadrant_le ..

/-- the four calls of lines 76-109 -/
noncomputable def catanFour (O : PolarOps) (x y th : Itv ℝ) : Itv ℝ × Itv ℝ × Itv ℝ :=
  let q1 := catanInner O (x ⊓ posReals) (y ⊓ posReals) (cMod O th O.i0pi2)
  let q2 := catanInner O (x ⊓ posReals) (Itv.neg (y ⊓ negReals)) (Itv.neg (cMod O th (Itv.neg O.i0pi2)))
  let q3 := catanInner O (Itv.neg (x ⊓ negReals)) (Itv.neg (y ⊓ negReals)) (O.S.A.add O.pi (cMod O th (Itv.neg O.iPi2Pi)) ⊓ O.i0pi2)
  let q4 := catanInner O (Itv.neg (x ⊓ negReals)) (y ⊓ posReals) (O.S.A.sub O.pi (cMod O th O.iPi2Pi) ⊓ O.i0pi2)
  (q1.1 ⊔ q2.1 ⊔ Itv.neg q3.1 ⊔ Itv.neg q4.1, q1.2.1 ⊔ Itv.neg q2.2.1 ⊔ Itv.neg q3.2.1 ⊔ q4.2.1,
    cModBwd O th q1.2.2 ⊔ cModBwd O th (Itv.neg q2.2.2) ⊔ cModBwd O th (O.S.A.sub q3.2.2 O.pi) ⊔ cModBwd O th (O.S.A.sub O.pi q4.2.2))

/-- the recursion has depth two -/
theorem catan2_eq (O : PolarOps) (n : Nat) (x y th : Itv ℝ) : catan2 O (n + 2) x y th = some (open Classical in
    if x = ⊥ ∨ y = ⊥ ∨ th = ⊥ then (⊥, ⊥, ⊥) else if x ≤ posReals ∧ y ≤ posReals ∧ th ≤ O.i0pi2 then catanQuadrant O x y th
    else catanFour O x y th) := by
  rw [catan2]
  split
  · rfl
  split
  · rfl
  have d := fun (X Y TH : Itv ℝ) hX hY hT => catan2_direct O n (X := X) (Y := Y) (TH := TH) hX hY hT
  rw [d _ _ _ inf_le_right inf_le_right (cMod_le ..), d _ _ _ inf_le_right (neg_inf_le_pos _) (neg_cMod_le ..),
    d _ _ _ (neg_inf_le_pos _) (neg_inf_le_pos _) inf_le_right, d _ _ _ (neg_inf_le_pos _) inf_le_right inf_le_right]
  rfl

/-- every angle is, up to full turns, in `]-π, π]` -/
theorem exists_turn (t : ℝ) : ∃ (s : ℝ) (k : ℤ), -π < s ∧ s ≤ π ∧ t = s + k * (2 * π) := by
  have hp : (0 : ℝ) < 2 * π := by positivity
  refine ⟨toIocMod hp (-π) t, toIocDiv hp (-π) t, (toIocMod_mem_Ioc hp (-π) t).1, ?_, ?_⟩
  · have := (toIocMod_mem_Ioc hp (-π) t).2; linarith
  · have := toIocMod_add_toIocDiv_zsmul hp (-π) t
    rw [zsmul_eq_mul] at this
    exact this.symm

theorem cos_turn {t s : ℝ} {k : ℤ} (h : t = s + k * (2 * π)) : Real.cos t = Real.cos s := by
  rw [h, Real.cos_add_int_mul_two_pi]

theorem sin_turn {t s : ℝ} {k : ℤ} (h : t = s + k * (2 * π)) : Real.sin t = Real.sin s := by
  rw [h, Real.sin_add_int_mul_two_pi]

theorem catanFour_keeps (O : PolarOps) {X Y TH : Itv ℝ} {r t : ℝ} (hr : 0 < r)
    (hx : r * Real.cos t ∈ X) (hy : r * Real.sin t ∈ Y) (ht : t ∈ TH) (hs : Real.sin t ≠ 0 ∨ O.Relational) :
    r * Real.cos t ∈ (catanFour O X Y TH).1 ∧ r * Real.sin t ∈ (catanFour O X Y TH).2.1 ∧ t ∈ (catanFour O X Y TH).2.2 := by
  obtain ⟨s, k, h0, h1, e⟩ := exists_turn t
  rw [cos_turn e] at hx ⊢
  rw [sin_turn e] at hy hs ⊢
  unfold catanFour
  dsimp only
  rcases le_or_gt 0 s with hp | hp
  · rcases le_or_gt s (π / 2) with hq | hq
    · -- first quadrant
      have c := Real.cos_nonneg_of_mem_Icc (x := s) ⟨by linarith, hq⟩
      have c' := Real.sin_nonneg_of_mem_Icc (x := s) ⟨hp, h1⟩
      obtain ⟨k1, k2, k3⟩ := catanInner_keeps O inf_le_right inf_le_right hr (Itv.mem_inf.mpr ⟨hx, mem_posReals.mpr (by positivity)⟩)
        (Itv.mem_inf.mpr ⟨hy, mem_posReals.mpr (by positivity)⟩) (cMod_mem O ht (mem_i0pi2 O hp hq) e) hp hq hs
      exact ⟨Itv.mem_sup_left (Itv.mem_sup_left (Itv.mem_sup_left k1)), Itv.mem_sup_left (Itv.mem_sup_left (Itv.mem_sup_left k2)),
        Itv.mem_sup_left (Itv.mem_sup_left (Itv.mem_sup_left (cModBwd_mem O ht k3 e)))⟩
    · -- fourth call: `π - s`
      have c := Real.cos_nonpos_of_pi_div_two_le_of_le hq.le (by linarith)
      have c' := Real.sin_nonneg_of_mem_Icc (x := s) ⟨hp, h1⟩
      have ec : Real.cos (π - s) = -Real.cos s := Real.cos_pi_sub s
      have es : Real.sin (π - s) = Real.sin s := Real.sin_pi_sub s
      have hx' : r * Real.cos (π - s) ∈ Itv.neg (X ⊓ negReals) := by
        rw [ec, mul_neg]
        exact Itv.mem_neg (Itv.mem_inf.mpr ⟨hx, mem_negReals.mpr (mul_nonpos_of_nonneg_of_nonpos hr.le c)⟩)
      have hy' : r * Real.sin (π - s) ∈ Y ⊓ posReals := by
        rw [es]; exact Itv.mem_inf.mpr ⟨hy, mem_posReals.mpr (by positivity)⟩
      have ht' : π - s ∈ O.S.A.sub O.pi (cMod O TH O.iPi2Pi) ⊓ O.i0pi2 :=
        Itv.mem_inf.mpr ⟨O.S.A.sub_mem O.pi_mem (cMod_mem O ht (mem_iPi2Pi O hq.le h1) e), mem_i0pi2 O (by linarith) (by linarith)⟩
      obtain ⟨k1, k2, k3⟩ := catanInner_keeps O (neg_inf_le_pos X) inf_le_right hr hx' hy' ht' (by linarith) (by linarith) (by rwa [es])
      refine ⟨Itv.mem_sup_right (Itv.mem_neg_iff.mpr ?_), Itv.mem_sup_right ?_, Itv.mem_sup_right (cModBwd_mem O ht ?_ e)⟩
      · rwa [ec, mul_neg] at k1
      · rwa [es] at k2
      · have := O.S.A.sub_mem O.pi_mem k3; rwa [sub_sub_cancel] at this
  · rcases le_or_gt (-(π / 2)) s with hq | hq
    · -- second call: `-s`
      have c := Real.cos_nonneg_of_mem_Icc (x := s) ⟨hq, by linarith [pi_pos]⟩
      have c' := Real.sin_nonpos_of_nonpos_of_neg_pi_le hp.le (by linarith)
      have hx' : r * Real.cos (-s) ∈ X ⊓ posReals := by
        rw [Real.cos_neg]; exact Itv.mem_inf.mpr ⟨hx, mem_posReals.mpr (by positivity)⟩
      have hy' : r * Real.sin (-s) ∈ Itv.neg (Y ⊓ negReals) := by
        rw [Real.sin_neg, mul_neg]
        exact Itv.mem_neg (Itv.mem_inf.mpr ⟨hy, mem_negReals.mpr (mul_nonpos_of_nonneg_of_nonpos hr.le c')⟩)
      have hm : s ∈ cMod O TH (Itv.neg O.i0pi2) :=
        cMod_mem O ht (Itv.mem_neg_iff.mpr (mem_i0pi2 O (by linarith) (by linarith))) e
      obtain ⟨k1, k2, k3⟩ := catanInner_keeps O inf_le_right (neg_inf_le_pos Y) hr hx' hy' (Itv.mem_neg hm) (by linarith) (by linarith)
        (by rwa [Real.sin_neg, neg_ne_zero])
      refine ⟨Itv.mem_sup_left (Itv.mem_sup_left (Itv.mem_sup_right ?_)),
        Itv.mem_sup_left (Itv.mem_sup_left (Itv.mem_sup_right (Itv.mem_neg_iff.mpr ?_))),
        Itv.mem_sup_left (Itv.mem_sup_left (Itv.mem_sup_right (cModBwd_mem O ht (Itv.mem_neg_iff.mpr k3) e)))⟩
      · rwa [Real.cos_neg] at k1
      · rwa [Real.sin_neg, mul_neg] at k2
    · -- third call: `π + s`
      have ec : Real.cos (π + s) = -Real.cos s := by rw [add_comm, Real.cos_add_pi]
      have es : Real.sin (π + s) = -Real.sin s := by rw [add_comm, Real.sin_add_pi]
      have c : Real.cos s ≤ 0 := by
        have := Real.cos_nonneg_of_mem_Icc (x := π + s) ⟨by linarith [pi_pos], by linarith⟩
        linarith
      have c' := Real.sin_nonpos_of_nonpos_of_neg_pi_le hp.le h0.le
      have hx' : r * Real.cos (π + s) ∈ Itv.neg (X ⊓ negReals) := by
        rw [ec, mul_neg]
        exact Itv.mem_neg (Itv.mem_inf.mpr ⟨hx, mem_negReals.mpr (mul_nonpos_of_nonneg_of_nonpos hr.le c)⟩)
      have hy' : r * Real.sin (π + s) ∈ Itv.neg (Y ⊓ negReals) := by
        rw [es, mul_neg]
        exact Itv.mem_neg (Itv.mem_inf.mpr ⟨hy, mem_negReals.mpr (mul_nonpos_of_nonneg_of_nonpos hr.le c')⟩)
      have hm : s ∈ cMod O TH (Itv.neg O.iPi2Pi) :=
        cMod_mem O ht (Itv.mem_neg_iff.mpr (mem_iPi2Pi O (by linarith) (by linarith))) e
      have ht' : π + s ∈ O.S.A.add O.pi (cMod O TH (Itv.neg O.iPi2Pi)) ⊓ O.i0pi2 :=
        Itv.mem_inf.mpr ⟨O.S.A.add_mem O.pi_mem hm, mem_i0pi2 O (by linarith) (by linarith)⟩
      obtain ⟨k1, k2, k3⟩ := catanInner_keeps O (neg_inf_le_pos X) (neg_inf_le_pos Y) hr hx' hy' ht' (by linarith) (by linarith)
        (by rwa [es, neg_ne_zero])
      refine ⟨Itv.mem_sup_left (Itv.mem_sup_right (Itv.mem_neg_iff.mpr ?_)),
        Itv.mem_sup_left (Itv.mem_sup_right (Itv.mem_neg_iff.mpr ?_)), Itv.mem_sup_left (Itv.mem_sup_right (cModBwd_mem O ht ?_ e))⟩
      · rwa [ec, mul_neg] at k1
      · rwa [es, mul_neg] at k2
      · have := O.S.A.sub_mem k3 O.pi_mem; rwa [add_sub_cancel_left] at this

theorem catanFour_le (O : PolarOps) (X Y TH : Itv ℝ) : (catanFour O X Y TH).1 ≤ X ∧ (catanFour O X Y TH).2.1 ≤ Y ∧ (catanFour O X Y TH).2.2 ≤ TH := by
  have n : ∀ {Z W : Itv ℝ}, Z ≤ Itv.neg (W ⊓ negReals) → Itv.neg Z ≤ W := fun h =>
    (Itv.neg_mono h).trans ((Itv.neg_neg_le _).trans inf_le_left)
  have q := catanInner_le O
  refine ⟨sup_le (sup_le (sup_le ((q ..).1.trans inf_le_left) ((q ..).1.trans inf_le_left)) (n (q ..).1)) (n (q ..).1),
    sup_le (sup_le (sup_le ((q ..).2.1.trans inf_le_left) (n (q ..).2.1)) (n (q ..).2.1)) ((q ..).2.1.trans inf_le_left),
    sup_le (sup_le (sup_le (cModBwd_le ..) (cModBwd_le ..)) (cModBwd_le ..)) (cModBwd_le ..)⟩

/-! ### `CtcPolar` -/

theorem catan2_keeps (O : PolarOps) (n : Nat) {X Y TH : Itv ℝ} {r t : ℝ} (hr : 0 < r) (hx : r * Real.cos t ∈ X) (hy : r * Real.sin t ∈ Y)
    (ht : t ∈ TH) (hs : Real.sin t ≠ 0 ∨ O.Relational) :
    ∃ x y th, catan2 O (n + 2) X Y TH = some (x, y, th) ∧ r * Real.cos t ∈ x ∧ r * Real.sin t ∈ y ∧ t ∈ th := by
  rw [catan2_eq, if_neg (by
    rintro (h | h | h)
    · exact Itv.ne_bot_of_mem hx h
    · exact Itv.ne_bot_of_mem hy h
    · exact Itv.ne_bot_of_mem ht h)]
  by_cases hq : X ≤ posReals ∧ Y ≤ posReals ∧ TH ≤ O.i0pi2
  · rw [if_pos hq]
    have h0 : 0 ≤ t ∧ t ≤ O.h := by have := Itv.mem_of_le hq.2.2 ht; rw [i0pi2_eq] at this; exact this
    have ht2 : t ≤ π / 2 := by
      by_contra hc
      have hneg := Real.cos_neg_of_pi_div_two_lt_of_lt (not_le.mp hc) (by linarith [O.h_le, pi_pos])
      have := mem_posReals.mp (Itv.mem_of_le hq.1 hx)
      nlinarith
    exact ⟨_, _, _, rfl, quadrant_keeps O hq.1 hq.2.1 hr hx hy ht h0.1 ht2 hs⟩
  · rw [if_neg hq]
    exact ⟨_, _, _, rfl, catanFour_keeps O hr hx hy ht hs⟩

theorem catan2_le (O : PolarOps) (n : Nat) (X Y TH : Itv ℝ) :
    ∃ x y th, catan2 O (n + 2) X Y TH = some (x, y, th) ∧ x ≤ X ∧ y ≤ Y ∧ (O.Tight → th ≤ TH) := by
  rw [catan2_eq]
  by_cases h : X = ⊥ ∨ Y = ⊥ ∨ TH = ⊥
  · rw [if_pos h]; exact ⟨_, _, _, rfl, bot_le, bot_le, fun _ => bot_le⟩
  rw [if_neg h]
  by_cases hq : X ≤ posReals ∧ Y ≤ posReals ∧ TH ≤ O.i0pi2
  · rw [if_pos hq]
    obtain ⟨h1, h2, h3⟩ := quadrant_le O X Y TH
    exact ⟨_, _, _, rfl, h1, h2, fun hT => h3.trans (hT TH hq.2.2)⟩
  · rw [if_neg hq]
    obtain ⟨h1, h2, h3⟩ := catanFour_le O X Y TH
    exact ⟨_, _, _, rfl, h1, h2, fun _ => h3⟩

/-- a point of the four domains -/
def PolarDom.Has (X : PolarDom) (x y r t : ℝ) : Prop := x ∈ X.x ∧ y ∈ X.y ∧ r ∈ X.rho ∧ t ∈ X.theta

/-- inclusion of the four domains -/
def PolarDom.Le (X Y : PolarDom) (angles : Prop) : Prop := X.x ≤ Y.x ∧ X.y ≤ Y.y ∧ X.rho ≤ Y.rho ∧ (angles → X.theta ≤ Y.theta)

theorem polarPass_keeps (O : PolarOps) (n : Nat) {X : PolarDom} {r t : ℝ} (hr : 0 < r) (h : X.Has (r * Real.cos t) (r * Real.sin t) r t)
    (hs : Real.sin t ≠ 0 ∨ O.Relational) :
    ∃ R, polarPass O (n + 2) X = some R ∧ R.Has (r * Real.cos t) (r * Real.sin t) r t := by
  obtain ⟨hx, hy, hρ, ht⟩ := h
  obtain ⟨x, y, th, e, kx, ky, kt⟩ := catan2_keeps O n hr hx hy ht hs
  have esq : (r * Real.cos t) ^ 2 + (r * Real.sin t) ^ 2 = r ^ 2 := by
    have := Real.sin_sq_add_cos_sq t
    calc (r * Real.cos t) ^ 2 + (r * Real.sin t) ^ 2 = r ^ 2 * (Real.sin t ^ 2 + Real.cos t ^ 2) := by ring
      _ = r ^ 2 := by rw [this, mul_one]
  have a1 := O.S.sqr_mem kx
  have a2 := O.S.sqr_mem ky
  have a3 : r ^ 2 ∈ O.S.A.add (O.S.sqr x) (O.S.sqr y) := by have := O.S.A.add_mem a1 a2; rwa [esq] at this
  have a4 := Itv.mem_inf.mpr ⟨O.S.sqr_mem hρ, a3⟩
  have a3' := Itv.mem_inf.mpr ⟨a3, a4⟩
  have hρ' := O.S.bwdSqr_mem hρ a4
  have a2' := Itv.mem_inf.mpr ⟨a2, by
    have := O.S.A.sub_mem a3' a1; rwa [← esq, add_sub_cancel_left] at this⟩
  have a1' := Itv.mem_inf.mpr ⟨a1, by
    have := O.S.A.sub_mem a3' a2'; rwa [← esq, add_sub_cancel_right] at this⟩
  have x' := Itv.mem_inf.mpr ⟨O.S.bwdSqr_mem kx a1', O.S.A.mul_mem hρ' (O.cos_mem kt)⟩
  have y' := Itv.mem_inf.mpr ⟨O.S.bwdSqr_mem ky a2', O.S.A.mul_mem hρ' (O.sin_mem kt)⟩
  refine ⟨⟨_, _, _, _⟩, ?_, x', y', hρ', kt⟩
  simp only [polarPass, e, Option.bind_eq_bind, Option.bind_some, Itv.isEmpty_false_iff.mpr (Itv.ne_bot_of_mem x'),
    Itv.isEmpty_false_iff.mpr (Itv.ne_bot_of_mem y'), Itv.isEmpty_false_iff.mpr (Itv.ne_bot_of_mem hρ'),
    Itv.isEmpty_false_iff.mpr (Itv.ne_bot_of_mem kt), Bool.or_self, Bool.false_eq_true, if_false]

theorem polarPass_le (O : PolarOps) (n : Nat) (X : PolarDom) : ∃ R, polarPass O (n + 2) X = some R ∧ R.Le X O.Tight := by
  obtain ⟨x, y, th, e, h1, h2, h3⟩ := catan2_le O n X.x X.y X.theta
  simp only [polarPass, e, Option.bind_eq_bind, Option.bind_some]
  split
  · exact ⟨_, rfl, bot_le, bot_le, bot_le, fun _ => bot_le⟩
  · exact ⟨_, rfl, inf_le_left.trans ((O.S.bwdSqr_le ..).trans h1), inf_le_left.trans ((O.S.bwdSqr_le ..).trans h2), O.S.bwdSqr_le .., h3⟩

theorem polarContract_keeps (O : PolarOps) (n : Nat) {X : PolarDom} {r t : ℝ} (hr : 0 < r)
    (h : X.Has (r * Real.cos t) (r * Real.sin t) r t) (hs : Real.sin t ≠ 0 ∨ O.Relational) :
    ∃ R, polarContract O (n + 2) X = some R ∧ R.Has (r * Real.cos t) (r * Real.sin t) r t := by
  obtain ⟨R, e, hR⟩ := polarPass_keeps O n hr h hs
  obtain ⟨R', e', hR'⟩ := polarPass_keeps O n hr hR hs
  exact ⟨R', by rw [polarContract, e, Option.bind_some, e'], hR'⟩

theorem polarContract_le (O : PolarOps) (n : Nat) (X : PolarDom) : ∃ R, polarContract O (n + 2) X = some R ∧ R.Le X O.Tight := by
  obtain ⟨R, e, h1, h2, h3, h4⟩ := polarPass_le O n X
  obtain ⟨R', e', k1, k2, k3, k4⟩ := polarPass_le O n R
  exact ⟨R', by rw [polarContract, e, Option.bind_some, e'], k1.trans h1, k2.trans h2, k3.trans h3, fun hT => (k4 hT).trans (h4 hT)⟩

end Codac
