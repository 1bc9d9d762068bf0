import Verif.Ctc.HullOps

/-!
# C24: `CtcDist`, `CtcSegment`, `CtcPolar`
-/

set_option linter.unusedSectionVars false

namespace Codac.Props

open Real

/-- **C24 (distance).** `CtcDist` keeps every `(ax, ay, bx, by, d)` of its domains with `d = |a - b|`, and its results are included in
the domains it is given, with every interval arithmetic which contains the exact results. -/
theorem C24_dist (O : SqrOps) (X : DistDom) :
    (∀ ax ay bx by_ d : ℝ, ax ∈ X.ax → ay ∈ X.ay → bx ∈ X.bx → by_ ∈ X.by_ → d ∈ X.d → d = √((ax - bx) ^ 2 + (ay - by_) ^ 2) →
      ax ∈ (distContract O X).ax ∧ ay ∈ (distContract O X).ay ∧ bx ∈ (distContract O X).bx ∧ by_ ∈ (distContract O X).by_ ∧
        d ∈ (distContract O X).d) ∧
    (distContract O X).ax ≤ X.ax ∧ (distContract O X).ay ≤ X.ay ∧ (distContract O X).bx ≤ X.bx ∧ (distContract O X).by_ ≤ X.by_ ∧
      (distContract O X).d ≤ X.d :=
  ⟨fun _ _ _ _ _ h1 h2 h3 h4 h5 hd => distContract_keeps O h1 h2 h3 h4 h5 hd, distContract_le O X⟩

/-- **C24 (distance, contraction).** With exact operations, when the two points are known the distance is known after the contraction:
the contractor does contract. -/
theorem C24_dist_point (ax ay bx by_ : ℝ) (D : Itv ℝ) :
    (distContract hullSqr ⟨Itv.point ax, Itv.point ay, Itv.point bx, Itv.point by_, D⟩).d ≤
      Itv.point (√((ax - bx) ^ 2 + (ay - by_) ^ 2)) := by
  have n : ∀ a : ℝ, Itv.neg (Itv.point a) ≤ Itv.point (-a) := by
    intro a
    rw [Itv.le_iff]
    intro x hx
    have := Itv.mem_point.mp (Itv.mem_neg_iff.mp hx)
    exact Itv.mem_point.mpr (by linarith)
  have s : ∀ a b : ℝ, hullSqr.sqr (hullSqr.A.add (Itv.point a) (Itv.neg (Itv.point b))) ≤ Itv.point ((a - b) ^ 2) := by
    intro a b
    refine Itv.hullOf_le ?_
    rintro z ⟨x, hx, rfl⟩
    have : x ∈ Itv.point (a - b) := Itv.mem_of_le (Itv.hullOf_le (by
      rintro w ⟨u, v, hu, hv, rfl⟩
      rw [Itv.mem_point.mp hu, Itv.mem_point.mp (Itv.mem_of_le (n b) hv), Itv.mem_point, sub_eq_add_neg])) hx
    rw [Itv.mem_point.mp this, Itv.mem_point]
  refine inf_le_right.trans (Itv.hullOf_le ?_)
  rintro z ⟨x, hx, -, rfl⟩
  have : x ∈ Itv.point ((ax - bx) ^ 2 + (ay - by_) ^ 2) := Itv.mem_of_le (Itv.hullOf_le (by
    rintro w ⟨u, v, hu, hv, rfl⟩
    rw [Itv.mem_point.mp (Itv.mem_of_le (s _ _) hu), Itv.mem_point.mp (Itv.mem_of_le (s _ _) hv), Itv.mem_point])) hx
  rw [Itv.mem_point.mp this, Itv.mem_point]

/-- points `(0, 0)` and `(3, 4)`, distance `5`: a solution in domains which are not points -/
example : (3 : ℝ) ∈ (distContract hullSqr ⟨Itv.icc 0 1, Itv.icc 0 1, Itv.icc 2 3, Itv.icc 3 4, Itv.icc 4 6⟩).bx := by
  refine ((C24_dist hullSqr ⟨Itv.icc 0 1, Itv.icc 0 1, Itv.icc 2 3, Itv.icc 3 4, Itv.icc 4 6⟩).1 0 0 3 4 5 ?_ ?_ ?_ ?_ ?_ ?_).2.2.1
  · exact Itv.mem_icc.mpr ⟨by norm_num, by norm_num⟩
  · exact Itv.mem_icc.mpr ⟨by norm_num, by norm_num⟩
  · exact Itv.mem_icc.mpr ⟨by norm_num, by norm_num⟩
  · exact Itv.mem_icc.mpr ⟨by norm_num, by norm_num⟩
  · exact Itv.mem_icc.mpr ⟨by norm_num, by norm_num⟩
  · rw [show ((0 - 3) ^ 2 + (0 - 4) ^ 2 : ℝ) = 5 ^ 2 by norm_num, Real.sqrt_sq (by norm_num)]

section
variable {K : Type*} [Field K] [LinearOrder K] [IsStrictOrderedRing K]

/-- **C24 (segment).** The two functions used by `CtcSegment` characterise the segment, also when its two ends are the same point or
when it is vertical or horizontal: `f = 0` and all the components of `g` are at most zero exactly at the points `a + s (b - a)` with
`s` in `[0, 1]`. -/
theorem C24_segment_functions (x y ax ay bx by_ : K) :
    (∃ s, 0 ≤ s ∧ s ≤ 1 ∧ x = ax + s * (bx - ax) ∧ y = ay + s * (by_ - ay)) ↔
      segF x y ax ay bx by_ = 0 ∧ ∀ w ∈ segG x y ax ay bx by_, w ≤ 0 :=
  onSegment_iff x y ax ay bx by_

/-- **C24 (segment, six variables).** `CtcSegment` on a box `(x, y, ax, ay, bx, by)` keeps every point whose first two coordinates are
on the segment of the four others, and returns a box included in the one it is given; `ctcF` and `ctcG` are any contractors for
`f = 0` and `g ≤ 0`. -/
theorem C24_segment (ctcF ctcG : Box K → Box K) (hF : IsCtc 6 SegSolF ctcF) (hG : IsCtc 6 SegSolG ctcG) (X : Box K) (hX : X.length = 6) :
    (∀ x y ax ay bx by_ s : K, 0 ≤ s → s ≤ 1 → x = ax + s * (bx - ax) → y = ay + s * (by_ - ay) → InBox [x, y, ax, ay, bx, by_] X →
      InBox [x, y, ax, ay, bx, by_] (segContract6 ctcF ctcG X)) ∧
    BoxLe (segContract6 ctcF ctcG X) X :=
  ⟨fun _ _ _ _ _ _ s h0 h1 hx hy hv => segContract6_keeps hF hG hX hv ⟨s, h0, h1, hx, hy⟩, segContract6_le hF hG hX⟩

/-- **C24 (segment, two variables).** `CtcSegment` built with a given segment keeps every point of the segment which is in the box, and
returns a box included in the one it is given. -/
theorem C24_segment_fixed (ctcF ctcG : Box K → Box K) (hF : IsCtc 6 SegSolF ctcF) (hG : IsCtc 6 SegSolG ctcG) (ax ay bx by_ : K)
    (X : Box K) (hX : X.length = 2) :
    (∀ x y s : K, 0 ≤ s → s ≤ 1 → x = ax + s * (bx - ax) → y = ay + s * (by_ - ay) → InBox [x, y] X →
      InBox [x, y] (segContract2 ctcF ctcG ax ay bx by_ X)) ∧
    BoxLe (segContract2 ctcF ctcG ax ay bx by_ X) X :=
  ⟨fun _ _ s h0 h1 hx hy hv => segContract2_keeps hF hG hX hv ⟨s, h0, h1, hx, hy⟩, segContract2_le hF hG hX ax ay bx by_⟩

/-- a contractor for `g ≤ 0`: the coordinates of the point are between those of the ends -/
def segBB : Box K → Box K
  | [x, y, ax, ay, bx, by_] => [x ⊓ (ax ⊔ bx), y ⊓ (ay ⊔ by_), ax, ay, bx, by_]
  | X => X

theorem segBB_isCtc : IsCtc 6 SegSolG (segBB (K := K)) where
  le X hX := by
    match X, hX with
    | [x, y, ax, ay, bx, by_], _ =>
      exact .cons inf_le_left (.cons inf_le_left (.cons le_rfl (.cons le_rfl (.cons le_rfl (.cons le_rfl .nil)))))
  keeps X v hX hv hS := by
    match X, hX with
    | [x, y, ax, ay, bx, by_], _ =>
      obtain ⟨x', y', ax', ay', bx', by', rfl, hg⟩ := hS
      cases hv with | cons h1 hv =>
      cases hv with | cons h2 hv =>
      cases hv with | cons h3 hv =>
      cases hv with | cons h4 hv =>
      cases hv with | cons h5 hv =>
      cases hv with | cons h6 hv =>
      have b : ∀ {A B : Itv K} {a b w : K}, a ∈ A → b ∈ B → min a b - w ≤ 0 → w - max a b ≤ 0 → w ∈ A ⊔ B := by
        intro A B a b w ha hb h h'
        rcases le_total a b with hab | hab
        · rw [min_eq_left hab] at h
          rw [max_eq_right hab] at h'
          exact Itv.mem_sup_of_between ha hb (by linarith) (by linarith)
        · rw [min_eq_right hab] at h
          rw [max_eq_left hab] at h'
          rw [sup_comm]
          exact Itv.mem_sup_of_between hb ha (by linarith) (by linarith)
      refine .cons (Itv.mem_inf.mpr ⟨h1, b h3 h5 (hg _ ?_) (hg _ ?_)⟩) (.cons (Itv.mem_inf.mpr ⟨h2, b h4 h6 (hg _ ?_) (hg _ ?_)⟩)
        (.cons h3 (.cons h4 (.cons h5 (.cons h6 .nil))))) <;> simp [segG]
end

theorem idSeg_isCtc : IsCtc 6 SegSolF (fun X : Box ℚ => X) := ⟨fun X _ => BoxLe.refl X, fun _ _ _ h _ => h⟩

/-- the box `[-1,5]×[0,3]` and the segment from `(0,0)` to `(2,4)`: `(1,2)` is kept, the first coordinate is contracted to `[0,2]` -/
example : InBox [1, 2] (segContract2 (fun X : Box ℚ => X) segBB 0 0 2 4 [Itv.icc (-1) 5, Itv.icc 0 3]) ∧
    segContract2 (fun X : Box ℚ => X) segBB 0 0 2 4 [Itv.icc (-1) 5, Itv.icc 0 3] = [Itv.icc 0 2, Itv.icc 0 3] := by
  refine ⟨(C24_segment_fixed _ segBB idSeg_isCtc segBB_isCtc 0 0 2 4 [Itv.icc (-1) 5, Itv.icc 0 3] rfl).1 1 2 (1 / 2) (by norm_num)
    (by norm_num) (by norm_num) (by norm_num) ?_, by decide +kernel⟩
  exact .cons (by decide +kernel) (.cons (by decide +kernel) .nil)

/-! ### Polar -/

/-- **C24 (polar, termination).** `CtcPolar::contract` ends: `Catan2`, which calls itself, never nests more than two calls. -/
theorem C24_polar_terminates (O : PolarOps) (fuel : Nat) (h : 2 ≤ fuel) (X : PolarDom) : ∃ R, polarContract O fuel X = some R := by
  obtain ⟨n, rfl⟩ := Nat.exists_eq_add_of_le' h
  obtain ⟨R, e, -⟩ := polarContract_le O n X
  exact ⟨R, e⟩

/-- **C24 (polar), partial.** `CtcPolar` keeps every solution `x = ρ cos θ`, `y = ρ sin θ` with `ρ > 0` and `sin θ ≠ 0`, and also those with
`sin θ = 0` if the division of intervals is a relation (`0/0` is anything). Missing: the origin and the angles with `sin θ = 0` with
IBEX's division, both lost in the cases of `C24_polar_origin_fails` and `C24_polar_zero_fails`; negative `ρ`. -/
theorem C24_polar_partial (O : PolarOps) (fuel : Nat) (hfuel : 2 ≤ fuel) (X : PolarDom) (x y ρ θ : ℝ) (hx : x ∈ X.x) (hy : y ∈ X.y)
    (hρ : ρ ∈ X.rho) (hθ : θ ∈ X.theta) (ex : x = ρ * Real.cos θ) (ey : y = ρ * Real.sin θ) (hpos : 0 < ρ)
    (hs : Real.sin θ ≠ 0 ∨ O.Relational) :
    ∃ R, polarContract O fuel X = some R ∧ x ∈ R.x ∧ y ∈ R.y ∧ ρ ∈ R.rho ∧ θ ∈ R.theta := by
  obtain ⟨n, rfl⟩ := Nat.exists_eq_add_of_le' hfuel
  subst ex ey
  exact polarContract_keeps O n hpos ⟨hx, hy, hρ, hθ⟩ hs

/-- **C24 (polar, inclusion).** The results of `CtcPolar` are included in the domains it is given; for the angle, if reducing an angle
domain of the first quadrant modulo `2π` does not enlarge it. -/
theorem C24_polar_subset (O : PolarOps) (fuel : Nat) (hfuel : 2 ≤ fuel) (X : PolarDom) :
    ∃ R, polarContract O fuel X = some R ∧ R.x ≤ X.x ∧ R.y ≤ X.y ∧ R.rho ≤ X.rho ∧
      ((∀ TH ≤ O.i0pi2, cMod O TH O.i0pi2 ≤ TH) → R.theta ≤ X.theta) := by
  obtain ⟨n, rfl⟩ := Nat.exists_eq_add_of_le' hfuel
  exact polarContract_le O n X

/-- the condition of `C24_polar_subset` on the reduction of angles holds with exact operations -/
example : ∀ TH ≤ hullPolar.i0pi2, cMod hullPolar TH hullPolar.i0pi2 ≤ TH := hullPolar_tight

theorem polarPass_of_empty {O : PolarOps} {n : Nat} {X : PolarDom} (h : catan2 O n X.x X.y X.theta = some (⊥, ⊥, ⊥)) :
    polarPass O n X = some ⟨⊥, ⊥, ⊥, ⊥⟩ := by
  have hb : ∀ Y Z : Itv ℝ, (O.S.bwdSqr Y ⊥ ⊓ Z).isEmpty = true := fun Y Z =>
    Itv.isEmpty_iff.mpr (le_bot_iff.mp (inf_le_left.trans (O.S.bwdSqr_le ..)))
  simp only [polarPass, h, Option.bind_eq_bind, Option.bind_some, hb, Bool.true_or, if_true]

theorem polarContract_of_empty {O : PolarOps} {n : Nat} {X : PolarDom} (h : catan2 O (n + 2) X.x X.y X.theta = some (⊥, ⊥, ⊥)) :
    polarContract O (n + 2) X = some ⟨⊥, ⊥, ⊥, ⊥⟩ := by
  rw [polarContract, polarPass_of_empty h, Option.bind_some]
  exact polarPass_of_empty (by rw [catan2_eq, if_pos (.inl rfl)])

/-- **C24 fails at the origin.** With every interval arithmetic, `CtcPolar` on `x = [0]`, `y = [0]`, `ρ = [0,1]`, `θ = [0]` returns empty domains
although `x = ρ cos θ` and `y = ρ sin θ` hold for `ρ = 0`. -/
theorem C24_polar_origin_fails : ∃ X : PolarDom, (0 : ℝ) ∈ X.x ∧ (0 : ℝ) ∈ X.y ∧ (0 : ℝ) ∈ X.rho ∧ (0 : ℝ) ∈ X.theta ∧
    (0 : ℝ) = 0 * Real.cos 0 ∧ (0 : ℝ) = 0 * Real.sin 0 ∧
    ∀ (O : PolarOps) (fuel : Nat), 2 ≤ fuel → polarContract O fuel X = some ⟨⊥, ⊥, ⊥, ⊥⟩ := by
  refine ⟨⟨Itv.point 0, Itv.point 0, Itv.icc 0 1, Itv.point 0⟩, Itv.mem_point.mpr rfl, Itv.mem_point.mpr rfl,
    Itv.mem_icc.mpr ⟨le_rfl, zero_le_one⟩, Itv.mem_point.mpr rfl, by simp, by simp, fun O fuel hf => ?_⟩
  obtain ⟨n, rfl⟩ := Nat.exists_eq_add_of_le' hf
  refine polarContract_of_empty ?_
  have hp : Itv.point (0 : ℝ) ≤ posReals := Itv.le_iff.mpr fun t ht => mem_posReals.mpr (by rw [Itv.mem_point.mp ht])
  have ht : Itv.point (0 : ℝ) ≤ O.i0pi2 := Itv.le_iff.mpr fun t ht => by
    rw [Itv.mem_point.mp ht]; exact mem_i0pi2 O le_rfl (by positivity)
  rw [catan2_eq]
  split
  · rfl
  · rw [if_pos ⟨hp, hp, ht⟩, catanQuadrant, if_pos ⟨rfl, rfl⟩]

/-- **C24 fails at `θ = 0`.** Even with exact interval operations (the division by `[0,0]` being empty as in IBEX), `CtcPolar` on `x = [1,2]`,
`y = [0,1]`, `ρ = [1,2]`, `θ = [0]` returns empty domains although `(1, 0, 1, 0)` is a solution. -/
theorem C24_polar_zero_fails : ∃ X : PolarDom, (1 : ℝ) ∈ X.x ∧ (0 : ℝ) ∈ X.y ∧ (1 : ℝ) ∈ X.rho ∧ (0 : ℝ) ∈ X.theta ∧
    (1 : ℝ) = 1 * Real.cos 0 ∧ (0 : ℝ) = 1 * Real.sin 0 ∧
    ∀ fuel : Nat, 2 ≤ fuel → polarContract hullPolar fuel X = some ⟨⊥, ⊥, ⊥, ⊥⟩ := by
  have m0 : (0 : ℝ) ∈ Itv.icc (0 : ℝ) 1 := Itv.mem_icc.mpr ⟨le_rfl, zero_le_one⟩
  have m1 : (1 : ℝ) ∈ Itv.icc (0 : ℝ) 1 := Itv.mem_icc.mpr ⟨zero_le_one, le_rfl⟩
  have m2 : (1 : ℝ) ∈ Itv.icc (1 : ℝ) 2 := Itv.mem_icc.mpr ⟨le_rfl, by norm_num⟩
  refine ⟨⟨Itv.icc 1 2, Itv.icc 0 1, Itv.icc 1 2, Itv.point 0⟩, m2, m0, m2, Itv.mem_point.mpr rfl, by simp, by simp, fun fuel hf => ?_⟩
  obtain ⟨n, rfl⟩ := Nat.exists_eq_add_of_le' hf
  refine polarContract_of_empty ?_
  have hp1 : Itv.icc (1 : ℝ) 2 ≤ posReals := Itv.le_iff.mpr fun t ht => mem_posReals.mpr (by linarith [(Itv.mem_icc.mp ht).1])
  have hp2 : Itv.icc (0 : ℝ) 1 ≤ posReals := Itv.le_iff.mpr fun t ht => mem_posReals.mpr (Itv.mem_icc.mp ht).1
  have ht : Itv.point (0 : ℝ) ≤ hullPolar.i0pi2 := Itv.le_iff.mpr fun t ht => by
    rw [Itv.mem_point.mp ht]; exact mem_i0pi2 _ le_rfl (by positivity)
  rw [catan2_eq]
  split
  · rfl
  · have hx : Itv.icc (1 : ℝ) 2 ≠ Itv.point 0 := fun h => by rw [h, Itv.mem_point] at m2; norm_num at m2
    have hy : Itv.icc (0 : ℝ) 1 ≠ Itv.point 0 := fun h => by rw [h, Itv.mem_point] at m1; norm_num at m1
    rw [if_pos ⟨hp1, hp2, ht⟩, catanQuadrant, if_neg (fun h => hx h.1)]
    simp only [hullPolar_cMod_zero, hullPolar_div_zero _ _ hullPolar_tan_zero, if_pos hy, inf_bot_eq]
    rw [if_pos]
    rw [Itv.isEmpty_iff.mpr rfl, Bool.true_or, Bool.true_or]

/-- a solution in the third quadrant, `ρ = 2` and `θ = -3π/4` -/
example : ∃ R, polarContract hullPolar 2 ⟨Itv.icc (-3) 3, Itv.icc (-3) 3, Itv.icc 1 3, Itv.icc (-π) 0⟩ = some R ∧
    2 * Real.cos (-(3 * π / 4)) ∈ R.x ∧ 2 * Real.sin (-(3 * π / 4)) ∈ R.y ∧ (2 : ℝ) ∈ R.rho ∧ -(3 * π / 4) ∈ R.theta := by
  have hp := pi_pos
  refine C24_polar_partial hullPolar 2 le_rfl ⟨Itv.icc (-3) 3, Itv.icc (-3) 3, Itv.icc 1 3, Itv.icc (-π) 0⟩ _ _ 2 (-(3 * π / 4)) ?_ ?_
    (Itv.mem_icc.mpr ⟨by norm_num, by norm_num⟩) (Itv.mem_icc.mpr ⟨by linarith, by linarith⟩) rfl rfl two_pos (.inl ?_)
  · have h1 := Real.neg_one_le_cos (-(3 * π / 4))
    have h2 := Real.cos_le_one (-(3 * π / 4))
    exact Itv.mem_icc.mpr ⟨by linarith, by linarith⟩
  · have h1 := Real.neg_one_le_sin (-(3 * π / 4))
    have h2 := Real.sin_le_one (-(3 * π / 4))
    exact Itv.mem_icc.mpr ⟨by linarith, by linarith⟩
  · exact (Real.sin_neg_of_neg_of_neg_pi_lt (by linarith) (by linarith)).ne

end Codac.Props
