import Verif.Ctc.Geometry
import Mathlib.Analysis.SpecialFunctions.Complex.Arg
import Mathlib.Analysis.Complex.Convex

/-!
# `PdcInPolygon` and `SepPolygon`

Models `/repo/src/core/geometry/codac_PdcInPolygon.cpp` and `codac_SepPolygon.cpp`. A point of the plane is a complex number.
-/

set_option linter.unusedSectionVars false

namespace Codac
namespace InPoly

open Complex (arg)

/-- an oriented segment, from `a` to `b` -/
structure Seg where
  a : ℂ
  b : ℂ

/-- the segments of a polygon given by its vertices, `PdcInPolygon(vertices)`, codac_PdcInPolygon.cpp:29-40, and
`segment_ctc_list(vertices)`, codac_SepPolygon.cpp:44-56 -/
noncomputable def segsOf (v : List ℂ) : List Seg :=
  (List.range v.length).map fun i => ⟨v.getD (i % v.length) 0, v.getD ((i + 1) % v.length) 0⟩

/-- what is assumed of IBEX: the functions of intervals used by the predicate; `Interval::mid()` is a number of the interval -/
structure Ops where
  S : SqrOps
  div : Itv ℝ → Itv ℝ → Itv ℝ
  /-- `atan2(y, x)` -/
  atan2 : Itv ℝ → Itv ℝ → Itv ℝ
  pi : Itv ℝ
  mid : Itv ℝ → ℝ
  div_mem : ∀ {X Y : Itv ℝ} {x y : ℝ}, x ∈ X → y ∈ Y → y ≠ 0 → x / y ∈ div X Y
  atan2_mem : ∀ {X Y : Itv ℝ} {x y : ℝ}, x ∈ X → y ∈ Y → (x ≠ 0 ∨ y ≠ 0) → arg ⟨x, y⟩ ∈ atan2 Y X
  pi_mem : Real.pi ∈ pi
  mid_mem : ∀ {X : Itv ℝ}, X ≠ ⊥ → mid X ∈ X

variable (O : Ops)

/-- `argument`, codac_PdcInPolygon.cpp:51-64 -/
noncomputable def argument (mx my : Itv ℝ) (s : Seg) : Itv ℝ :=
  let A := O.S.A
  let max_ := A.sub (Itv.point s.a.re) mx
  let may := A.sub (Itv.point s.a.im) my
  let mbx := A.sub (Itv.point s.b.re) mx
  let mby := A.sub (Itv.point s.b.im) my
  let na := O.S.sqrt (A.add (O.S.sqr max_) (O.S.sqr may))
  let nb := O.S.sqrt (A.add (O.S.sqr mbx) (O.S.sqr mby))
  let cosT := O.div (A.add (A.mul max_ mbx) (A.mul may mby)) (A.mul na nb)
  let sinT := O.div (A.sub (A.mul max_ mby) (A.mul may mbx)) (A.mul na nb)
  O.atan2 sinT cosT

/-- the loop of `PdcInPolygon::test`, codac_PdcInPolygon.cpp:74-77 -/
noncomputable def theta (segs : List Seg) (mx my : Itv ℝ) : Itv ℝ :=
  segs.foldl (fun th s => O.S.A.add th (argument O mx my s)) (Itv.point 0)

/-- `ibex::BoolInterval` -/
inductive Answer where
  | yes | no | maybe
  deriving DecidableEq

open Classical in
/-- the choice of the answer, codac_PdcInPolygon.cpp:81-92 -/
noncomputable def answer (th : Itv ℝ) : Answer :=
  if ¬ (0 : ℝ) ∈ th then .yes
  else if (th ⊓ O.S.A.mul (Itv.point 2) O.pi).isEmpty = true ∧ (0 : ℝ) ∈ th then .no
  else .maybe

/-- `PdcInPolygon::test`, codac_PdcInPolygon.cpp:69-93 -/
noncomputable def test (segs : List Seg) (x : Itv ℝ × Itv ℝ) : Answer :=
  answer O (theta O segs (Itv.point (O.mid x.1)) (Itv.point (O.mid x.2)))

/-- the middle of a box -/
noncomputable def midPt (x : Itv ℝ × Itv ℝ) : ℂ := ⟨O.mid x.1, O.mid x.2⟩

/-- hull of two boxes -/
noncomputable def hull (a b : Itv ℝ × Itv ℝ) : Itv ℝ × Itv ℝ := (a.1 ⊔ b.1, a.2 ⊔ b.2)

/-- a box of dimension two as a pair -/
noncomputable def toPair : Box ℝ → Itv ℝ × Itv ℝ
  | [u, v] => (u, v)
  | _ => (⊥, ⊥)  -- not reachable: boxes of dimension two

/-- `CtcSegment(ax, ay, bx, by)` on the box `x`, built in codac_SepPolygon.cpp:29, 38 and 48-53 -/
noncomputable def segCtc (ctcF ctcG : Box ℝ → Box ℝ) (s : Seg) (x : Itv ℝ × Itv ℝ) : Itv ℝ × Itv ℝ :=
  toPair (segContract2 ctcF ctcG s.a.re s.a.im s.b.re s.b.im [x.1, x.2])

/-- `CtcUnion` of the contractors on the segments, codac_SepPolygon.cpp:64-77; the union starts from the empty box (IBEX) -/
noncomputable def border (ctcF ctcG : Box ℝ → Box ℝ) (segs : List Seg) (x : Itv ℝ × Itv ℝ) : Itv ℝ × Itv ℝ :=
  segs.foldl (fun r s => hull r (segCtc ctcF ctcG s x)) (⊥, ⊥)

/-- one removed box in `SepBoundaryCtc::separate` (IBEX): added to the box of the side where it cannot be classified away -/
noncomputable def classify (segs : List Seg) (r : (Itv ℝ × Itv ℝ) × (Itv ℝ × Itv ℝ)) (b : Itv ℝ × Itv ℝ) :
    (Itv ℝ × Itv ℝ) × (Itv ℝ × Itv ℝ) :=
  match test O segs b with
  | .yes => (r.1, hull r.2 b)
  | .no => (hull r.1 b, r.2)
  | .maybe => (hull r.1 b, hull r.2 b)

/-- `SepPolygon::separate`, inherited from `ibex::SepBoundaryCtc` (codac_SepPolygon.h:64; IBEX, as its documentation says: "the
contractor on the border is called and a test is used to classify each removed part into x_in and x_out", codac_SepPolygon.h:57-58).
`diff x y`: the boxes of `x \ y` (IBEX). The result is `(x_in, x_out)`. -/
noncomputable def separate (ctcF ctcG : Box ℝ → Box ℝ)
    (diff : Itv ℝ × Itv ℝ → Itv ℝ × Itv ℝ → List (Itv ℝ × Itv ℝ)) (segs : List Seg) (x : Itv ℝ × Itv ℝ) :
    (Itv ℝ × Itv ℝ) × (Itv ℝ × Itv ℝ) :=
  let y := border ctcF ctcG segs x
  (diff x y).foldl (classify O segs) (y, y)

/-! ### Proofs -/

/-- the oriented angle under which `z` sees the segment -/
noncomputable def angle (s : Seg) (z : ℂ) : ℝ := arg ((s.b - z) / (s.a - z))

/-- sum of the oriented angles -/
noncomputable def total (segs : List Seg) (z : ℂ) : ℝ := (segs.map fun s => angle s z).sum

/-- the point is on one of the segments -/
def OnBorder (segs : List Seg) (z : ℂ) : Prop := ∃ s ∈ segs, z ∈ segment ℝ s.a s.b

/-- the point is in the box -/
def In (z : ℂ) (x : Itv ℝ × Itv ℝ) : Prop := z.re ∈ x.1 ∧ z.im ∈ x.2

theorem ne_a {s : Seg} {z : ℂ} (h : z ∉ segment ℝ s.a s.b) : s.a - z ≠ 0 := by
  intro h0
  rw [sub_eq_zero] at h0
  exact h (h0 ▸ left_mem_segment ℝ s.a s.b)

theorem ne_b {s : Seg} {z : ℂ} (h : z ∉ segment ℝ s.a s.b) : s.b - z ≠ 0 := by
  intro h0
  rw [sub_eq_zero] at h0
  exact h (h0 ▸ right_mem_segment ℝ s.a s.b)

theorem slit {s : Seg} {z : ℂ} (h : z ∉ segment ℝ s.a s.b) : (s.b - z) / (s.a - z) ∈ Complex.slitPlane := by
  have ha := ne_a h
  rw [Complex.mem_slitPlane_iff]
  by_contra hc
  push Not at hc
  obtain ⟨h1, h2⟩ := hc
  set w := (s.b - z) / (s.a - z) with hw
  have hw' : w = ((w.re : ℝ) : ℂ) := Complex.ext (by simp) (by simp [h2])
  have hb : s.b - z = (w.re : ℂ) * (s.a - z) := by
    rw [← hw', hw]; field_simp
  apply h
  have hr : 0 < 1 - w.re := by linarith
  refine ⟨-w.re / (1 - w.re), 1 / (1 - w.re), by apply div_nonneg <;> linarith, by positivity, by field_simp; ring, ?_⟩
  have hr' : (1 - (w.re : ℂ)) ≠ 0 := by
    have : ((1 - w.re : ℝ) : ℂ) ≠ 0 := by exact_mod_cast hr.ne'
    simpa using this
  rw [Complex.real_smul, Complex.real_smul]
  push_cast
  field_simp
  linear_combination hb

theorem angle_continuousAt {s : Seg} {z : ℂ} (h : z ∉ segment ℝ s.a s.b) : ContinuousAt (angle s) z := by
  unfold angle
  have h1 : ContinuousAt (fun z : ℂ => (s.b - z) / (s.a - z)) z :=
    (continuousAt_const.sub continuousAt_id).div (continuousAt_const.sub continuousAt_id) (ne_a h)
  exact ContinuousAt.comp (f := fun z : ℂ => (s.b - z) / (s.a - z)) (Complex.continuousAt_arg (slit h)) h1

theorem total_continuousAt (segs : List Seg) {z : ℂ} (h : ¬ OnBorder segs z) : ContinuousAt (total segs) z := by
  induction segs with
  | nil => unfold total; simpa using continuousAt_const
  | cons s l ih =>
    have h1 : z ∉ segment ℝ s.a s.b := fun hs => h ⟨s, by simp, hs⟩
    have h2 : ¬ OnBorder l z := fun ⟨t, ht, hz⟩ => h ⟨t, by simp [ht], hz⟩
    have : total (s :: l) = fun z => angle s z + total l z := by
      funext z; simp [total]
    rw [this]
    exact (angle_continuousAt h1).add (ih h2)

/-- the segments are those of closed polygons, in any order -/
def Closed (segs : List Seg) : Prop := ∃ vs : List (List ℂ), segs.Perm (vs.map segsOf).flatten

theorem prod_segs (v : List ℂ) (z : ℂ) (h : ∀ i < v.length, v.getD i 0 - z ≠ 0) :
    ((segsOf v).map fun s => (s.b - z) / (s.a - z)).prod = 1 := by
  by_cases h0 : v.length = 0
  · simp [segsOf, h0]
  have key : ∀ n, ((List.range n).map fun i => (v.getD ((i + 1) % v.length) 0 - z) / (v.getD (i % v.length) 0 - z)).prod
      = (v.getD (n % v.length) 0 - z) / (v.getD (0 % v.length) 0 - z) := by
    intro n
    induction n with
    | zero =>
      simp only [List.range_zero, List.map_nil, List.prod_nil]
      rw [div_self]
      exact h _ (Nat.mod_lt _ (by omega))
    | succ n ih =>
      rw [List.range_succ, List.map_append, List.prod_append, ih]
      simp only [List.map_cons, List.map_nil, List.prod_cons, List.prod_nil, mul_one]
      have h1 := h (n % v.length) (Nat.mod_lt _ (by omega))
      have h2 := h (0 % v.length) (Nat.mod_lt _ (by omega))
      field_simp
  have := key v.length
  rw [Nat.mod_self, Nat.zero_mod, div_self (h 0 (by omega))] at this
  rw [← this]
  unfold segsOf
  rw [List.map_map]
  rfl

theorem exp_total (segs : List Seg) (z : ℂ) (h : ¬ OnBorder segs z) :
    ∃ r : ℝ, 0 < r ∧ (r : ℂ) * Complex.exp (total segs z * Complex.I) = (segs.map fun s => (s.b - z) / (s.a - z)).prod := by
  induction segs with
  | nil => exact ⟨1, one_pos, by simp [total]⟩
  | cons s l ih =>
    have h1 : z ∉ segment ℝ s.a s.b := fun hs => h ⟨s, by simp, hs⟩
    have h2 : ¬ OnBorder l z := fun ⟨t, ht, hz⟩ => h ⟨t, by simp [ht], hz⟩
    obtain ⟨r, hr, he⟩ := ih h2
    set w := (s.b - z) / (s.a - z) with hw
    have hw0 : w ≠ 0 := div_ne_zero (ne_b h1) (ne_a h1)
    refine ⟨‖w‖ * r, mul_pos (norm_pos_iff.2 hw0) hr, ?_⟩
    have ht : total (s :: l) z = arg w + total l z := by simp [total, angle, hw]
    rw [ht, List.map_cons, List.prod_cons, ← he]
    conv_rhs => rw [← hw, ← Complex.norm_mul_exp_arg_mul_I w]
    push_cast
    rw [add_mul, Complex.exp_add]
    ring

theorem prod_closed {segs : List Seg} (hc : Closed segs) {z : ℂ} (h : ¬ OnBorder segs z) :
    (segs.map fun s => (s.b - z) / (s.a - z)).prod = 1 := by
  obtain ⟨vs, hp⟩ := hc
  have h' : ∀ v ∈ vs, ∀ s ∈ segsOf v, z ∉ segment ℝ s.a s.b := fun v hv s hs hz =>
    h ⟨s, hp.mem_iff.2 (List.mem_flatten.2 ⟨_, List.mem_map.2 ⟨v, hv, rfl⟩, hs⟩), hz⟩
  rw [(hp.map _).prod_eq]
  clear hp h
  induction vs with
  | nil => simp
  | cons v vs ih =>
    rw [List.map_cons, List.flatten_cons, List.map_append, List.prod_append, ih fun v' hv' => h' v' (by simp [hv']), mul_one]
    refine prod_segs v z fun i hi => ?_
    have : (⟨v.getD (i % v.length) 0, v.getD ((i + 1) % v.length) 0⟩ : Seg) ∈ segsOf v :=
      List.mem_map.2 ⟨i, List.mem_range.2 hi, rfl⟩
    have := ne_a (h' v (by simp) _ this)
    rwa [Nat.mod_eq_of_lt hi] at this

/-- the sum of the angles around closed polygons is a multiple of `2π` -/
theorem total_int {segs : List Seg} (hc : Closed segs) {z : ℂ} (h : ¬ OnBorder segs z) : ∃ k : ℤ, total segs z = k * (2 * Real.pi) := by
  obtain ⟨r, hr, he⟩ := exp_total _ z h
  rw [prod_closed hc h] at he
  have hn : ‖(r : ℂ) * Complex.exp (total segs z * Complex.I)‖ = 1 := by rw [he]; simp
  rw [norm_mul, Complex.norm_exp_ofReal_mul_I, mul_one, Complex.norm_real, Real.norm_of_nonneg hr.le] at hn
  rw [hn] at he
  simp only [Complex.ofReal_one, one_mul] at he
  obtain ⟨k, hk⟩ := Complex.exp_eq_one_iff.1 he
  refine ⟨k, ?_⟩
  have : (total segs z : ℂ) = ((k * (2 * Real.pi) : ℝ) : ℂ) := by
    have hI := Complex.I_ne_zero
    apply mul_right_cancel₀ hI
    rw [hk]; push_cast; ring
  exact_mod_cast this

/-- the sum of the angles is the same at the two ends of a segment that does not cross the border -/
theorem total_const {segs : List Seg} (hc : Closed segs) {p q : ℂ} (h : ∀ z ∈ segment ℝ p q, ¬ OnBorder segs z) :
    total segs p = total segs q := by
  have hcont : ContinuousOn (fun z => total segs z / (2 * Real.pi)) (segment ℝ p q) := fun z hz =>
    ((total_continuousAt segs (h z hz)).div_const _).continuousWithinAt
  have hpc : IsPreconnected (segment ℝ p q) := (convex_segment p q).isPreconnected
  have himg := hpc.image _ hcont
  have h2 : (2 * Real.pi) ≠ 0 := by positivity
  by_contra hne
  have hp := left_mem_segment ℝ p q
  have hq := right_mem_segment ℝ p q
  obtain ⟨kp, hkp⟩ := total_int hc (h p hp)
  obtain ⟨kq, hkq⟩ := total_int hc (h q hq)
  have hk : kp ≠ kq := fun he => hne (by rw [hkp, hkq, he])
  have hsub : ∀ a b : ℤ, a < b → (a : ℝ) ∈ (fun z => total segs z / (2 * Real.pi)) '' segment ℝ p q →
      (b : ℝ) ∈ (fun z => total segs z / (2 * Real.pi)) '' segment ℝ p q → False := by
    intro a b hab ha hb
    have hmid : ((a : ℝ) + 1 / 2) ∈ Set.Icc (a : ℝ) b := by
      have : (a : ℝ) + 1 ≤ b := by exact_mod_cast hab
      constructor <;> linarith
    obtain ⟨z, hz, he⟩ := himg.Icc_subset ha hb hmid
    obtain ⟨k, hk⟩ := total_int hc (h z hz)
    simp only at he
    rw [hk, mul_div_assoc, div_self h2, mul_one] at he
    have h3 : (2 * k : ℝ) = 2 * a + 1 := by linarith
    have h4 : 2 * k = 2 * a + 1 := by exact_mod_cast h3
    omega
  have ep : (kp : ℝ) ∈ (fun z => total segs z / (2 * Real.pi)) '' segment ℝ p q :=
    ⟨p, hp, by simp only; rw [hkp, mul_div_assoc, div_self h2, mul_one]⟩
  have eq : (kq : ℝ) ∈ (fun z => total segs z / (2 * Real.pi)) '' segment ℝ p q :=
    ⟨q, hq, by simp only; rw [hkq, mul_div_assoc, div_self h2, mul_one]⟩
  rcases lt_or_gt_of_ne hk with hl | hl
  · exact hsub _ _ hl ep eq
  · exact hsub _ _ hl eq ep

theorem angle_eq (s : Seg) (z : ℂ) (ha : s.a - z ≠ 0) (hb : s.b - z ≠ 0) :
    angle s z = arg ⟨((s.a.re - z.re) * (s.b.re - z.re) + (s.a.im - z.im) * (s.b.im - z.im)) /
        (√((s.a.re - z.re) ^ 2 + (s.a.im - z.im) ^ 2) * √((s.b.re - z.re) ^ 2 + (s.b.im - z.im) ^ 2)),
      ((s.a.re - z.re) * (s.b.im - z.im) - (s.a.im - z.im) * (s.b.re - z.re)) /
        (√((s.a.re - z.re) ^ 2 + (s.a.im - z.im) ^ 2) * √((s.b.re - z.re) ^ 2 + (s.b.im - z.im) ^ 2))⟩ := by
  have na : √((s.a.re - z.re) ^ 2 + (s.a.im - z.im) ^ 2) = ‖s.a - z‖ := by
    rw [Complex.norm_def, Complex.normSq_apply]; simp [sq]
  have nb : √((s.b.re - z.re) ^ 2 + (s.b.im - z.im) ^ 2) = ‖s.b - z‖ := by
    rw [Complex.norm_def, Complex.normSq_apply]; simp [sq]
  rw [na, nb]
  have pa := norm_pos_iff.2 ha
  have pb := norm_pos_iff.2 hb
  have hr : 0 < ‖s.a - z‖ / ‖s.b - z‖ := by positivity
  unfold angle
  rw [← Complex.arg_real_mul _ hr]
  congr 1
  have hn : (s.a.re - z.re) * (s.a.re - z.re) + (s.a.im - z.im) * (s.a.im - z.im) = ‖s.a - z‖ * ‖s.a - z‖ := by
    rw [Complex.norm_mul_self_eq_normSq, Complex.normSq_apply]; simp
  have hq : (s.b - z) / (s.a - z) = (s.b - z) * (starRingEnd ℂ) (s.a - z) * ((‖s.a - z‖ * ‖s.a - z‖ : ℝ) : ℂ)⁻¹ := by
    rw [div_eq_mul_inv, Complex.inv_def, Complex.normSq_eq_norm_sq, sq]
    push_cast; ring
  rw [hq, ← Complex.ofReal_inv]
  apply Complex.ext
  · rw [Complex.re_ofReal_mul, Complex.re_mul_ofReal]
    simp only [Complex.mul_re, Complex.conj_re, Complex.conj_im, Complex.sub_re, Complex.sub_im]
    field_simp
    ring
  · rw [Complex.im_ofReal_mul, Complex.im_mul_ofReal]
    simp only [Complex.mul_im, Complex.conj_re, Complex.conj_im, Complex.sub_re, Complex.sub_im]
    field_simp
    ring

theorem argument_mem (s : Seg) (z : ℂ) (h : z ∉ segment ℝ s.a s.b) :
    angle s z ∈ argument O (Itv.point z.re) (Itv.point z.im) s := by
  have ha := ne_a h
  have hb := ne_b h
  rw [angle_eq s z ha hb]
  have pa : 0 < √((s.a.re - z.re) ^ 2 + (s.a.im - z.im) ^ 2) := by
    apply Real.sqrt_pos.2
    by_contra hc
    apply ha
    apply Complex.ext <;> simp only [Complex.sub_re, Complex.sub_im, Complex.zero_re, Complex.zero_im] <;> nlinarith [sq_nonneg (s.a.re - z.re), sq_nonneg (s.a.im - z.im)]
  have pb : 0 < √((s.b.re - z.re) ^ 2 + (s.b.im - z.im) ^ 2) := by
    apply Real.sqrt_pos.2
    by_contra hc
    apply hb
    apply Complex.ext <;> simp only [Complex.sub_re, Complex.sub_im, Complex.zero_re, Complex.zero_im] <;> nlinarith [sq_nonneg (s.b.re - z.re), sq_nonneg (s.b.im - z.im)]
  have m1 := O.S.A.sub_mem (Itv.mem_point.2 (rfl : s.a.re = s.a.re)) (Itv.mem_point.2 (rfl : z.re = z.re))
  have m2 := O.S.A.sub_mem (Itv.mem_point.2 (rfl : s.a.im = s.a.im)) (Itv.mem_point.2 (rfl : z.im = z.im))
  have m3 := O.S.A.sub_mem (Itv.mem_point.2 (rfl : s.b.re = s.b.re)) (Itv.mem_point.2 (rfl : z.re = z.re))
  have m4 := O.S.A.sub_mem (Itv.mem_point.2 (rfl : s.b.im = s.b.im)) (Itv.mem_point.2 (rfl : z.im = z.im))
  have n1 := O.S.sqrt_mem (O.S.A.add_mem (O.S.sqr_mem m1) (O.S.sqr_mem m2)) (by positivity)
  have n2 := O.S.sqrt_mem (O.S.A.add_mem (O.S.sqr_mem m3) (O.S.sqr_mem m4)) (by positivity)
  have np := O.S.A.mul_mem n1 n2
  have hne := (mul_pos pa pb).ne'
  refine O.atan2_mem (O.div_mem (O.S.A.add_mem (O.S.A.mul_mem m1 m3) (O.S.A.mul_mem m2 m4)) np hne)
    (O.div_mem (O.S.A.sub_mem (O.S.A.mul_mem m1 m4) (O.S.A.mul_mem m2 m3)) np hne) ?_
  by_contra hc
  push Not at hc
  obtain ⟨h1, h2⟩ := hc
  rw [div_eq_zero_iff, or_iff_left hne] at h1 h2
  apply pa.ne'
  rw [Real.sqrt_eq_zero (by positivity)]
  have : ((s.a.re - z.re) ^ 2 + (s.a.im - z.im) ^ 2) * ((s.b.re - z.re) ^ 2 + (s.b.im - z.im) ^ 2) = 0 := by
    linear_combination ((s.a.re - z.re) * (s.b.re - z.re) + (s.a.im - z.im) * (s.b.im - z.im)) * h1 +
      ((s.a.re - z.re) * (s.b.im - z.im) - (s.a.im - z.im) * (s.b.re - z.re)) * h2
  rcases mul_eq_zero.1 this with h3 | h3
  · exact h3
  · exact absurd h3 (Real.sqrt_pos.1 pb).ne'

theorem theta_mem (segs : List Seg) (z : ℂ) (h : ¬ OnBorder segs z) :
    total segs z ∈ theta O segs (Itv.point z.re) (Itv.point z.im) := by
  have key : ∀ (l : List Seg) (th : Itv ℝ) (t : ℝ), t ∈ th → (∀ s ∈ l, z ∉ segment ℝ s.a s.b) →
      t + total l z ∈ l.foldl (fun th s => O.S.A.add th (argument O (Itv.point z.re) (Itv.point z.im) s)) th := by
    intro l
    induction l with
    | nil => intro th t ht _; simpa [total] using ht
    | cons s l ih =>
      intro th t ht hl
      have := ih _ _ (O.S.A.add_mem ht (argument_mem O s z (hl s (by simp)))) fun s' hs' => hl s' (by simp [hs'])
      simp only [total, List.map_cons, List.sum_cons, List.foldl_cons] at this ⊢
      rwa [add_assoc] at this
  have := key segs (Itv.point 0) 0 (Itv.mem_point.2 rfl) fun s hs hz => h ⟨s, hs, hz⟩
  simpa [theta] using this

/-- the answer `yes` at a point off the border -/
theorem test_yes {segs : List Seg} {x : Itv ℝ × Itv ℝ} (ht : test O segs x = .yes) (h : ¬ OnBorder segs (midPt O x)) :
    total segs (midPt O x) ≠ 0 := by
  intro h0
  have hm := theta_mem O segs (midPt O x) h
  rw [h0] at hm
  simp only [midPt] at hm
  unfold test answer at ht
  rw [if_neg (not_not.2 hm)] at ht
  split at ht <;> cases ht

/-- the answer `no` at a point off the border -/
theorem test_no {segs : List Seg} {x : Itv ℝ × Itv ℝ} (ht : test O segs x = .no) (h : ¬ OnBorder segs (midPt O x)) :
    total segs (midPt O x) ≠ 2 * Real.pi := by
  intro h0
  have hm := theta_mem O segs (midPt O x) h
  rw [h0] at hm
  simp only [midPt] at hm
  unfold test answer at ht
  split at ht
  · cases ht
  · split at ht
    · rename_i h1
      have h2 := Itv.isEmpty_iff.1 h1.1
      have : (2 * Real.pi) ∈ theta O segs (Itv.point (O.mid x.1)) (Itv.point (O.mid x.2)) ⊓ O.S.A.mul (Itv.point 2) O.pi :=
        Itv.mem_inf.2 ⟨hm, O.S.A.mul_mem (Itv.mem_point.2 rfl) O.pi_mem⟩
      rw [h2] at this
      exact Itv.not_mem_bot _ this
    · cases ht

/-- what is assumed of the boxes of `x \\ y` computed by IBEX: together with `y` they cover `x`; the box `y` touches each of them
at most by one of its four sides, and the middle of the box is not on this side -/
structure DiffSpec (diff : Itv ℝ × Itv ℝ → Itv ℝ × Itv ℝ → List (Itv ℝ × Itv ℝ)) : Prop where
  cover : ∀ x y z, In z x → In z y ∨ ∃ b ∈ diff x y, In z b
  sub : ∀ x y, ∀ b ∈ diff x y, b.1 ≤ x.1 ∧ b.2 ≤ x.2
  side : ∀ x y, ∀ b ∈ diff x y, (∀ z, In z b → ¬ In z y) ∨ ∃ c ∈ [fun z : ℂ => z.re, fun z => -z.re, fun z => z.im, fun z => -z.im], ∃ v : ℝ,
    (∀ z, In z b → c z ≤ v) ∧ (∀ z, In z b → In z y → c z = v) ∧ c (midPt O b) < v

theorem in_segment {x : Itv ℝ × Itv ℝ} {p q z : ℂ} (hp : In p x) (hq : In q x) (hz : z ∈ segment ℝ p q) : In z x := by
  obtain ⟨a, c, ha, hc, h1, rfl⟩ := hz
  have key : ∀ (X : Itv ℝ) (u v : ℝ), u ∈ X → v ∈ X → a * u + c * v ∈ X := by
    intro X u v hu hv
    obtain rfl : a = 1 - c := by linarith
    rcases le_total u v with h | h
    · exact Itv.mem_of_between hu hv (by nlinarith) (by nlinarith)
    · exact Itv.mem_of_between hv hu (by nlinarith) (by nlinarith)
  constructor
  · have := key x.1 p.re q.re hp.1 hq.1
    simpa using this
  · have := key x.2 p.im q.im hp.2 hq.2
    simpa using this

theorem in_hull_left {z : ℂ} {a : Itv ℝ × Itv ℝ} (b : Itv ℝ × Itv ℝ) (h : In z a) : In z (hull a b) :=
  ⟨Itv.mem_sup_left h.1, Itv.mem_sup_left h.2⟩

theorem in_hull_right {z : ℂ} (a : Itv ℝ × Itv ℝ) {b : Itv ℝ × Itv ℝ} (h : In z b) : In z (hull a b) :=
  ⟨Itv.mem_sup_right h.1, Itv.mem_sup_right h.2⟩

variable {ctcF ctcG : Box ℝ → Box ℝ}

theorem in_toPair {z : ℂ} {X : Box ℝ} (h : InBox [z.re, z.im] X) : In z (toPair X) := by
  cases h with
  | cons h1 h2 =>
    cases h2 with
    | cons h3 h4 =>
      cases h4 with
      | nil => exact ⟨h1, h3⟩

theorem toPair_le {X : Box ℝ} {u v : Itv ℝ} (h : BoxLe X [u, v]) : (toPair X).1 ≤ u ∧ (toPair X).2 ≤ v := by
  cases h with
  | cons h1 h2 =>
    cases h2 with
    | cons h3 h4 =>
      cases h4 with
      | nil => exact ⟨h1, h3⟩

theorem border_le (hF : IsCtc 6 SegSolF ctcF) (hG : IsCtc 6 SegSolG ctcG) (segs : List Seg) (x : Itv ℝ × Itv ℝ) :
    (border ctcF ctcG segs x).1 ≤ x.1 ∧ (border ctcF ctcG segs x).2 ≤ x.2 := by
  have key : ∀ (l : List Seg) (r : Itv ℝ × Itv ℝ), r.1 ≤ x.1 ∧ r.2 ≤ x.2 →
      (l.foldl (fun r s => hull r (segCtc ctcF ctcG s x)) r).1 ≤ x.1 ∧ (l.foldl (fun r s => hull r (segCtc ctcF ctcG s x)) r).2 ≤ x.2 := by
    intro l
    induction l with
    | nil => intro r h; exact h
    | cons s l ih =>
      intro r h
      have := toPair_le (segContract2_le hF hG (X := [x.1, x.2]) rfl s.a.re s.a.im s.b.re s.b.im)
      exact ih _ ⟨sup_le h.1 this.1, sup_le h.2 this.2⟩
  exact key segs _ ⟨bot_le, bot_le⟩

theorem border_keeps (hF : IsCtc 6 SegSolF ctcF) (hG : IsCtc 6 SegSolG ctcG) {segs : List Seg} {x : Itv ℝ × Itv ℝ} {z : ℂ}
    (hz : In z x) (h : OnBorder segs z) : In z (border ctcF ctcG segs x) := by
  have seg : ∀ s : Seg, z ∈ segment ℝ s.a s.b → In z (segCtc ctcF ctcG s x) := by
    intro s hs
    obtain ⟨a, c, ha, hc, h1, he⟩ := hs
    have hon : OnSegment z.re z.im s.a.re s.a.im s.b.re s.b.im := by
      refine ⟨c, hc, by linarith, ?_, ?_⟩
      · rw [← he]; obtain rfl : a = 1 - c := by linarith
        simp; ring
      · rw [← he]; obtain rfl : a = 1 - c := by linarith
        simp; ring
    have := segContract2_keeps hF hG (X := [x.1, x.2]) rfl (.cons hz.1 (.cons hz.2 .nil)) hon
    exact in_toPair this
  have mono : ∀ (l : List Seg) (r : Itv ℝ × Itv ℝ), In z r → In z (l.foldl (fun r s => hull r (segCtc ctcF ctcG s x)) r) := by
    intro l
    induction l with
    | nil => intro r h; exact h
    | cons s l ih => intro r h; exact ih _ (in_hull_left _ h)
  have key : ∀ (l : List Seg) (r : Itv ℝ × Itv ℝ), OnBorder l z → In z (l.foldl (fun r s => hull r (segCtc ctcF ctcG s x)) r) := by
    intro l
    induction l with
    | nil => rintro r ⟨s, hs, _⟩; cases hs
    | cons s l ih =>
      rintro r ⟨t, ht, hzt⟩
      rcases List.mem_cons.1 ht with rfl | ht
      · exact mono l _ (in_hull_right _ (seg t hzt))
      · exact ih _ ⟨t, ht, hzt⟩
  exact key segs _ h

/-- the boxes accumulated by the classification contain what they contained before -/
theorem classify_mono (segs : List Seg) {z : ℂ} (l : List (Itv ℝ × Itv ℝ)) (r : (Itv ℝ × Itv ℝ) × (Itv ℝ × Itv ℝ)) :
    (In z r.1 → In z (l.foldl (classify O segs) r).1) ∧ (In z r.2 → In z (l.foldl (classify O segs) r).2) := by
  induction l generalizing r with
  | nil => exact ⟨id, id⟩
  | cons b l ih =>
    have h1 : (In z r.1 → In z (classify O segs r b).1) ∧ (In z r.2 → In z (classify O segs r b).2) := by
      unfold classify
      split
      · exact ⟨id, in_hull_left _⟩
      · exact ⟨in_hull_left _, id⟩
      · exact ⟨in_hull_left _, in_hull_left _⟩
    exact ⟨fun h => (ih _).1 (h1.1 h), fun h => (ih _).2 (h1.2 h)⟩

theorem classify_in (segs : List Seg) {z : ℂ} {b : Itv ℝ × Itv ℝ} (hz : In z b) (ht : test O segs b ≠ .yes)
    (l : List (Itv ℝ × Itv ℝ)) (hb : b ∈ l) (r : (Itv ℝ × Itv ℝ) × (Itv ℝ × Itv ℝ)) : In z (l.foldl (classify O segs) r).1 := by
  induction l generalizing r with
  | nil => cases hb
  | cons b' l ih =>
    rcases List.mem_cons.1 hb with rfl | hb
    · refine (classify_mono O segs l _).1 ?_
      unfold classify
      split
      · rename_i h; exact absurd h ht
      · exact in_hull_right _ hz
      · exact in_hull_right _ hz
    · exact ih hb _

theorem classify_out (segs : List Seg) {z : ℂ} {b : Itv ℝ × Itv ℝ} (hz : In z b) (ht : test O segs b ≠ .no)
    (l : List (Itv ℝ × Itv ℝ)) (hb : b ∈ l) (r : (Itv ℝ × Itv ℝ) × (Itv ℝ × Itv ℝ)) : In z (l.foldl (classify O segs) r).2 := by
  induction l generalizing r with
  | nil => cases hb
  | cons b' l ih =>
    rcases List.mem_cons.1 hb with rfl | hb
    · refine (classify_mono O segs l _).2 ?_
      unfold classify
      split
      · exact in_hull_right _ hz
      · rename_i h; exact absurd h ht
      · exact in_hull_right _ hz
    · exact ih hb _

theorem In.hull_le {a b x : Itv ℝ × Itv ℝ} (ha : a.1 ≤ x.1 ∧ a.2 ≤ x.2) (hb : b.1 ≤ x.1 ∧ b.2 ≤ x.2) :
    (hull a b).1 ≤ x.1 ∧ (hull a b).2 ≤ x.2 := ⟨sup_le ha.1 hb.1, sup_le ha.2 hb.2⟩

theorem classify_le (segs : List Seg) {x : Itv ℝ × Itv ℝ} (l : List (Itv ℝ × Itv ℝ)) (hl : ∀ b ∈ l, b.1 ≤ x.1 ∧ b.2 ≤ x.2)
    (r : (Itv ℝ × Itv ℝ) × (Itv ℝ × Itv ℝ)) (h1 : r.1.1 ≤ x.1 ∧ r.1.2 ≤ x.2) (h2 : r.2.1 ≤ x.1 ∧ r.2.2 ≤ x.2) :
    ((l.foldl (classify O segs) r).1.1 ≤ x.1 ∧ (l.foldl (classify O segs) r).1.2 ≤ x.2) ∧
    ((l.foldl (classify O segs) r).2.1 ≤ x.1 ∧ (l.foldl (classify O segs) r).2.2 ≤ x.2) := by
  induction l generalizing r with
  | nil => exact ⟨h1, h2⟩
  | cons b l ih =>
    have hb := hl b (by simp)
    have hl' : ∀ b ∈ l, b.1 ≤ x.1 ∧ b.2 ≤ x.2 := fun b hb => hl b (by simp [hb])
    simp only [List.foldl_cons]
    apply ih hl'
    · unfold classify
      split
      · exact h1
      · exact In.hull_le h1 hb
      · exact In.hull_le h1 hb
    · unfold classify
      split
      · exact In.hull_le h2 hb
      · exact h2
      · exact In.hull_le h2 hb

/-- a point of a removed box sees the same angle as the middle of the box -/
theorem removed_const (hF : IsCtc 6 SegSolF ctcF) (hG : IsCtc 6 SegSolG ctcG)
    {diff : Itv ℝ × Itv ℝ → Itv ℝ × Itv ℝ → List (Itv ℝ × Itv ℝ)} (hd : DiffSpec O diff) {segs : List Seg} (hc : Closed segs)
    {x : Itv ℝ × Itv ℝ} {b : Itv ℝ × Itv ℝ} (hb : b ∈ diff x (border ctcF ctcG segs x)) {z : ℂ} (hz : In z b)
    (hy : ¬ In z (border ctcF ctcG segs x)) :
    ¬ OnBorder segs (midPt O b) ∧ total segs z = total segs (midPt O b) := by
  have hm : In (midPt O b) b := ⟨O.mid_mem (Itv.ne_bot_of_mem hz.1), O.mid_mem (Itv.ne_bot_of_mem hz.2)⟩
  have off : ∀ w ∈ segment ℝ z (midPt O b), ¬ OnBorder segs w := by
    intro w hw hon
    have hwb := in_segment hz hm hw
    have hwy := border_keeps hF hG ⟨Itv.mem_of_le (hd.sub _ _ b hb).1 hwb.1, Itv.mem_of_le (hd.sub _ _ b hb).2 hwb.2⟩ hon
    rcases hd.side _ _ b hb with hn | ⟨c, hcm, v, h1, h2, h3⟩
    · exact hn w hwb hwy
    have hlin : ∀ (p q : ℂ) (a d : ℝ), c (a • p + d • q) = a * c p + d * c q := by
      intro p q a d
      simp only [List.mem_cons, List.not_mem_nil, or_false] at hcm
      rcases hcm with rfl | rfl | rfl | rfl <;> simp <;> ring
    have hcw := h2 w hwb hwy
    obtain ⟨a, d, ha, hd', had, rfl⟩ := hw
    rw [hlin] at hcw
    have h4 := h1 z hz
    obtain rfl : a = 1 - d := by linarith
    rcases hd'.eq_or_lt with h0 | h0
    · subst h0
      apply hy
      simpa using hwy
    · nlinarith
  exact ⟨off _ (right_mem_segment ℝ _ _), total_const hc off⟩

/-- seen from a point from which all the vertices are on the same side, the sum of the angles is zero -/
theorem total_far (v : List ℂ) (z u : ℂ) (h : ∀ p ∈ v, 0 < ((p - z) * u).re) : total (segsOf v) z = 0 := by
  by_cases h0 : v.length = 0
  · simp [total, segsOf, h0]
  have hg : ∀ i, 0 < ((v.getD (i % v.length) 0 - z) * u).re := by
    intro i
    have hi : i % v.length < v.length := Nat.mod_lt _ (by omega)
    rw [List.getD_eq_getElem?_getD, List.getElem?_eq_getElem hi, Option.getD_some]
    exact h _ (List.getElem_mem hi)
  have hu : u ≠ 0 := by
    rintro rfl
    have := hg 0
    simp at this
  have two : ∀ p q : ℂ, 0 < (p * u).re → 0 < (q * u).re → arg (q / p) = arg (q * u) - arg (p * u) := by
    intro p q hp hq
    have hp0 : p * u ≠ 0 := by intro h; rw [h] at hp; simp at hp
    have hq0 : q * u ≠ 0 := by intro h; rw [h] at hq; simp at hq
    have e : q / p = (q * u) / (p * u) := by rw [mul_div_mul_right _ _ hu]
    have ap := Complex.abs_arg_lt_pi_div_two_iff.2 (Or.inl hp)
    have aq := Complex.abs_arg_lt_pi_div_two_iff.2 (Or.inl hq)
    rw [abs_lt] at ap aq
    have := Complex.arg_div_coe_angle hq0 hp0
    rw [e]
    have h2 : (arg (q * u / (p * u)) : Real.Angle) = ((arg (q * u) - arg (p * u) : ℝ) : Real.Angle) := by
      rw [this]; simp
    have h3 : (((arg (q * u) - arg (p * u) : ℝ) : Real.Angle)).toReal = arg (q * u) - arg (p * u) :=
      Real.Angle.toReal_coe_eq_self_iff.2 ⟨by linarith, by linarith⟩
    rw [← h3, ← h2, Complex.arg_coe_angle_toReal_eq_arg]
  have key : ∀ n, ((List.range n).map fun i => arg ((v.getD ((i + 1) % v.length) 0 - z) / (v.getD (i % v.length) 0 - z))).sum
      = arg ((v.getD (n % v.length) 0 - z) * u) - arg ((v.getD (0 % v.length) 0 - z) * u) := by
    intro n
    induction n with
    | zero => simp
    | succ n ih =>
      rw [List.range_succ, List.map_append, List.sum_append, ih]
      simp only [List.map_cons, List.map_nil, List.sum_cons, List.sum_nil, add_zero]
      rw [two _ _ (hg n) (hg (n + 1))]
      ring
  have := key v.length
  rw [Nat.mod_self, Nat.zero_mod, sub_self] at this
  rw [← this]
  unfold total segsOf
  rw [List.map_map]
  rfl

end InPoly
end Codac
