import Verif.Ctc.HullOps
import Mathlib.Topology.Order.IntermediateValue
import Mathlib.Topology.Algebra.Polynomial
import Mathlib.Data.Sign.Basic

/-!
# `SepDiskExists`

Models `/repo/src/unsupported/geometry/codac_SepDiskExists.cpp`: the points at a distance in `[rho]` of some point of the box `[x0]×[y0]`.
-/

set_option linter.unusedSectionVars false

namespace Codac.Disk
open Codac Real

/-- what is assumed of the IBEX functions that the separator calls: each backward function keeps the solutions of its relation -/
structure Ops where
  S : SqrOps
  min : Itv ℝ → Itv ℝ → Itv ℝ
  max : Itv ℝ → Itv ℝ → Itv ℝ
  /-- `chi(a, b, c)`: `b` if `a ≤ 0`, else `c` -/
  chi : Itv ℝ → Itv ℝ → Itv ℝ → Itv ℝ
  bwdAdd : Itv ℝ → Itv ℝ → Itv ℝ → Itv ℝ × Itv ℝ
  bwdSub : Itv ℝ → Itv ℝ → Itv ℝ → Itv ℝ × Itv ℝ
  bwdMul : Itv ℝ → Itv ℝ → Itv ℝ → Itv ℝ × Itv ℝ
  bwdMin : Itv ℝ → Itv ℝ → Itv ℝ → Itv ℝ × Itv ℝ
  bwdMax : Itv ℝ → Itv ℝ → Itv ℝ → Itv ℝ × Itv ℝ
  bwdSign : Itv ℝ → Itv ℝ → Itv ℝ
  min_mem : ∀ {X Y : Itv ℝ} {x y : ℝ}, x ∈ X → y ∈ Y → x ⊓ y ∈ min X Y
  max_mem : ∀ {X Y : Itv ℝ} {x y : ℝ}, x ∈ X → y ∈ Y → x ⊔ y ∈ max X Y
  chi_mem : ∀ {A B C : Itv ℝ} {a b c : ℝ}, a ∈ A → b ∈ B → c ∈ C → (if a ≤ 0 then b else c) ∈ chi A B C
  bwdAdd_mem : ∀ {Z X Y : Itv ℝ} {x y : ℝ}, x ∈ X → y ∈ Y → x + y ∈ Z → x ∈ (bwdAdd Z X Y).1 ∧ y ∈ (bwdAdd Z X Y).2
  bwdSub_mem : ∀ {Z X Y : Itv ℝ} {x y : ℝ}, x ∈ X → y ∈ Y → x - y ∈ Z → x ∈ (bwdSub Z X Y).1 ∧ y ∈ (bwdSub Z X Y).2
  bwdMul_mem : ∀ {Z X Y : Itv ℝ} {x y : ℝ}, x ∈ X → y ∈ Y → x * y ∈ Z → x ∈ (bwdMul Z X Y).1 ∧ y ∈ (bwdMul Z X Y).2
  bwdMin_mem : ∀ {Z X Y : Itv ℝ} {x y : ℝ}, x ∈ X → y ∈ Y → x ⊓ y ∈ Z → x ∈ (bwdMin Z X Y).1 ∧ y ∈ (bwdMin Z X Y).2
  bwdMax_mem : ∀ {Z X Y : Itv ℝ} {x y : ℝ}, x ∈ X → y ∈ Y → x ⊔ y ∈ Z → x ∈ (bwdMax Z X Y).1 ∧ y ∈ (bwdMax Z X Y).2
  bwdSign_mem : ∀ {Y X : Itv ℝ} {x : ℝ}, x ∈ X → ((SignType.sign x : SignType) : ℝ) ∈ Y → x ∈ bwdSign Y X

/-- the attributes of `SepDiskExists`, codac_SepDiskExists.h:44, with finite bounds -/
structure Sep where
  xl : ℝ
  xu : ℝ
  yl : ℝ
  yu : ℝ
  rl : ℝ
  ru : ℝ
  /-- the product of two doubles -/
  dmul : ℝ → ℝ → ℝ

/-- the domains of the expression that depend on one coordinate, codac_SepDiskExists.cpp:52-71 -/
structure Axis where
  A : Itv ℝ
  B : Itv ℝ
  A2 : Itv ℝ
  B2 : Itv ℝ
  BA : Itv ℝ
  mn : Itv ℝ
  mx : Itv ℝ
  S : Itv ℝ
  Z : Itv ℝ

variable (O : Ops)

/-- steps 1-18 for one coordinate, codac_SepDiskExists.cpp:52-71 -/
noncomputable def forward (lo hi : ℝ) (X : Itv ℝ) : Axis :=
  let A := O.S.A.sub X (Itv.point lo)
  let B := O.S.A.sub X (Itv.point hi)
  let A2 := O.S.sqr A
  let B2 := O.S.sqr B
  let BA := O.S.A.mul B A
  let mn := O.min B2 A2
  let mx := O.max B2 A2
  let S := O.chi BA (Itv.point 0) (Itv.point 1)
  let Z := O.S.A.mul S mn
  ⟨A, B, A2, B2, BA, mn, mx, S, Z⟩

/-- the steps back of one coordinate, codac_SepDiskExists.cpp:90-113: the steps of the two coordinates, which do not act on the same domains, are
written one coordinate after the other. `Z` and `mx` are the domains left by `bwd_add`. -/
noncomputable def backward (lo hi : ℝ) (X : Itv ℝ) (a : Axis) (Z mx : Itv ℝ) : Itv ℝ :=
  let p18 := O.bwdMul Z a.S a.mn
  let BA := O.bwdSign p18.1 a.BA
  let p14 := O.bwdMax mx a.B2 a.A2
  let p12 := O.bwdMin p18.2 p14.1 p14.2
  let p11 := O.bwdMul BA a.B a.A
  let B := O.S.bwdSqr p12.1 p11.1
  let A := O.S.bwdSqr p12.2 p11.2
  X ⊓ O.S.A.add B (Itv.point hi) ⊓ O.S.A.add A (Itv.point lo)

namespace Sep
variable (s : Sep)

/-- `SepDiskExists::contract(box, outer)`, codac_SepDiskExists.cpp:48-114 (the trace on `cerr` is left out) -/
noncomputable def contract (b : Itv ℝ × Itv ℝ) (outer : Bool) : Itv ℝ × Itv ℝ :=
  let p3inf := Itv.point (s.dmul s.rl s.rl)
  let p3sup := Itv.point (s.dmul s.ru s.ru)
  let ax := forward O s.xl s.xu b.1
  let ay := forward O s.yl s.yu b.2
  let Z1 := O.S.A.add ax.Z ay.Z
  let Z2 := O.S.A.add ax.mx ay.mx
  let D1 := O.min Z2 p3sup
  let D2 := O.max Z1 p3inf
  let R := (if outer then posReals else negReals) ⊓ O.S.A.sub D1 D2
  let p := O.bwdSub R D1 D2
  let q := O.bwdSub R p.1 p.2
  let Z1' := (O.bwdMax q.2 Z1 p3inf).1
  let Z2' := (O.bwdMin q.1 Z2 p3sup).1
  let mx := O.bwdAdd Z2' ax.mx ay.mx
  let z := O.bwdAdd Z1' ax.Z ay.Z
  (backward O s.xl s.xu b.1 ax z.1 mx.1, backward O s.yl s.yu b.2 ay z.2 mx.2)

/-- `SepDiskExists::separate`, codac_SepDiskExists.cpp:116-125: the new `x_in` and `x_out`. `&=` of IBEX empties a box as a whole. -/
noncomputable def separate (xin xout : Itv ℝ × Itv ℝ) : (Itv ℝ × Itv ℝ) × (Itv ℝ × Itv ℝ) :=
  let inter (a b : Itv ℝ × Itv ℝ) : Itv ℝ × Itv ℝ := if (a.1 ⊓ b.1).isEmpty || (a.2 ⊓ b.2).isEmpty then (⊥, ⊥) else (a.1 ⊓ b.1, a.2 ⊓ b.2)
  let o := inter xout xin
  let i := inter xin o
  (s.contract O i false, s.contract O o true)

end Sep

/-! ### Proofs -/

/-- the square of the distance between `x` and the nearest point of `[lo, hi]`, as computed -/
noncomputable def near2 (lo hi x : ℝ) : ℝ := (if (x - hi) * (x - lo) ≤ 0 then 0 else 1) * ((x - hi) ^ 2 ⊓ (x - lo) ^ 2)

/-- the square of the distance between `x` and the furthest point of `[lo, hi]`, as computed -/
noncomputable def far2 (lo hi x : ℝ) : ℝ := (x - hi) ^ 2 ⊔ (x - lo) ^ 2

theorem near2_le {lo hi x a : ℝ} (h1 : lo ≤ a) (h2 : a ≤ hi) : near2 lo hi x ≤ (x - a) ^ 2 := by
  unfold near2
  split
  · rw [zero_mul]; positivity
  · next c =>
    rw [one_mul]
    push Not at c
    rcases pos_and_pos_or_neg_and_neg_of_mul_pos c with ⟨k1, k2⟩ | ⟨k1, k2⟩
    · exact inf_le_of_left_le (by nlinarith)
    · exact inf_le_of_right_le (by nlinarith)

theorem le_far2 {lo hi x a : ℝ} (h1 : lo ≤ a) (h2 : a ≤ hi) : (x - a) ^ 2 ≤ far2 lo hi x := by
  unfold far2
  rcases le_total x a with c | c
  · exact le_sup_of_le_left (by nlinarith)
  · exact le_sup_of_le_right (by nlinarith)

theorem exists_near2 {lo hi : ℝ} (x : ℝ) (h : lo ≤ hi) : ∃ a, lo ≤ a ∧ a ≤ hi ∧ (x - a) ^ 2 = near2 lo hi x := by
  unfold near2
  split
  · next c =>
    refine ⟨x, ?_, ?_, by ring⟩
    · by_contra k; push Not at k; nlinarith
    · by_contra k; push Not at k; nlinarith
  · rw [one_mul]
    rcases min_choice ((x - hi) ^ 2) ((x - lo) ^ 2) with e | e
    · exact ⟨hi, h, le_rfl, e.symm⟩
    · exact ⟨lo, le_rfl, h, e.symm⟩

theorem exists_far2 {lo hi : ℝ} (x : ℝ) (h : lo ≤ hi) : ∃ a, lo ≤ a ∧ a ≤ hi ∧ (x - a) ^ 2 = far2 lo hi x := by
  unfold far2
  rcases max_choice ((x - hi) ^ 2) ((x - lo) ^ 2) with e | e
  · exact ⟨hi, h, le_rfl, e.symm⟩
  · exact ⟨lo, le_rfl, h, e.symm⟩

/-- every value between the squares of the least and of the greatest distance is reached -/
theorem exists_between {xl xu yl yu x y d : ℝ} (hx : xl ≤ xu) (hy : yl ≤ yu) (h1 : near2 xl xu x + near2 yl yu y ≤ d) (h2 : d ≤ far2 xl xu x + far2 yl yu y) :
    ∃ a b, xl ≤ a ∧ a ≤ xu ∧ yl ≤ b ∧ b ≤ yu ∧ (x - a) ^ 2 + (y - b) ^ 2 = d := by
  obtain ⟨a, a1, a2, ea⟩ := exists_near2 x hx
  obtain ⟨b, b1, b2, eb⟩ := exists_near2 y hy
  obtain ⟨a', a1', a2', ea'⟩ := exists_far2 x hx
  obtain ⟨b', b1', b2', eb'⟩ := exists_far2 y hy
  let f : ℝ → ℝ := fun t => (x - (a + t * (a' - a))) ^ 2 + (y - (b + t * (b' - b))) ^ 2
  have hf : ContinuousOn f (Set.Icc 0 1) := by
    apply Continuous.continuousOn
    fun_prop
  have hd : d ∈ Set.Icc (f 0) (f 1) := by
    refine ⟨?_, ?_⟩
    · show (x - (a + 0 * (a' - a))) ^ 2 + (y - (b + 0 * (b' - b))) ^ 2 ≤ d
      rw [zero_mul, add_zero, zero_mul, add_zero, ea, eb]; exact h1
    · show d ≤ (x - (a + 1 * (a' - a))) ^ 2 + (y - (b + 1 * (b' - b))) ^ 2
      rw [one_mul, add_sub_cancel, one_mul, add_sub_cancel, ea', eb']; exact h2
  obtain ⟨t, ht, e⟩ := intermediate_value_Icc (zero_le_one' ℝ) hf hd
  exact ⟨a + t * (a' - a), b + t * (b' - b), by nlinarith [ht.1, ht.2], by nlinarith [ht.1, ht.2], by nlinarith [ht.1, ht.2], by nlinarith [ht.1, ht.2], e⟩

theorem backward_le (lo hi : ℝ) (X : Itv ℝ) (a : Axis) (Z mx : Itv ℝ) : backward O lo hi X a Z mx ≤ X := inf_le_left.trans inf_le_left

theorem contract_le (s : Sep) (b : Itv ℝ × Itv ℝ) (outer : Bool) : (s.contract O b outer).1 ≤ b.1 ∧ (s.contract O b outer).2 ≤ b.2 :=
  ⟨backward_le .., backward_le ..⟩

theorem forward_near {lo hi x : ℝ} {X : Itv ℝ} (h : x ∈ X) : near2 lo hi x ∈ (forward O lo hi X).Z ∧ far2 lo hi x ∈ (forward O lo hi X).mx := by
  have hA : x - lo ∈ O.S.A.sub X (Itv.point lo) := O.S.A.sub_mem h (Itv.mem_point.mpr rfl)
  have hB : x - hi ∈ O.S.A.sub X (Itv.point hi) := O.S.A.sub_mem h (Itv.mem_point.mpr rfl)
  exact ⟨O.S.A.mul_mem (O.chi_mem (O.S.A.mul_mem hB hA) (Itv.mem_point.mpr rfl) (Itv.mem_point.mpr rfl)) (O.min_mem (O.S.sqr_mem hB) (O.S.sqr_mem hA)),
    O.max_mem (O.S.sqr_mem hB) (O.S.sqr_mem hA)⟩

/-- the steps back of a coordinate keep the values that are not strictly inside the interval -/
theorem backward_keeps {lo hi x : ℝ} {X Z mx : Itv ℝ} (h : x ∈ X) (hs : x ≤ lo ∧ x ≤ hi ∨ lo ≤ x ∧ hi ≤ x) (hZ : near2 lo hi x ∈ Z) (hm : far2 lo hi x ∈ mx) :
    x ∈ backward O lo hi X (forward O lo hi X) Z mx := by
  have hA : x - lo ∈ O.S.A.sub X (Itv.point lo) := O.S.A.sub_mem h (Itv.mem_point.mpr rfl)
  have hB : x - hi ∈ O.S.A.sub X (Itv.point hi) := O.S.A.sub_mem h (Itv.mem_point.mpr rfl)
  have hBA := O.S.A.mul_mem hB hA
  have hS := O.chi_mem hBA (Itv.mem_point.mpr (rfl : (0 : ℝ) = 0)) (Itv.mem_point.mpr (rfl : (1 : ℝ) = 1))
  have hmn := O.min_mem (O.S.sqr_mem hB) (O.S.sqr_mem hA)
  unfold backward
  extract_lets p18 BA p14 p12 p11 B A
  have k18 : (if (x - hi) * (x - lo) ≤ 0 then (0 : ℝ) else 1) ∈ p18.1 ∧ (x - hi) ^ 2 ⊓ (x - lo) ^ 2 ∈ p18.2 := O.bwdMul_mem hS hmn hZ
  have hpos : 0 ≤ (x - hi) * (x - lo) := by
    rcases hs with ⟨c1, c2⟩ | ⟨c1, c2⟩ <;> nlinarith
  have kBA : (x - hi) * (x - lo) ∈ BA := by
    refine O.bwdSign_mem hBA ?_
    have e : ((SignType.sign ((x - hi) * (x - lo)) : SignType) : ℝ) = if (x - hi) * (x - lo) ≤ 0 then (0 : ℝ) else 1 := by
      split
      · next c => rw [le_antisymm c hpos]; simp
      · next c => rw [sign_pos (not_le.mp c)]; simp
    rw [e]
    exact k18.1
  have k14 : (x - hi) ^ 2 ∈ p14.1 ∧ (x - lo) ^ 2 ∈ p14.2 := O.bwdMax_mem (O.S.sqr_mem hB) (O.S.sqr_mem hA) hm
  have k12 : (x - hi) ^ 2 ∈ p12.1 ∧ (x - lo) ^ 2 ∈ p12.2 := O.bwdMin_mem k14.1 k14.2 k18.2
  have k11 : x - hi ∈ p11.1 ∧ x - lo ∈ p11.2 := O.bwdMul_mem hB hA kBA
  have kB : x - hi ∈ B := O.S.bwdSqr_mem k11.1 k12.1
  have kA : x - lo ∈ A := O.S.bwdSqr_mem k11.2 k12.2
  refine Itv.mem_inf.mpr ⟨Itv.mem_inf.mpr ⟨h, ?_⟩, ?_⟩
  · have := O.S.A.add_mem kB (Itv.mem_point.mpr (rfl : hi = hi))
    rwa [sub_add_cancel] at this
  · have := O.S.A.add_mem kA (Itv.mem_point.mpr (rfl : lo = lo))
    rwa [sub_add_cancel] at this

/-- the contraction keeps the points with the right sign -/
theorem contract_keeps (s : Sep) {b : Itv ℝ × Itv ℝ} {outer : Bool} {x y : ℝ} (hx : x ∈ b.1) (hy : y ∈ b.2)
    (sx : x ≤ s.xl ∧ x ≤ s.xu ∨ s.xl ≤ x ∧ s.xu ≤ x) (sy : y ≤ s.yl ∧ y ≤ s.yu ∨ s.yl ≤ y ∧ s.yu ≤ y)
    (hr : (far2 s.xl s.xu x + far2 s.yl s.yu y) ⊓ s.dmul s.ru s.ru - (near2 s.xl s.xu x + near2 s.yl s.yu y) ⊔ s.dmul s.rl s.rl ∈
      (if outer then posReals else negReals)) : x ∈ (s.contract O b outer).1 ∧ y ∈ (s.contract O b outer).2 := by
  unfold Sep.contract
  extract_lets p3inf p3sup ax ay Z1 Z2 D1 D2 R p q Z1' Z2' mx z
  have hpi : s.dmul s.rl s.rl ∈ p3inf := Itv.mem_point.mpr rfl
  have hps : s.dmul s.ru s.ru ∈ p3sup := Itv.mem_point.mpr rfl
  have kx := forward_near O (lo := s.xl) (hi := s.xu) hx
  have ky := forward_near O (lo := s.yl) (hi := s.yu) hy
  have k1 : near2 s.xl s.xu x + near2 s.yl s.yu y ∈ Z1 := O.S.A.add_mem kx.1 ky.1
  have k2 : far2 s.xl s.xu x + far2 s.yl s.yu y ∈ Z2 := O.S.A.add_mem kx.2 ky.2
  have d1 := O.min_mem k2 hps
  have d2 := O.max_mem k1 hpi
  have kR := Itv.mem_inf.mpr ⟨hr, O.S.A.sub_mem d1 d2⟩
  have kp := O.bwdSub_mem d1 d2 kR
  have kq := O.bwdSub_mem kp.1 kp.2 kR
  have k1' := (O.bwdMax_mem k1 hpi kq.2).1
  have k2' := (O.bwdMin_mem k2 hps kq.1).1
  have km := O.bwdAdd_mem kx.2 ky.2 k2'
  have kz := O.bwdAdd_mem kx.1 ky.1 k1'
  exact ⟨backward_keeps O hx sx kz.1 km.1, backward_keeps O hy sy kz.2 km.2⟩

/-- the boxes that `separate` gives to the two contractions -/
theorem separate_start (s : Sep) (xin xout : Itv ℝ × Itv ℝ) : ∃ i o : Itv ℝ × Itv ℝ, s.separate O xin xout = (s.contract O i false, s.contract O o true) ∧
    (i.1 ≤ xin.1 ∧ i.2 ≤ xin.2) ∧ (o.1 ≤ xout.1 ∧ o.2 ≤ xout.2) ∧
    ∀ x y, x ∈ xin.1 → y ∈ xin.2 → x ∈ xout.1 → y ∈ xout.2 → (x ∈ i.1 ∧ y ∈ i.2) ∧ (x ∈ o.1 ∧ y ∈ o.2) := by
  unfold Sep.separate
  extract_lets inter o i
  have hle : ∀ a b : Itv ℝ × Itv ℝ, (inter a b).1 ≤ a.1 ∧ (inter a b).2 ≤ a.2 := by
    intro a b
    show (ite _ _ _ : Itv ℝ × Itv ℝ).1 ≤ _ ∧ (ite _ _ _ : Itv ℝ × Itv ℝ).2 ≤ _
    split
    · exact ⟨bot_le, bot_le⟩
    · exact ⟨inf_le_left, inf_le_left⟩
  have hmem : ∀ (a b : Itv ℝ × Itv ℝ) x y, x ∈ a.1 → y ∈ a.2 → x ∈ b.1 → y ∈ b.2 → x ∈ (inter a b).1 ∧ y ∈ (inter a b).2 := by
    intro a b x y h1 h2 h3 h4
    have k1 : x ∈ a.1 ⊓ b.1 := Itv.mem_inf.mpr ⟨h1, h3⟩
    have k2 : y ∈ a.2 ⊓ b.2 := Itv.mem_inf.mpr ⟨h2, h4⟩
    show x ∈ (ite _ _ _ : Itv ℝ × Itv ℝ).1 ∧ y ∈ (ite _ _ _ : Itv ℝ × Itv ℝ).2
    rw [if_neg]
    · exact ⟨k1, k2⟩
    · simp only [Bool.or_eq_true, Itv.isEmpty_iff, not_or]
      exact ⟨Itv.ne_bot_of_mem k1, Itv.ne_bot_of_mem k2⟩
  refine ⟨i, o, rfl, hle _ _, hle _ _, ?_⟩
  intro x y h1 h2 h3 h4
  have ho := hmem xout xin x y h3 h4 h1 h2
  exact ⟨hmem xin o x y h1 h2 ho.1 ho.2, ho⟩

/-- the exact operations -/
noncomputable def hullOps : Ops where
  S := hullSqr
  min X Y := Itv.hullOf {z | ∃ x ∈ X, ∃ y ∈ Y, z = x ⊓ y}
  max X Y := Itv.hullOf {z | ∃ x ∈ X, ∃ y ∈ Y, z = x ⊔ y}
  chi A B C := Itv.hullOf {z | ∃ a ∈ A, ∃ b ∈ B, ∃ c ∈ C, z = if a ≤ 0 then b else c}
  bwdAdd Z X Y := (Itv.hullOf {x | x ∈ X ∧ ∃ y ∈ Y, x + y ∈ Z}, Itv.hullOf {y | y ∈ Y ∧ ∃ x ∈ X, x + y ∈ Z})
  bwdSub Z X Y := (Itv.hullOf {x | x ∈ X ∧ ∃ y ∈ Y, x - y ∈ Z}, Itv.hullOf {y | y ∈ Y ∧ ∃ x ∈ X, x - y ∈ Z})
  bwdMul Z X Y := (Itv.hullOf {x | x ∈ X ∧ ∃ y ∈ Y, x * y ∈ Z}, Itv.hullOf {y | y ∈ Y ∧ ∃ x ∈ X, x * y ∈ Z})
  bwdMin Z X Y := (Itv.hullOf {x | x ∈ X ∧ ∃ y ∈ Y, x ⊓ y ∈ Z}, Itv.hullOf {y | y ∈ Y ∧ ∃ x ∈ X, x ⊓ y ∈ Z})
  bwdMax Z X Y := (Itv.hullOf {x | x ∈ X ∧ ∃ y ∈ Y, x ⊔ y ∈ Z}, Itv.hullOf {y | y ∈ Y ∧ ∃ x ∈ X, x ⊔ y ∈ Z})
  bwdSign Y X := Itv.hullOf {x | x ∈ X ∧ ((SignType.sign x : SignType) : ℝ) ∈ Y}
  min_mem hx hy := Itv.mem_hullOf ⟨_, hx, _, hy, rfl⟩
  max_mem hx hy := Itv.mem_hullOf ⟨_, hx, _, hy, rfl⟩
  chi_mem ha hb hc := Itv.mem_hullOf ⟨_, ha, _, hb, _, hc, rfl⟩
  bwdAdd_mem hx hy h := ⟨Itv.mem_hullOf ⟨hx, _, hy, h⟩, Itv.mem_hullOf ⟨hy, _, hx, h⟩⟩
  bwdSub_mem hx hy h := ⟨Itv.mem_hullOf ⟨hx, _, hy, h⟩, Itv.mem_hullOf ⟨hy, _, hx, h⟩⟩
  bwdMul_mem hx hy h := ⟨Itv.mem_hullOf ⟨hx, _, hy, h⟩, Itv.mem_hullOf ⟨hy, _, hx, h⟩⟩
  bwdMin_mem hx hy h := ⟨Itv.mem_hullOf ⟨hx, _, hy, h⟩, Itv.mem_hullOf ⟨hy, _, hx, h⟩⟩
  bwdMax_mem hx hy h := ⟨Itv.mem_hullOf ⟨hx, _, hy, h⟩, Itv.mem_hullOf ⟨hy, _, hx, h⟩⟩
  bwdSign_mem hx h := Itv.mem_hullOf ⟨hx, h⟩

/-- with the exact operations, a box inside the interval is lost -/
theorem backward_lost {lo hi : ℝ} {X : Itv ℝ} (h : ∀ x ∈ X, lo < x ∧ x < hi) (Z mx : Itv ℝ) (hX : X ≤ Itv.point c) :
    backward hullOps lo hi X (forward hullOps lo hi X) Z mx = ⊥ := by
  have hBA : (forward hullOps lo hi X).BA ≤ Itv.point ((c - hi) * (c - lo)) := Itv.hullOf_le (by
    rintro z ⟨b, a, hb, ha, rfl⟩
    have hb' : b ∈ Itv.point (c - hi) := Itv.mem_of_le (Itv.hullOf_le (by
      rintro z ⟨p, q, hp, hq, rfl⟩
      rw [Itv.mem_point.mp (Itv.mem_of_le hX hp), Itv.mem_point.mp hq, Itv.mem_point])) hb
    have ha' : a ∈ Itv.point (c - lo) := Itv.mem_of_le (Itv.hullOf_le (by
      rintro z ⟨p, q, hp, hq, rfl⟩
      rw [Itv.mem_point.mp (Itv.mem_of_le hX hp), Itv.mem_point.mp hq, Itv.mem_point])) ha
    rw [Itv.mem_point.mp hb', Itv.mem_point.mp ha', Itv.mem_point])
  by_cases hne : X = ⊥
  · exact le_bot_iff.mp ((backward_le ..).trans hne.le)
  have hc : c ∈ X := by
    by_contra k
    refine hne (Itv.eq_bot_iff_mem.mpr fun x hx => k ?_)
    rw [Itv.mem_point.mp (Itv.mem_of_le hX hx)] at hx
    exact hx
  have hneg : (c - hi) * (c - lo) < 0 := mul_neg_of_neg_of_pos (by linarith [(h c hc).2]) (by linarith [(h c hc).1])
  have hS : (forward hullOps lo hi X).S ≤ Itv.point 0 := Itv.hullOf_le (by
    rintro z ⟨a, ha, b, hb, d, hd, rfl⟩
    rw [Itv.mem_point.mp (Itv.mem_of_le hBA ha), if_pos hneg.le]
    exact hb)
  unfold backward
  extract_lets p18 BA p14 p12 p11 B A
  have h18 : p18.1 ≤ Itv.point 0 := (Itv.hullOf_le fun _ k => k.1 : p18.1 ≤ (forward hullOps lo hi X).S).trans hS
  have eBA : BA = ⊥ := le_bot_iff.mp (Itv.hullOf_le (by
    rintro z ⟨hz, hs⟩
    have e := Itv.mem_point.mp (Itv.mem_of_le h18 hs)
    rw [Itv.mem_point.mp (Itv.mem_of_le hBA hz), sign_neg hneg] at e
    norm_num at e))
  have e11 : p11.1 = ⊥ := le_bot_iff.mp (Itv.hullOf_le (by
    rintro z ⟨_, y, _, k⟩
    rw [eBA] at k
    exact k))
  have eB : B = ⊥ := le_bot_iff.mp ((hullSqr.bwdSqr_le _ _).trans e11.le)
  have : hullOps.S.A.add B (Itv.point hi) = ⊥ := le_bot_iff.mp (Itv.hullOf_le (by
    rintro z ⟨a, b, ha, _⟩
    rw [eB] at ha
    exact ha))
  rw [this, inf_bot_eq, bot_inf_eq]

end Codac.Disk
