import Verif.Thick.Box
import Mathlib.Topology.Order.IntermediateValue
import Mathlib.Topology.Instances.Real.Lemmas
import Mathlib.Topology.Algebra.Ring.Real
import Mathlib.Tactic.Ring
import Mathlib.Tactic.Continuity

/-!
# Thick disks

Models `ThickDisk`, `/repo/src/unsupported/thickset/codac_ThickTest.h:40-58` and `codac_ThickTest.cpp:14-50`.
The bounds of the centre and of the squared radii are finite numbers. The interval operations of IBEX are parameters.
-/

namespace Codac

/-- what is assumed of the IBEX functions used by `ThickDisk` -/
structure DiskOps (K : Type*) [Field K] [LinearOrder K] where
  A : IArith K
  sqr : Itv K → Itv K
  sign : Itv K → Itv K
  sqr_mem : ∀ {X : Itv K} {x : K}, x ∈ X → x ^ 2 ∈ sqr X
  sign_mem : ∀ {X : Itv K} {x : K}, x ∈ X → (if 0 < x then (1 : K) else if x = 0 then 0 else -1) ∈ sign X

/-- the members of a `ThickDisk`: centre in `[a,b] × [c,d]`, squared radii `Rmin = [r1, r2]` and `Rmax = [r3, r4]`, bounding box -/
structure ThickDisk (K : Type*) [LinearOrder K] where
  a : K
  b : K
  c : K
  d : K
  r1 : K
  r2 : K
  r3 : K
  r4 : K
  box0 : Itv K
  box1 : Itv K

section
variable {K : Type*} [Field K] [LinearOrder K] [IsStrictOrderedRing K]

/-- `ThickDisk(mx, my, Rmin_, Rmax_)`, codac_ThickTest.h:42-46, for radii intervals `[0, p]`, `[0, q]` as in `ThickSector` (codac_ThickTest.cpp:159), which are squared;
the bounding box is built with the squared radius -/
def ThickDisk.ofRadii (O : DiskOps K) (a b c d p q : K) : ThickDisk K :=
  ⟨a, b, c, d, 0, p ^ 2, 0, q ^ 2, O.A.add (Itv.icc a b) (Itv.icc (-q ^ 2) (q ^ 2)), O.A.add (Itv.icc c d) (Itv.icc (-q ^ 2) (q ^ 2))⟩

/-- `setParams`, codac_ThickTest.h:54: the bounding box is not updated -/
def ThickDisk.setParams (D : ThickDisk K) (a b c d : K) : ThickDisk K := { D with a := a, b := b, c := c, d := d }

/-- one coordinate of `Xm`, codac_ThickTest.cpp:18-21 -/
def minSqItv (O : DiskOps K) (a b : K) (X : Itv K) : Itv K :=
  O.A.mul (ThickItv.maxItv (Itv.point 0) (O.sign (O.A.mul (O.A.sub X (Itv.point b)) (O.A.sub X (Itv.point a)))))
    (ThickItv.minItv (O.sqr (O.A.sub X (Itv.point a))) (O.sqr (O.A.sub X (Itv.point b))))

/-- one coordinate of `Xp`, codac_ThickTest.cpp:23-24 -/
def maxSqItv (O : DiskOps K) (a b : K) (X : Itv K) : Itv K :=
  ThickItv.maxItv (O.sqr (O.A.sub X (Itv.point a))) (O.sqr (O.A.sub X (Itv.point b)))

/-- `X.ub() < 0` -/
def ubNeg (X : Itv K) : Bool :=
  match X.ub? with
  | some u => decide (u < 0)
  | none => false

/-- `ThickDisk::test`, codac_ThickTest.cpp:14-50 -/
def ThickDisk.test (O : DiskOps K) (D : ThickDisk K) (X0 X1 : Itv K) : TB :=
  if (X0 ⊓ D.box0).isEmpty || (X1 ⊓ D.box1).isEmpty then .out
  else
    let Xm := O.A.add (minSqItv O D.a D.b X0) (minSqItv O D.c D.d X1)
    let Xp := O.A.add (maxSqItv O D.a D.b X0) (maxSqItv O D.c D.d X1)
    let Xub := Xm ⊔ Xp
    if (Itv.icc D.r3 D.r4 ⊓ Xub).isEmpty then .out
    else if Xub ≤ Itv.icc D.r1 D.r2 then .in_
    else
      let b1 := decide (O.A.sub Xm (Itv.point D.r4) ≤ Itv.ofBounds none (some 0))
      let b2 := decide (O.A.sub (Itv.point D.r3) Xp ≤ Itv.ofBounds none (some 0))
      let incl := ubNeg (O.A.sub Xm (Itv.point D.r1)) || ubNeg (O.A.sub (Itv.point D.r2) Xp)
      if incl && b1 && b2 then .maybe
      else if incl && !(b1 && b2) then .maybeOut
      else if !incl && (b1 && b2) then .maybeIn
      else .unk

/-- specification: the point `(x, y)` is in the disk for every centre -/
def ThickDisk.InSub (D : ThickDisk K) (x y : K) : Prop :=
  ∀ m n, D.a ≤ m → m ≤ D.b → D.c ≤ n → n ≤ D.d → D.r1 ≤ (x - m) ^ 2 + (y - n) ^ 2 ∧ (x - m) ^ 2 + (y - n) ^ 2 ≤ D.r2

/-- specification: the point `(x, y)` is in the disk for some centre -/
def ThickDisk.InSup (D : ThickDisk K) (x y : K) : Prop :=
  ∃ m n, (D.a ≤ m ∧ m ≤ D.b ∧ D.c ≤ n ∧ n ≤ D.d) ∧ D.r3 ≤ (x - m) ^ 2 + (y - n) ^ 2 ∧ (x - m) ^ 2 + (y - n) ^ 2 ≤ D.r4

/-- the smallest squared distance of `x` to a point of `[a, b]`, as computed by the code -/
def minSq (a b x : K) : K :=
  max 0 (if 0 < (x - b) * (x - a) then (1 : K) else if (x - b) * (x - a) = 0 then 0 else -1) * min ((x - a) ^ 2) ((x - b) ^ 2)

/-- the largest one -/
def maxSq (a b x : K) : K := max ((x - a) ^ 2) ((x - b) ^ 2)

theorem minSq_mem (O : DiskOps K) {a b x : K} {X : Itv K} (h : x ∈ X) : minSq a b x ∈ minSqItv O a b X := by
  have h1 := O.A.sub_mem h (Itv.mem_point.mpr (rfl : b = b))
  have h2 := O.A.sub_mem h (Itv.mem_point.mpr (rfl : a = a))
  exact O.A.mul_mem (ThickItv.mem_maxItv (Itv.mem_point.mpr rfl) (O.sign_mem (O.A.mul_mem h1 h2))) (ThickItv.mem_minItv (O.sqr_mem h2) (O.sqr_mem h1))

theorem maxSq_mem (O : DiskOps K) {a b x : K} {X : Itv K} (h : x ∈ X) : maxSq a b x ∈ maxSqItv O a b X := by
  have h1 := O.A.sub_mem h (Itv.mem_point.mpr (rfl : b = b))
  have h2 := O.A.sub_mem h (Itv.mem_point.mpr (rfl : a = a))
  exact ThickItv.mem_maxItv (O.sqr_mem h2) (O.sqr_mem h1)

theorem minSq_spec {a b : K} (hab : a ≤ b) (x : K) : (∃ m, a ≤ m ∧ m ≤ b ∧ (x - m) ^ 2 = minSq a b x) ∧ ∀ m, a ≤ m → m ≤ b → minSq a b x ≤ (x - m) ^ 2 := by
  unfold minSq
  rcases lt_or_ge x a with h | h
  · have hp : 0 < (x - b) * (x - a) := mul_pos_of_neg_of_neg (by linarith) (by linarith)
    rw [if_pos hp, max_eq_right zero_le_one, one_mul, min_eq_left (by nlinarith)]
    exact ⟨⟨a, le_refl a, hab, rfl⟩, fun m h1 h2 => by nlinarith⟩
  · rcases lt_or_ge b x with h' | h'
    · have hp : 0 < (x - b) * (x - a) := mul_pos (by linarith) (by linarith)
      rw [if_pos hp, max_eq_right zero_le_one, one_mul, min_eq_right (by nlinarith)]
      exact ⟨⟨b, hab, le_refl b, rfl⟩, fun m h1 h2 => by nlinarith⟩
    · have hp : ¬ 0 < (x - b) * (x - a) := not_lt.mpr (mul_nonpos_of_nonpos_of_nonneg (by linarith) (by linarith))
      rw [if_neg hp]
      have : max (0 : K) (if (x - b) * (x - a) = 0 then 0 else -1) = 0 := by
        split
        · simp
        · exact max_eq_left (by linarith [zero_le_one (α := K)])
      rw [this, zero_mul]
      exact ⟨⟨x, h, h', by ring⟩, fun m _ _ => sq_nonneg _⟩

theorem maxSq_spec {a b : K} (hab : a ≤ b) (x : K) : (∃ m, a ≤ m ∧ m ≤ b ∧ (x - m) ^ 2 = maxSq a b x) ∧ ∀ m, a ≤ m → m ≤ b → (x - m) ^ 2 ≤ maxSq a b x := by
  unfold maxSq
  constructor
  · rcases max_choice ((x - a) ^ 2) ((x - b) ^ 2) with h | h
    · exact ⟨a, le_refl a, hab, h.symm⟩
    · exact ⟨b, hab, le_refl b, h.symm⟩
  · intro m h1 h2
    rcases le_or_gt x m with h | h
    · exact le_max_of_le_right (by nlinarith)
    · exact le_max_of_le_left (by nlinarith)

theorem not_sub_of_ubNeg (A : IArith K) {X Y : Itv K} {x y : K} (h : ubNeg (A.sub X Y) = true) (hx : x ∈ X) (hy : y ∈ Y) : x < y := by
  have hm := A.sub_mem hx hy
  unfold ubNeg at h
  generalize A.sub X Y = Z at h hm
  cases Z with
  | empty => exact hm.elim
  | mk l u p =>
    cases u with
    | none => simp [Itv.ub?] at h
    | some u =>
      simp only [Itv.ub?, decide_eq_true_iff] at h
      have h2 : x - y ≤ u := hm.2
      linarith

theorem le_of_sub_nonpos (A : IArith K) {X Y : Itv K} {x y : K} (h : A.sub X Y ≤ Itv.ofBounds none (some 0)) (hx : x ∈ X) (hy : y ∈ Y) : x ≤ y := by
  have hm := Itv.mem_of_le h (A.sub_mem hx hy)
  rw [Itv.mem_ofBounds] at hm
  have : x - y ≤ 0 := hm.2
  linarith

end

/-- over the real numbers, the squared distances from a point to the points of a box take all the values between the smallest and the largest ones -/
theorem sqDist_between {a b c d x y v : ℝ} (hab : a ≤ b) (hcd : c ≤ d) (h1 : minSq a b x + minSq c d y ≤ v) (h2 : v ≤ maxSq a b x + maxSq c d y) :
    ∃ m n, (a ≤ m ∧ m ≤ b ∧ c ≤ n ∧ n ≤ d) ∧ (x - m) ^ 2 + (y - n) ^ 2 = v := by
  obtain ⟨⟨m1, p1, p2, p3⟩, _⟩ := minSq_spec hab x
  obtain ⟨⟨n1, q1, q2, q3⟩, _⟩ := minSq_spec hcd y
  obtain ⟨⟨m2, p4, p5, p6⟩, _⟩ := maxSq_spec hab x
  obtain ⟨⟨n2, q4, q5, q6⟩, _⟩ := maxSq_spec hcd y
  have hcont : ContinuousOn (fun s : ℝ => (x - (m1 + s * (m2 - m1))) ^ 2 + (y - (n1 + s * (n2 - n1))) ^ 2) (Set.Icc 0 1) := by
    apply Continuous.continuousOn; continuity
  have := intermediate_value_Icc (zero_le_one) hcont (show v ∈ Set.Icc _ _ from ⟨by simpa [p3, q3] using h1, by simpa [p6, q6] using h2⟩)
  obtain ⟨s, ⟨s0, s1⟩, hs⟩ := this
  refine ⟨m1 + s * (m2 - m1), n1 + s * (n2 - n1), ⟨?_, ?_, ?_, ?_⟩, hs⟩ <;> nlinarith

open Classical in
/-- the part of the test after the bounding box is sound -/
theorem disk_core (O : DiskOps ℝ) (D : ThickDisk ℝ) (hab : D.a ≤ D.b) (hcd : D.c ≤ D.d) (hr : D.r3 ≤ D.r4) (hsub : D.r3 ≤ D.r1 ∧ D.r2 ≤ D.r4) {X0 X1 : Itv ℝ} {x y : ℝ} (hx : x ∈ X0) (hy : y ∈ X1)
    (hbox : ((X0 ⊓ D.box0).isEmpty || (X1 ⊓ D.box1).isEmpty) = true → ¬ D.InSup x y) :
    (D.test O X0 X1).has (V3.of (decide (D.InSub x y)) (decide (D.InSup x y))) = true := by
  have hss : D.InSub x y → D.InSup x y := fun h => by
    have := h D.a D.c le_rfl hab le_rfl hcd
    exact ⟨D.a, D.c, ⟨le_rfl, hab, le_rfl, hcd⟩, hsub.1.trans this.1, this.2.trans hsub.2⟩
  have hm : minSq D.a D.b x + minSq D.c D.d y ∈ O.A.add (minSqItv O D.a D.b X0) (minSqItv O D.c D.d X1) := O.A.add_mem (minSq_mem O hx) (minSq_mem O hy)
  have hp : maxSq D.a D.b x + maxSq D.c D.d y ∈ O.A.add (maxSqItv O D.a D.b X0) (maxSqItv O D.c D.d X1) := O.A.add_mem (maxSq_mem O hx) (maxSq_mem O hy)
  have hall : ∀ m n, D.a ≤ m → m ≤ D.b → D.c ≤ n → n ≤ D.d →
      (x - m) ^ 2 + (y - n) ^ 2 ∈ O.A.add (minSqItv O D.a D.b X0) (minSqItv O D.c D.d X1) ⊔ O.A.add (maxSqItv O D.a D.b X0) (maxSqItv O D.c D.d X1) := by
    intro m n h1 h2 h3 h4
    exact Itv.mem_sup_of_between hm hp (add_le_add ((minSq_spec hab x).2 m h1 h2) ((minSq_spec hcd y).2 n h3 h4)) (add_le_add ((maxSq_spec hab x).2 m h1 h2) ((maxSq_spec hcd y).2 n h3 h4))
  have vout : ¬ D.InSup x y → V3.of (decide (D.InSub x y)) (decide (D.InSup x y)) = .no := by
    intro h
    have h' : ¬ D.InSub x y := fun h2 => h (hss h2)
    simp [V3.of, h, h']
  have vin : D.InSub x y → V3.of (decide (D.InSub x y)) (decide (D.InSup x y)) = .yes := by
    intro h
    simp [V3.of, h]
  have vnot : ¬ D.InSub x y → V3.of (decide (D.InSub x y)) (decide (D.InSup x y)) ≠ .yes := by
    intro h
    by_cases h2 : D.InSup x y <;> simp [V3.of, h, h2]
  have vsup : D.InSup x y → V3.of (decide (D.InSub x y)) (decide (D.InSup x y)) ≠ .no := by
    intro h
    by_cases h2 : D.InSub x y <;> simp [V3.of, h, h2]
  unfold ThickDisk.test
  by_cases c0 : ((X0 ⊓ D.box0).isEmpty || (X1 ⊓ D.box1).isEmpty) = true
  · rw [if_pos c0, vout (hbox c0)]; rfl
  rw [if_neg c0]
  dsimp only
  generalize O.A.add (minSqItv O D.a D.b X0) (minSqItv O D.c D.d X1) = Xm at *
  generalize O.A.add (maxSqItv O D.a D.b X0) (maxSqItv O D.c D.d X1) = Xp at *
  by_cases c1 : (Itv.icc D.r3 D.r4 ⊓ (Xm ⊔ Xp)).isEmpty = true
  · rw [if_pos c1, vout]; · rfl
    rintro ⟨m, n, ⟨h1, h2, h3, h4⟩, h5, h6⟩
    have : (x - m) ^ 2 + (y - n) ^ 2 ∈ Itv.icc D.r3 D.r4 ⊓ (Xm ⊔ Xp) := Itv.mem_inf.mpr ⟨Itv.mem_icc.mpr ⟨h5, h6⟩, hall m n h1 h2 h3 h4⟩
    exact Itv.ne_bot_of_mem this (Itv.isEmpty_iff.mp c1)
  rw [if_neg c1]
  by_cases c2 : Xm ⊔ Xp ≤ Itv.icc D.r1 D.r2
  · rw [if_pos c2, vin]; · rfl
    intro m n h1 h2 h3 h4
    exact Itv.mem_icc.mp (Itv.mem_of_le c2 (hall m n h1 h2 h3 h4))
  rw [if_neg c2]
  have hincl : (ubNeg (O.A.sub Xm (Itv.point D.r1)) || ubNeg (O.A.sub (Itv.point D.r2) Xp)) = true → ¬ D.InSub x y := by
    intro h hs
    rw [Bool.or_eq_true] at h
    rcases h with h | h
    · have h1 := not_sub_of_ubNeg O.A h hm (Itv.mem_point.mpr rfl)
      obtain ⟨m, n, ⟨k1, k2, k3, k4⟩, k5⟩ := sqDist_between hab hcd le_rfl (v := minSq D.a D.b x + minSq D.c D.d y)
        (add_le_add (((minSq_spec hab x).2 D.a le_rfl hab).trans ((maxSq_spec hab x).2 D.a le_rfl hab)) (((minSq_spec hcd y).2 D.c le_rfl hcd).trans ((maxSq_spec hcd y).2 D.c le_rfl hcd)))
      have := (hs m n k1 k2 k3 k4).1
      rw [k5] at this
      linarith
    · have h1 := not_sub_of_ubNeg O.A h (Itv.mem_point.mpr rfl) hp
      obtain ⟨m, n, ⟨k1, k2, k3, k4⟩, k5⟩ := sqDist_between hab hcd (v := maxSq D.a D.b x + maxSq D.c D.d y)
        (add_le_add (((minSq_spec hab x).2 D.a le_rfl hab).trans ((maxSq_spec hab x).2 D.a le_rfl hab)) (((minSq_spec hcd y).2 D.c le_rfl hcd).trans ((maxSq_spec hcd y).2 D.c le_rfl hcd))) le_rfl
      have := (hs m n k1 k2 k3 k4).2
      rw [k5] at this
      linarith
  have hsup : O.A.sub Xm (Itv.point D.r4) ≤ Itv.ofBounds none (some 0) → O.A.sub (Itv.point D.r3) Xp ≤ Itv.ofBounds none (some 0) → D.InSup x y := by
    intro h1 h2
    have e1 := le_of_sub_nonpos O.A h1 hm (Itv.mem_point.mpr rfl)
    have e2 := le_of_sub_nonpos O.A h2 (Itv.mem_point.mpr rfl) hp
    obtain ⟨m, n, k, k5⟩ := sqDist_between hab hcd (v := max (minSq D.a D.b x + minSq D.c D.d y) D.r3) (le_max_left _ _) (max_le
      (add_le_add (((minSq_spec hab x).2 D.a le_rfl hab).trans ((maxSq_spec hab x).2 D.a le_rfl hab)) (((minSq_spec hcd y).2 D.c le_rfl hcd).trans ((maxSq_spec hcd y).2 D.c le_rfl hcd))) e2)
    exact ⟨m, n, k, by rw [k5]; exact le_max_right _ _, by rw [k5]; exact max_le e1 hr⟩
  generalize V3.of (decide (D.InSub x y)) (decide (D.InSup x y)) = v at *
  by_cases i : (ubNeg (O.A.sub Xm (Itv.point D.r1)) || ubNeg (O.A.sub (Itv.point D.r2) Xp)) = true <;>
  by_cases j : O.A.sub Xm (Itv.point D.r4) ≤ Itv.ofBounds none (some 0) <;>
  by_cases k : O.A.sub (Itv.point D.r3) Xp ≤ Itv.ofBounds none (some 0)
  all_goals
    try have q1 := vnot (hincl i)
    try have q2 := vsup (hsup j k)
    try rw [Bool.not_eq_true] at i
    simp only [i, j, k, decide_true, decide_false, Bool.and_true, Bool.and_false, Bool.not_true, Bool.not_false, if_true]
    cases v <;> simp_all [TB.has]

end Codac
