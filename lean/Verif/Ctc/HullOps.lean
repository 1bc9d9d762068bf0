import Verif.Ctc.Polar

/-!
# The best possible interval operations

Intervals of real numbers with operations returning the smallest interval which contains all the values: an instance of the
structures `IArith`, `SqrOps`, `PolarOps`. Division by `[0, 0]` is empty, as in IBEX.
-/

set_option linter.unusedSectionVars false

namespace Codac

open Real

open Classical in
/-- the smallest interval containing a set of real numbers -/
noncomputable def Itv.hullOf (S : Set ℝ) : Itv ℝ :=
  if S.Nonempty then Itv.ofBounds (if BddBelow S then some (sInf S) else none) (if BddAbove S then some (sSup S) else none) else ⊥

theorem Itv.mem_hullOf {S : Set ℝ} {x : ℝ} (h : x ∈ S) : x ∈ Itv.hullOf S := by
  unfold Itv.hullOf
  rw [if_pos ⟨x, h⟩, Itv.mem_ofBounds]
  constructor
  · split
    · next hb => exact csInf_le hb h
    · trivial
  · split
    · next hb => exact le_csSup hb h
    · trivial

theorem Itv.hullOf_le {S : Set ℝ} {X : Itv ℝ} (h : ∀ x ∈ S, x ∈ X) : Itv.hullOf S ≤ X := by
  rw [Itv.le_iff]
  intro x hx
  unfold Itv.hullOf at hx
  by_cases hn : S.Nonempty
  swap
  · rw [if_neg hn] at hx; exact hx.elim
  rw [if_pos hn, Itv.mem_ofBounds] at hx
  obtain ⟨y, hy⟩ := hn
  cases X with
  | empty => exact (h y hy).elim
  | mk l u p =>
    refine ⟨?_, ?_⟩
    · cases l with
      | none => trivial
      | some l =>
        have hl : ∀ z ∈ S, l ≤ z := fun z hz => (h z hz).1
        have h1 := hx.1
        rw [if_pos ⟨l, hl⟩] at h1
        exact le_trans (le_csInf ⟨y, hy⟩ hl) h1
    · cases u with
      | none => trivial
      | some u =>
        have hu : ∀ z ∈ S, z ≤ u := fun z hz => (h z hz).2
        have h1 := hx.2
        rw [if_pos ⟨u, hu⟩] at h1
        exact le_trans h1 (csSup_le ⟨y, hy⟩ hu)

theorem Itv.hullOf_mono {S S' : Set ℝ} (h : S ⊆ S') : Itv.hullOf S ≤ Itv.hullOf S' :=
  Itv.hullOf_le fun _ hx => Itv.mem_hullOf (h hx)

theorem Itv.hullOf_empty : Itv.hullOf ∅ = ⊥ := if_neg Set.not_nonempty_empty

/-- the exact interval operations -/
noncomputable def hullArith : IArith ℝ where
  add X Y := Itv.hullOf {z | ∃ x y, x ∈ X ∧ y ∈ Y ∧ z = x + y}
  sub X Y := Itv.hullOf {z | ∃ x y, x ∈ X ∧ y ∈ Y ∧ z = x - y}
  mul X Y := Itv.hullOf {z | ∃ x y, x ∈ X ∧ y ∈ Y ∧ z = x * y}
  add_mem hx hy := Itv.mem_hullOf ⟨_, _, hx, hy, rfl⟩
  sub_mem hx hy := Itv.mem_hullOf ⟨_, _, hx, hy, rfl⟩
  mul_mem hx hy := Itv.mem_hullOf ⟨_, _, hx, hy, rfl⟩
  add_mono h1 h2 := Itv.hullOf_mono fun _ ⟨x, y, hx, hy, e⟩ => ⟨x, y, Itv.mem_of_le h1 hx, Itv.mem_of_le h2 hy, e⟩
  sub_mono h1 h2 := Itv.hullOf_mono fun _ ⟨x, y, hx, hy, e⟩ => ⟨x, y, Itv.mem_of_le h1 hx, Itv.mem_of_le h2 hy, e⟩
  mul_mono h1 h2 := Itv.hullOf_mono fun _ ⟨x, y, hx, hy, e⟩ => ⟨x, y, Itv.mem_of_le h1 hx, Itv.mem_of_le h2 hy, e⟩

/-- the exact `sqr`, `sqrt`, `bwd_sqr` -/
noncomputable def hullSqr : SqrOps where
  A := hullArith
  sqr X := Itv.hullOf {z | ∃ x ∈ X, z = x ^ 2}
  sqrt X := Itv.hullOf {z | ∃ x ∈ X, 0 ≤ x ∧ z = √x}
  bwdSqr Y X := Itv.hullOf {z | z ∈ X ∧ z ^ 2 ∈ Y}
  sqr_mem hx := Itv.mem_hullOf ⟨_, hx, rfl⟩
  sqrt_mem hx h0 := Itv.mem_hullOf ⟨_, hx, h0, rfl⟩
  bwdSqr_mem hx hy := Itv.mem_hullOf ⟨hx, hy⟩
  bwdSqr_le _ _ := Itv.hullOf_le fun _ h => h.1

/-- the exact operations of `CtcPolar` -/
noncomputable def hullPolar : PolarOps where
  S := hullSqr
  div X Y := Itv.hullOf {z | ∃ x y, x ∈ X ∧ y ∈ Y ∧ y ≠ 0 ∧ z = x / y}
  integer X := Itv.hullOf {z | z ∈ X ∧ ∃ k : ℤ, z = k}
  tan X := Itv.hullOf {z | ∃ x ∈ X, Real.cos x ≠ 0 ∧ z = Real.tan x}
  atan X := Itv.hullOf {z | ∃ x ∈ X, z = arctan x}
  cos X := Itv.hullOf {z | ∃ x ∈ X, z = Real.cos x}
  sin X := Itv.hullOf {z | ∃ x ∈ X, z = Real.sin x}
  pi := Itv.point π
  h0 := π / 2
  h := π / 2
  big := 1
  div_mem hx hy h := Itv.mem_hullOf ⟨_, _, hx, hy, h, rfl⟩
  integer_mem h := Itv.mem_hullOf ⟨h, _, rfl⟩
  tan_mem hx h := Itv.mem_hullOf ⟨_, hx, h, rfl⟩
  atan_mem hx := Itv.mem_hullOf ⟨_, hx, rfl⟩
  cos_mem hx := Itv.mem_hullOf ⟨_, hx, rfl⟩
  sin_mem hx := Itv.mem_hullOf ⟨_, hx, rfl⟩
  pi_mem := Itv.mem_point.mpr rfl
  h0_pos := by positivity
  h0_le := le_rfl
  le_h := le_rfl
  h_le := by linarith [pi_pos]
  sub_rep _ _ _ _ h := h

/-- exact operations do not enlarge a domain of angles -/
theorem hullPolar_tight : hullPolar.Tight := by
  intro TH hT
  have hT' : ∀ t ∈ TH, 0 ≤ t ∧ t ≤ π / 2 := by
    intro t ht
    have := Itv.mem_of_le hT ht
    rw [i0pi2_eq] at this
    exact this
  have htwo : hullPolar.twoPi ≤ Itv.point (2 * π) := Itv.hullOf_le (by
    rintro z ⟨x, y, hx, hy, rfl⟩
    rw [Itv.mem_point.mp hx, Itv.mem_point.mp hy, Itv.mem_point])
  have hsub : hullPolar.S.A.sub TH hullPolar.i0pi2 ≤ Itv.icc (-(π / 2)) (π / 2) := Itv.hullOf_le (by
    rintro z ⟨x, y, hx, hy, rfl⟩
    rw [i0pi2_eq] at hy
    have h1 := hT' x hx
    have h2 : 0 ≤ y ∧ y ≤ π / 2 := hy
    exact Itv.mem_icc.mpr ⟨by linarith, by linarith⟩)
  have hdiv : hullPolar.div (hullPolar.S.A.sub TH hullPolar.i0pi2) hullPolar.twoPi ≤ Itv.icc (-(1 / 4)) (1 / 4) := Itv.hullOf_le (by
    rintro z ⟨x, y, hx, hy, h0, rfl⟩
    rw [Itv.mem_point.mp (Itv.mem_of_le htwo hy)]
    obtain ⟨h1, h2⟩ := Itv.mem_icc.mp (Itv.mem_of_le hsub hx)
    have hp : (0 : ℝ) < 2 * π := by positivity
    exact Itv.mem_icc.mpr ⟨by rw [le_div_iff₀ hp]; linarith, by rw [div_le_iff₀ hp]; linarith⟩)
  have hint : hullPolar.integer (hullPolar.div (hullPolar.S.A.sub TH hullPolar.i0pi2) hullPolar.twoPi) ≤ Itv.point 0 := Itv.hullOf_le (by
    rintro z ⟨hz, k, rfl⟩
    obtain ⟨h1, h2⟩ := Itv.mem_icc.mp (Itv.mem_of_le hdiv hz)
    have k1 : (-1 : ℝ) < k := by linarith
    have k2 : (k : ℝ) < 1 := by linarith
    have k1' : -1 < k := by exact_mod_cast k1
    have k2' : k < 1 := by exact_mod_cast k2
    have : k = 0 := by omega
    rw [this, Int.cast_zero, Itv.mem_point])
  refine inf_le_right.trans (Itv.hullOf_le ?_)
  rintro z ⟨x, y, hx, hy, rfl⟩
  have hy0 : y ∈ Itv.point (0 : ℝ) := Itv.mem_of_le (Itv.hullOf_le (by
    rintro w ⟨a, b, ha, hb, rfl⟩
    rw [Itv.mem_point.mp (Itv.mem_of_le hint ha), zero_mul, Itv.mem_point])) hy
  rw [Itv.mem_point.mp hy0, sub_zero]
  exact (Itv.mem_inf.mp hx).1

/-- an angle domain `[0, 0]` is reduced to itself -/
theorem hullPolar_cMod_zero : cMod hullPolar (Itv.point 0) hullPolar.i0pi2 = Itv.point 0 := by
  refine le_antisymm (hullPolar_tight _ ?_) ?_
  · rw [Itv.le_iff]; intro t ht; rw [Itv.mem_point.mp ht]; exact mem_i0pi2 _ le_rfl (by positivity)
  · rw [Itv.le_iff]; intro t ht; rw [Itv.mem_point.mp ht]
    exact cMod_mem _ (Itv.mem_point.mpr rfl) (mem_i0pi2 _ le_rfl (by positivity)) (k := 0) (by simp)

theorem hullPolar_tan_zero : tanHull hullPolar (Itv.point 0) ≤ Itv.point 0 := by
  have hne : ¬ (0 : ℝ) = hullPolar.h := (by positivity : (0 : ℝ) < π / 2).ne
  show hullPolar.tan (Itv.point 0) ⊔ (if (0 : ℝ) = hullPolar.h then _ else hullPolar.tan (Itv.point 0)) ≤ _
  rw [if_neg hne, sup_idem]
  refine Itv.hullOf_le ?_
  rintro z ⟨x, hx, -, rfl⟩
  rw [Itv.mem_point.mp hx, Real.tan_zero, Itv.mem_point]

theorem hullPolar_div_zero (Y T : Itv ℝ) (h : T ≤ Itv.point 0) : hullPolar.div Y T = ⊥ := by
  show Itv.hullOf _ = ⊥
  rw [show {z : ℝ | ∃ x y, x ∈ Y ∧ y ∈ T ∧ y ≠ 0 ∧ z = x / y} = ∅ from Set.eq_empty_iff_forall_notMem.mpr (by
    rintro z ⟨x, y, -, hy, h0, -⟩
    exact h0 (Itv.mem_point.mp (Itv.mem_of_le h hy)))]
  exact Itv.hullOf_empty

end Codac
