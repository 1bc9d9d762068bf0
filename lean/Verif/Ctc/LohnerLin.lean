import Verif.Ctc.LohnerTube
import Mathlib.Analysis.Calculus.ContDiff.Basic
import Mathlib.Topology.Algebra.Module.FiniteDimension
import Mathlib.LinearAlgebra.Matrix.ToLin
import Mathlib.Analysis.Real.Sqrt
import Mathlib.LinearAlgebra.Matrix.Notation
import Mathlib.Tactic.FinCases
import Mathlib.Tactic.FieldSimp

/-!
# `CtcLohner`: exact computations on symmetric vectors, and instances of the parameters
-/

set_option linter.unusedSectionVars false

namespace Codac.Loh
open Codac Set

/-- centre of an interval; a bound when there is one only -/
noncomputable def midR : Itv ℝ → ℝ
  | .empty => 0
  | .mk (some a) (some b) _ => (a + b) / 2
  | .mk (some a) none _ => a
  | .mk none (some b) _ => b
  | .mk none none _ => 0

theorem midR_mem (I : Itv ℝ) (x : ℝ) (h : x ∈ I) : midR I ∈ I := by
  match I, h with
  | .mk (some a) (some b) p, h =>
    have h' : a ≤ b := p
    exact ⟨show a ≤ (a + b) / 2 by linarith, show (a + b) / 2 ≤ b by linarith⟩
  | .mk (some a) none p, h => exact ⟨le_refl a, trivial⟩
  | .mk none (some b) p, h => exact ⟨trivial, le_refl b⟩
  | .mk none none p, h => exact ⟨trivial, trivial⟩

theorem midR_icc {a b : ℝ} (h : a ≤ b) : midR (Itv.icc a b) = (a + b) / 2 := by
  rw [Itv.icc_eq_mk h]
  rfl

theorem midR_point (a : ℝ) : midR (Itv.point a) = a := by
  rw [point_eq_icc, midR_icc le_rfl]
  ring

theorem mul_point (a b : ℝ) : Itv.mul (Itv.point a) (Itv.point b) = Itv.point (a * b) := by
  rw [point_eq_icc, point_eq_icc, icc_mul le_rfl le_rfl, point_eq_icc]
  simp

theorem add_point (a b : ℝ) : Itv.add (Itv.point a) (Itv.point b) = Itv.point (a + b) := by
  rw [point_eq_icc, point_eq_icc, icc_add le_rfl le_rfl, point_eq_icc]

theorem sub_point (a b : ℝ) : Itv.sub (Itv.point a) (Itv.point b) = Itv.point (a - b) := by
  rw [point_eq_icc, point_eq_icc, icc_sub le_rfl le_rfl, point_eq_icc]

theorem zero_mul_bdd {I : Itv ℝ} (h : Bdd I) : Itv.mul (Itv.point 0) I = Itv.point 0 := by
  obtain ⟨a, b, h1, rfl⟩ := h
  rw [point_eq_icc, icc_mul le_rfl h1]
  simp

theorem isum_point {n : Nat} (f : Fin n → ℝ) : isum (fun j => Itv.point (f j)) = Itv.point (∑ j, f j) := by
  induction n with
  | zero => simp [isum]
  | succ n ih =>
    unfold isum at ih ⊢
    rw [List.ofFn_succ, List.foldr_cons, ih fun j => f j.succ, add_point, Fin.sum_univ_succ]

theorem isum_sym {n : Nat} (f : Fin n → ℝ) (h : ∀ j, 0 ≤ f j) : isum (fun j => Itv.icc (-(f j)) (f j)) = Itv.icc (-∑ j, f j) (∑ j, f j) := by
  induction n with
  | zero => simp [isum, point_eq_icc]
  | succ n ih =>
    unfold isum at ih ⊢
    have h0 := h 0
    have hs : 0 ≤ ∑ j : Fin n, f j.succ := Finset.sum_nonneg fun j _ => h j.succ
    rw [List.ofFn_succ, List.foldr_cons, ih (fun j => f j.succ) fun j => h j.succ, icc_add (by linarith) (by linarith), Fin.sum_univ_succ, neg_add]

variable {n : Nat}

theorem mulMM_point (M N : Matrix (Fin n) (Fin n) ℝ) : mulMM (ptM M) (ptM N) = ptM (M * N) := by
  funext i k
  simp only [mulMM, ptM, mul_point, Matrix.mul_apply]
  exact isum_point fun j => M i j * N j k

theorem mulMV_point (M : Matrix (Fin n) (Fin n) ℝ) (v : Fin n → ℝ) : mulMV (ptM M) (ptV v) = ptV (M.mulVec v) := by
  funext i
  simp only [mulMV, ptM, ptV, mul_point, Matrix.mulVec, dotProduct]
  exact isum_point fun j => M i j * v j

theorem addV_point (v w : Fin n → ℝ) : addV (ptV v) (ptV w) = ptV (v + w) := by
  funext i
  exact add_point _ _

theorem subV_point (v w : Fin n → ℝ) : subV (ptV v) (ptV w) = ptV (v - w) := by
  funext i
  exact sub_point _ _

/-- the vector of the intervals `[-ρ,ρ]` -/
noncomputable def symV (ρ : Fin n → ℝ) : IV n ℝ := fun j => Itv.icc (-(ρ j)) (ρ j)

/-- image of the radii by a matrix -/
noncomputable def radius (M : Matrix (Fin n) (Fin n) ℝ) (ρ : Fin n → ℝ) : Fin n → ℝ := fun i => ∑ j, |M i j| * ρ j

theorem radius_nonneg (M : Matrix (Fin n) (Fin n) ℝ) {ρ : Fin n → ℝ} (h : ∀ j, 0 ≤ ρ j) (i : Fin n) : 0 ≤ radius M ρ i :=
  Finset.sum_nonneg fun j _ => mul_nonneg (abs_nonneg _) (h j)

theorem mulMV_sym (M : Matrix (Fin n) (Fin n) ℝ) {ρ : Fin n → ℝ} (h : ∀ j, 0 ≤ ρ j) : mulMV (ptM M) (symV ρ) = symV (radius M ρ) := by
  funext i
  have e : ∀ j, Itv.mul (ptM M i j) (symV ρ j) = Itv.icc (-(|M i j| * ρ j)) (|M i j| * ρ j) := by
    intro j
    simp only [ptM, symV, point_eq_icc]
    rw [mul_sym le_rfl (h j), max_self]
  unfold mulMV
  simp only [e]
  exact isum_sym _ fun j => mul_nonneg (abs_nonneg _) (h j)

theorem addV_point_sym (c : Fin n → ℝ) {ρ : Fin n → ℝ} (h : ∀ j, 0 ≤ ρ j) : addV (ptV c) (symV ρ) = fun i => Itv.icc (c i - ρ i) (c i + ρ i) := by
  funext i
  simp only [addV, ptV, symV, point_eq_icc]
  rw [icc_add le_rfl (by linarith [h i]), sub_eq_add_neg]

/-! ### Linear systems -/

/-- the parameters of the system `x' = M x` -/
noncomputable def linP (M : Matrix (Fin n) (Fin n) ℝ) (qr : Matrix (Fin n) (Fin n) ℝ → Matrix (Fin n) (Fin n) ℝ × Matrix (Fin n) (Fin n) ℝ) (k : Nat) : Lohner n ℝ where
  F := fun X => mulMV (ptM M) X
  J := fun _ => ptM M
  mid := midR
  qr := qr
  eps := 1 / 10
  contractions := k

variable {M : Matrix (Fin n) (Fin n) ℝ} {qr : Matrix (Fin n) (Fin n) ℝ → Matrix (Fin n) (Fin n) ℝ × Matrix (Fin n) (Fin n) ℝ} {k : Nat}

theorem lin_faithful (hq : ∀ A, (qr A).1 * (qr A).2 = 1) (hk : 1 ≤ k) : Faithful (linP M qr k) fun v => M.mulVec v := by
  have hL : ∀ v, M.mulVec v = LinearMap.toContinuousLinearMap (Matrix.toLin' M) v := fun v => by simp
  have hf : (fun v => M.mulVec v) = ⇑(LinearMap.toContinuousLinearMap (Matrix.toLin' M)) := funext hL
  refine ⟨?_, fun X v h => mem_mulMV (mem_ptM M) h, fun X v _ i j => ?_, fun v i => ?_, midR_mem, hq, hk⟩
  · rw [hf]
    exact ContinuousLinearMap.contDiff _
  · rw [hf, ContinuousLinearMap.fderiv, ← hL, Matrix.mulVec_single_one]
    exact Itv.mem_point.2 rfl
  · change midR (mulMV (ptM M) (ptV v) i) = _
    rw [mulMV_point]
    exact midR_point _

theorem lin_tame : Tame (linP M qr k) where
  centre := fun _ _ h => midR_icc h
  evalB := fun _ h _ => Bdd.isum fun j => Bdd.mul (bdd_point _) (h j)
  jacB := fun _ _ _ _ => bdd_point _

/-! ### Rotation which makes a matrix of two columns upper triangular -/

/-- orthogonal matrix of the QR decomposition of a matrix of dimension 2 -/
noncomputable def rot (A : Matrix (Fin 2) (Fin 2) ℝ) : Matrix (Fin 2) (Fin 2) ℝ :=
  let d := √(A 0 0 * A 0 0 + A 1 0 * A 1 0)
  if d = 0 then 1 else !![A 0 0 / d, -(A 1 0 / d); A 1 0 / d, A 0 0 / d]

/-- the decomposition: orthogonal matrix, and its inverse -/
noncomputable def rotQR (A : Matrix (Fin 2) (Fin 2) ℝ) : Matrix (Fin 2) (Fin 2) ℝ × Matrix (Fin 2) (Fin 2) ℝ := (rot A, (rot A).transpose)

theorem rot_eq {A : Matrix (Fin 2) (Fin 2) ℝ} {d : ℝ} (hd : 0 < d) (h : A 0 0 * A 0 0 + A 1 0 * A 1 0 = d * d) :
    rot A = !![A 0 0 / d, -(A 1 0 / d); A 1 0 / d, A 0 0 / d] := by
  have : √(A 0 0 * A 0 0 + A 1 0 * A 1 0) = d := by rw [h, Real.sqrt_mul_self hd.le]
  unfold rot
  simp only [this]
  rw [if_neg hd.ne']

theorem rot_cases (A : Matrix (Fin 2) (Fin 2) ℝ) : (rot A = 1 ∧ A 1 0 = 0) ∨
    ∃ d, d ≠ 0 ∧ A 0 0 * A 0 0 + A 1 0 * A 1 0 = d * d ∧ rot A = !![A 0 0 / d, -(A 1 0 / d); A 1 0 / d, A 0 0 / d] := by
  have hn : 0 ≤ A 0 0 * A 0 0 + A 1 0 * A 1 0 := add_nonneg (mul_self_nonneg _) (mul_self_nonneg _)
  by_cases h : √(A 0 0 * A 0 0 + A 1 0 * A 1 0) = 0
  · left
    refine ⟨by unfold rot; simp only [h, if_true], ?_⟩
    rw [Real.sqrt_eq_zero hn] at h
    nlinarith [mul_self_nonneg (A 0 0), mul_self_nonneg (A 1 0)]
  · right
    exact ⟨_, h, (Real.mul_self_sqrt hn).symm, by unfold rot; simp only [h, if_false]⟩

theorem rot_orth (A : Matrix (Fin 2) (Fin 2) ℝ) : rot A * (rot A).transpose = 1 := by
  rcases rot_cases A with ⟨h, -⟩ | ⟨d, hd, h, e⟩
  · rw [h]; simp
  · rw [e]
    ext i j
    fin_cases i <;> fin_cases j <;> simp [Matrix.mul_apply, Fin.sum_univ_two] <;> field_simp <;> linarith

theorem rot_tri (A : Matrix (Fin 2) (Fin 2) ℝ) : ((rot A).transpose * A) 1 0 = 0 := by
  rcases rot_cases A with ⟨h, h0⟩ | ⟨d, hd, h, e⟩
  · rw [h]; simpa using h0
  · rw [e]
    simp [Matrix.mul_apply, Fin.sum_univ_two]
    field_simp
    ring

end Codac.Loh
