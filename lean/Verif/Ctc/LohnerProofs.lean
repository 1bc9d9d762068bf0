import Verif.Ctc.LohnerModel
import Verif.Ctc.LohnerFlow
import Mathlib.Algebra.BigOperators.Fin

/-!
# `CtcLohner`: one step of the integration encloses the solutions
-/

set_option linter.unusedSectionVars false

namespace Codac.Loh
open Codac Set

section
variable {K : Type*} [Field K] [LinearOrder K] [IsStrictOrderedRing K] {n : Nat}

/-- the vector is in the box -/
def InV (v : Fin n → K) (X : IV n K) : Prop := ∀ i, v i ∈ X i

theorem mem_isum {n : Nat} {g : Fin n → Itv K} {v : Fin n → K} (h : ∀ j, v j ∈ g j) : ∑ j, v j ∈ isum g := by
  induction n with
  | zero => simp [isum]
  | succ n ih =>
    unfold isum
    rw [List.ofFn_succ, List.foldr_cons, Fin.sum_univ_succ]
    exact Itv.mem_add (h 0) (ih (fun j => h j.succ))

theorem mem_mulMV {M : IM n K} {m : Matrix (Fin n) (Fin n) K} {X : IV n K} {v : Fin n → K} (hm : ∀ i j, m i j ∈ M i j) (hv : InV v X) :
    InV (m.mulVec v) (mulMV M X) := fun i => mem_isum fun j => Itv.mem_mul (hm i j) (hv j)

theorem mem_mulMM {M N : IM n K} {m p : Matrix (Fin n) (Fin n) K} (hm : ∀ i j, m i j ∈ M i j) (hp : ∀ i j, p i j ∈ N i j) :
    ∀ i j, (m * p) i j ∈ mulMM M N i j := fun i k => by
  rw [Matrix.mul_apply]
  exact mem_isum fun j => Itv.mem_mul (hm i j) (hp j k)

theorem mem_ptM (m : Matrix (Fin n) (Fin n) K) : ∀ i j, m i j ∈ ptM m i j := fun _ _ => Itv.mem_point.2 rfl

theorem mem_ptV (v : Fin n → K) : InV v (ptV v) := fun _ => Itv.mem_point.2 rfl

end

variable {n : Nat}

/-- what is assumed of the parameters: `φ` is continuously differentiable, `F` and `J` enclose it and its partial derivatives, the evaluation at a
point has the value of `φ` as middle, the middle of an interval belongs to it, the inverse of the orthogonal matrix is exact, and there is at least one iteration -/
structure Faithful (P : Lohner n ℝ) (φ : (Fin n → ℝ) → (Fin n → ℝ)) : Prop where
  smooth : ContDiff ℝ 1 φ
  eval : ∀ X v, InV v X → InV (φ v) (P.F X)
  jac : ∀ X v, InV v X → ∀ i j, fderiv ℝ φ v (Pi.single j 1) i ∈ P.J X i j
  thin : ∀ v i, P.mid (P.F (ptV v) i) = φ v i
  mid_mem : ∀ I x, x ∈ I → P.mid I ∈ I
  qr : ∀ M, (P.qr M).1 * (P.qr M).2 = 1
  contr : 1 ≤ P.contractions

/-- `y` is a solution of `y' = σ φ(y)` on `[0,h]` -/
def Flow (φ : (Fin n → ℝ) → (Fin n → ℝ)) (σ h : ℝ) (y : ℝ → Fin n → ℝ) : Prop :=
  ∀ s ∈ Icc 0 h, HasDerivWithinAt y (σ • φ (y s)) (Icc 0 h) s

theorem Flow.reverse {φ : (Fin n → ℝ) → (Fin n → ℝ)} {σ h : ℝ} {y : ℝ → Fin n → ℝ} (hy : Flow φ σ h y) : Flow φ (-1 * σ) h (fun s => y (h - s)) := by
  intro s hs
  have hs' : h - s ∈ Icc 0 h := ⟨by linarith [hs.2], by linarith [hs.1]⟩
  have h1 : HasDerivWithinAt (fun s => h - s) (-1 : ℝ) (Icc 0 h) s := by
    simpa using (hasDerivWithinAt_id s (Icc 0 h)).const_sub h
  have h2 := HasDerivWithinAt.scomp s (hy (h - s) hs') h1 (fun t ht => ⟨by linarith [ht.2], by linarith [ht.1]⟩)
  rw [smul_smul] at h2
  exact h2

variable {P : Lohner n ℝ} {φ : (Fin n → ℝ) → (Fin n → ℝ)}

theorem enclLoop_sound (hP : Faithful P φ) {σ h : ℝ} (hh : 0 ≤ h) {y : ℝ → Fin n → ℝ} (hy : Flow φ σ h y) {guess : IV n ℝ} (hg : InV (y 0) guess)
    (k : Nat) {u0 U : IV n ℝ} (h0 : InV (y 0) u0) (hU : P.enclLoop σ h guess k u0 = some U) : ∀ s ∈ Icc 0 h, InV (y s) U := by
  induction k generalizing u0 with
  | zero => cases hU
  | succ k ih =>
    rw [Lohner.enclLoop] at hU
    have hmem : ∀ w, InV w u0 → ∀ s ∈ Icc 0 h, ∀ i, y 0 i + s * (σ * φ w i) ∈ addV guess (smulV (Itv.mul (Itv.point σ) (Itv.icc 0 h)) (P.F u0)) i := by
      intro w hw s hs i
      have h1 : σ * s ∈ Itv.mul (Itv.point σ) (Itv.icc 0 h) := Itv.mem_mul (Itv.mem_point.2 rfl) (Itv.mem_icc.2 hs)
      have h2 := Itv.mem_add (hg i) (Itv.mem_mul h1 (hP.eval u0 w hw i))
      have e : y 0 i + s * (σ * φ w i) = y 0 i + σ * s * φ w i := by ring
      rw [e]
      exact h2
    by_cases hc : ∀ i, addV guess (smulV (Itv.mul (Itv.point σ) (Itv.icc 0 h)) (P.F u0)) i ≤ u0 i
    · rw [if_pos hc] at hU
      obtain rfl := Option.some.inj hU
      have hψ : ContDiff ℝ 1 (fun v => σ • φ v) := hP.smooth.const_smul σ
      exact stays hψ hy h0 fun w hw s hs i => Itv.mem_of_le (hc i) (hmem w hw s hs i)
    · rw [if_neg hc] at hU
      refine ih ?_ hU
      intro i
      have h1 := hmem (y 0) h0 0 ⟨le_rfl, hh⟩ i
      rw [zero_mul, add_zero] at h1
      have h2 := Itv.mem_sub (Itv.mem_mul (Itv.mem_point.2 rfl : (1 + P.eps) ∈ Itv.point (1 + P.eps)) h1)
        (Itv.mem_mul (Itv.mem_point.2 rfl : P.eps ∈ Itv.point P.eps) h1)
      have e : (1 + P.eps) * y 0 i - P.eps * y 0 i = y 0 i := by ring
      rw [e] at h2
      exact h2

theorem global_sound (hP : Faithful P φ) {σ h : ℝ} (hh : 0 ≤ h) {y : ℝ → Fin n → ℝ} (hy : Flow φ σ h y) {guess U : IV n ℝ} (hg : InV (y 0) guess)
    (hU : P.globalEnclosure σ h guess = some U) : ∀ s ∈ Icc 0 h, InV (y s) U := enclLoop_sound hP hh hy hg 30 hg hU

/-- the vector is in the parallelepiped `û + B r` -/
def InPar (a : Alg n ℝ) (v : Fin n → ℝ) : Prop := ∃ ρ, InV ρ a.r ∧ v = a.uh + a.B.mulVec ρ

theorem refine_sound (hP : Faithful P φ) {σ h : ℝ} (hσ : σ * σ = 1) (hh : 0 < h) {y : ℝ → Fin n → ℝ} (hy : Flow φ σ h y) {a : Alg n ℝ}
    (hu : InV (y 0) a.u) (hc : InV a.uh a.u) (hp : InPar a (y 0)) {ut : IV n ℝ} (hut : ∀ s ∈ Icc 0 h, InV (y s) ut) :
    InPar (P.refine σ h a ut) (y h) ∧ InV (y h) (P.refine σ h a ut).u := by
  obtain ⟨ρ, hρ, e0⟩ := hp
  -- remainder
  have hT : ∀ i, ∃ c ∈ Ioo 0 h, y h i = y 0 i + h * (σ * φ (y 0) i) + 1 / 2 * h * h * ∑ j, fderiv ℝ φ (y c) (Pi.single j 1) i * φ (y c) j := by
    intro i
    obtain ⟨c, hc1, e⟩ := taylor2 (p := fun s => y s i) (q := fun s => σ * φ (y s) i)
      (q' := fun s => σ * ∑ j, fderiv ℝ φ (y s) (Pi.single j 1) i * (σ • φ (y s)) j) hh
      (fun s hs => hasDerivWithinAt_pi.1 (hy s hs) i) (fun s hs => (second_deriv hP.smooth (hy s hs) i).const_mul σ)
    refine ⟨c, hc1, ?_⟩
    have e' : σ * ∑ j, fderiv ℝ φ (y c) (Pi.single j 1) i * (σ • φ (y c)) j = ∑ j, fderiv ℝ φ (y c) (Pi.single j 1) i * φ (y c) j := by
      rw [Finset.mul_sum]
      refine Finset.sum_congr rfl fun j _ => ?_
      rw [Pi.smul_apply, smul_eq_mul]
      linear_combination (fderiv ℝ φ (y c) (Pi.single j 1) i * φ (y c) j) * hσ
    rw [← e']
    exact e
  choose c hc1 hT using hT
  set z1 := mulMV (smulM (Itv.point (1 / 2 * h * h)) (P.J ut)) (P.F ut) with hz1
  let R : Fin n → ℝ := fun i => ∑ j, (1 / 2 * h * h * fderiv ℝ φ (y (c i)) (Pi.single j 1) i) * φ (y (c i)) j
  have hR : InV R z1 := by
    intro i
    have hin := hut (c i) ⟨(hc1 i).1.le, (hc1 i).2.le⟩
    exact mem_isum fun j => Itv.mem_mul (Itv.mem_mul (Itv.mem_point.2 rfl) (hP.jac ut _ hin i j)) (hP.eval ut _ hin j)
  -- mean value
  have hMV := fun i => mean_value hP.smooth a.uh (y 0) i
  choose q hq1 hMV using hMV
  have hqu : ∀ i, InV (q i) a.u := by
    intro i j
    obtain ⟨k1, k2⟩ := hq1 i j
    rcases le_total (a.uh j) (y 0 j) with hle | hle
    · rw [min_eq_left hle] at k1
      rw [max_eq_right hle] at k2
      exact Itv.mem_of_between (hc j) (hu j) k1 k2
    · rw [min_eq_right hle] at k1
      rw [max_eq_left hle] at k2
      exact Itv.mem_of_between (hu j) (hc j) k1 k2
  let Am : Matrix (Fin n) (Fin n) ℝ := fun i j => (1 : Matrix (Fin n) (Fin n) ℝ) i j + h * σ * fderiv ℝ φ (q i) (Pi.single j 1) i
  have hA : ∀ i j, Am i j ∈ P.matA σ h a.u i j := fun i j =>
    Itv.mem_add (Itv.mem_point.2 rfl) (Itv.mem_mul (Itv.mem_point.2 rfl) (hP.jac a.u _ (hqu i) i j))
  set Q := P.qr fun i j => P.mid (mulMM (P.matA σ h a.u) (ptM a.B) i j) with hQ
  have hQ1 : Q.1 * Q.2 = 1 := hP.qr _
  let m1 : Fin n → ℝ := fun i => P.mid (z1 i)
  let uh1 : Fin n → ℝ := fun i => a.uh i + h * σ * P.mid (P.F (ptV a.uh) i) + m1 i
  -- the exact formula
  have hdiff : y 0 - a.uh = a.B.mulVec ρ := by rw [e0]; simp
  have hstep : y h = uh1 + (Am.mulVec (a.B.mulVec ρ) + (R - m1)) := by
    funext i
    have e1 : Am.mulVec (a.B.mulVec ρ) i = (y 0 i - a.uh i) + h * σ * (φ (y 0) i - φ a.uh i) := by
      rw [← hdiff, hMV i, Matrix.mulVec, dotProduct, Finset.mul_sum]
      have : ∀ j, Am i j * (y 0 - a.uh) j = (1 : Matrix (Fin n) (Fin n) ℝ) i j * (y 0 - a.uh) j +
          h * σ * (fderiv ℝ φ (q i) (Pi.single j 1) i * (y 0 j - a.uh j)) := by
        intro j
        simp only [Am, Pi.sub_apply]
        ring
      rw [Finset.sum_congr rfl fun j _ => this j, Finset.sum_add_distrib]
      congr 1
      have h1 : (1 : Matrix (Fin n) (Fin n) ℝ).mulVec (y 0 - a.uh) i = (y 0 - a.uh) i := by rw [Matrix.one_mulVec]
      rw [Matrix.mulVec, dotProduct] at h1
      rw [h1, Pi.sub_apply]
    have e2 : R i = 1 / 2 * h * h * ∑ j, fderiv ℝ φ (y (c i)) (Pi.single j 1) i * φ (y (c i)) j := by
      simp only [R]
      rw [Finset.mul_sum]
      exact Finset.sum_congr rfl fun j _ => by ring
    simp only [Pi.add_apply, Pi.sub_apply, uh1]
    rw [e1, e2, hP.thin, hT i]
    ring
  let ρ1 : Fin n → ℝ := (Q.2 * Am * a.B).mulVec ρ + Q.2.mulVec (R - m1)
  have hρ1 : InV ρ1 (P.refine σ h a ut).r := by
    intro i
    have k1 := mem_mulMV (mem_mulMM (mem_mulMM (mem_ptM Q.2) hA) (mem_ptM a.B)) hρ i
    have k2 := mem_mulMV (mem_ptM Q.2) (fun i => Itv.mem_sub (hR i) (mem_ptV m1 i) : InV (R - m1) (subV z1 (ptV m1))) i
    exact Itv.mem_add k1 k2
  have heq : y h = uh1 + Q.1.mulVec ρ1 := by
    have : Q.1.mulVec ρ1 = Am.mulVec (a.B.mulVec ρ) + (R - m1) := by
      simp only [ρ1]
      rw [Matrix.mulVec_add, Matrix.mulVec_mulVec, Matrix.mulVec_mulVec, ← Matrix.mul_assoc, ← Matrix.mul_assoc, hQ1, Matrix.one_mul, Matrix.one_mulVec,
        Matrix.mulVec_mulVec]
    rw [this]
    exact hstep
  refine ⟨⟨ρ1, hρ1, heq⟩, ?_⟩
  rw [heq]
  intro i
  exact Itv.mem_add (Itv.mem_point.2 rfl) (mem_mulMV (mem_ptM Q.1) hρ1 i)

theorem contrLoop_sound (hP : Faithful P φ) {σ h : ℝ} (hσ : σ * σ = 1) (hh : 0 < h) {y : ℝ → Fin n → ℝ} (hy : Flow φ σ h y) {a : Alg n ℝ}
    (hu : InV (y 0) a.u) (hc : InV a.uh a.u) (hp : InPar a (y 0)) (k : Nat) {ut : IV n ℝ} (hut : ∀ s ∈ Icc 0 h, InV (y s) ut) {a' : Alg n ℝ}
    (ha : P.contrLoop σ h a k ut = some a') : InPar a' (y h) ∧ InV (y h) a'.u ∧ ∀ s ∈ Icc 0 h, InV (y s) a'.ut := by
  induction k generalizing ut with
  | zero =>
    rw [Lohner.contrLoop] at ha
    obtain rfl := Option.some.inj ha
    obtain ⟨h1, h2⟩ := refine_sound hP hσ hh hy hu hc hp hut
    exact ⟨h1, h2, hut⟩
  | succ k ih =>
    rw [Lohner.contrLoop, Option.bind_eq_some_iff] at ha
    obtain ⟨g, hg, ha⟩ := ha
    refine ih ?_ ha
    intro s hs i
    refine Itv.mem_inf.2 ⟨hut s hs i, ?_⟩
    have h1 := global_sound hP hh.le hy.reverse (by
      simp only [sub_zero]
      exact (refine_sound hP hσ hh hy hu hc hp hut).2) hg (h - s) ⟨by linarith [hs.2], by linarith [hs.1]⟩ i
    simpa using h1

theorem integrate_sound (hP : Faithful P φ) {σ h : ℝ} (hσ : σ * σ = 1) (hh : 0 < h) {y : ℝ → Fin n → ℝ} (hy : Flow φ σ h y) {a : Alg n ℝ}
    (hu : InV (y 0) a.u) (hc : InV a.uh a.u) (hp : InPar a (y 0)) {a' : Alg n ℝ}
    (ha : P.integrate σ h a = some a') : InPar a' (y h) ∧ InV (y h) a'.u ∧ ∀ s ∈ Icc 0 h, InV (y s) a'.ut := by
  unfold Lohner.integrate at ha
  rw [Option.bind_eq_some_iff] at ha
  obtain ⟨ut, hut, ha⟩ := ha
  rw [one_mul] at hut
  have h1 := global_sound hP hh.le hy hu hut
  cases hk : P.contractions with
  | zero => exact absurd hP.contr (by rw [hk]; decide)
  | succ k =>
    rw [hk] at ha
    exact contrLoop_sound hP hσ hh hy hu hc hp k h1 ha

end Codac.Loh
