import Verif.Ctc.LohnerProofs

/-!
# `CtcLohner`: the boxes `r` are symmetric, and what follows for `contractStep`
-/

set_option linter.unusedSectionVars false

namespace Codac.Loh
open Codac Set

/-- bounded and not empty -/
def Bdd (I : Itv ℝ) : Prop := ∃ a b, a ≤ b ∧ I = Itv.icc a b

/-- symmetric with respect to 0, bounded and not empty -/
def Sym (I : Itv ℝ) : Prop := ∃ a, 0 ≤ a ∧ I = Itv.icc (-a) a

theorem Sym.bdd {I : Itv ℝ} (h : Sym I) : Bdd I := by
  obtain ⟨a, ha, rfl⟩ := h
  exact ⟨-a, a, by linarith, rfl⟩

theorem icc_add {a b c d : ℝ} (h1 : a ≤ b) (h2 : c ≤ d) : Itv.add (Itv.icc a b) (Itv.icc c d) = Itv.icc (a + c) (b + d) := by
  rw [Itv.icc_eq_mk h1, Itv.icc_eq_mk h2]
  rfl

theorem icc_neg {a b : ℝ} (h1 : a ≤ b) : Itv.neg (Itv.icc a b) = Itv.icc (-b) (-a) := by
  rw [Itv.icc_eq_mk h1]
  rfl

theorem icc_sub {a b c d : ℝ} (h1 : a ≤ b) (h2 : c ≤ d) : Itv.sub (Itv.icc a b) (Itv.icc c d) = Itv.icc (a - d) (b - c) := by
  unfold Itv.sub
  rw [icc_neg h2, icc_add h1 (by linarith)]
  rfl

theorem icc_mul {a b c d : ℝ} (h1 : a ≤ b) (h2 : c ≤ d) : Itv.mul (Itv.icc a b) (Itv.icc c d) =
    Itv.icc (min (min (a * c) (a * d)) (min (b * c) (b * d))) (max (max (a * c) (a * d)) (max (b * c) (b * d))) := by
  rw [Itv.icc_eq_mk h1, Itv.icc_eq_mk h2]
  rfl

theorem point_eq_icc (a : ℝ) : Itv.point a = Itv.icc a a := by
  rw [Itv.icc_eq_mk le_rfl]
  rfl

theorem bdd_point (a : ℝ) : Bdd (Itv.point a) := ⟨a, a, le_rfl, point_eq_icc a⟩

theorem Bdd.add {I J : Itv ℝ} (hI : Bdd I) (hJ : Bdd J) : Bdd (Itv.add I J) := by
  obtain ⟨a, b, h1, rfl⟩ := hI
  obtain ⟨c, d, h2, rfl⟩ := hJ
  exact ⟨_, _, by linarith, icc_add h1 h2⟩

theorem Bdd.sub {I J : Itv ℝ} (hI : Bdd I) (hJ : Bdd J) : Bdd (Itv.sub I J) := by
  obtain ⟨a, b, h1, rfl⟩ := hI
  obtain ⟨c, d, h2, rfl⟩ := hJ
  exact ⟨_, _, by linarith, icc_sub h1 h2⟩

theorem Bdd.mul {I J : Itv ℝ} (hI : Bdd I) (hJ : Bdd J) : Bdd (Itv.mul I J) := by
  obtain ⟨a, b, h1, rfl⟩ := hI
  obtain ⟨c, d, h2, rfl⟩ := hJ
  exact ⟨_, _, ((min_le_left _ _).trans (min_le_left _ _)).trans ((le_max_left _ _).trans (le_max_left _ _)), icc_mul h1 h2⟩

theorem Bdd.isum {n : Nat} {g : Fin n → Itv ℝ} (h : ∀ j, Bdd (g j)) : Bdd (isum g) := by
  induction n with
  | zero => exact bdd_point 0
  | succ n ih =>
    unfold Loh.isum
    rw [List.ofFn_succ, List.foldr_cons]
    exact (h 0).add (ih fun j => h j.succ)

theorem Bdd.inf {I J : Itv ℝ} (hJ : Bdd J) {x : ℝ} (hx : x ∈ I ⊓ J) : Bdd (I ⊓ J) := by
  obtain ⟨a, b, h1, rfl⟩ := hJ
  have hle : I ⊓ Itv.icc a b ≤ Itv.icc a b := inf_le_right
  rw [Itv.icc_eq_mk h1] at hle ⊢
  rw [Itv.icc_eq_mk h1] at hx
  cases h : I ⊓ Itv.mk (some a) (some b) h1 with
  | empty => rw [h] at hx; exact absurd hx (Itv.not_mem_empty _)
  | mk l u p =>
    rw [h] at hle
    cases l with
    | none => exact absurd hle.1 (by intro h; exact h)
    | some l => cases u with
      | none => exact absurd hle.2 (by intro h; exact h)
      | some u => exact ⟨l, u, p, (Itv.icc_eq_mk (p : l ≤ u)).symm⟩

theorem Sym.add {I J : Itv ℝ} (hI : Sym I) (hJ : Sym J) : Sym (Itv.add I J) := by
  obtain ⟨a, ha, rfl⟩ := hI
  obtain ⟨b, hb, rfl⟩ := hJ
  refine ⟨a + b, by linarith, ?_⟩
  rw [icc_add (by linarith) (by linarith)]
  congr 1
  ring

/-- product with a symmetric interval -/
theorem mul_sym {c d a : ℝ} (h : c ≤ d) (ha : 0 ≤ a) : Itv.mul (Itv.icc c d) (Itv.icc (-a) a) =
    Itv.icc (-(max |c| |d| * a)) (max |c| |d| * a) := by
  rw [icc_mul h (by linarith)]
  have e1 : ∀ x : ℝ, max (x * -a) (x * a) = |x| * a := by
    intro x
    rcases le_total 0 x with hx | hx
    · rw [abs_of_nonneg hx, max_eq_right (by nlinarith)]
    · rw [abs_of_nonpos hx, max_eq_left (by nlinarith)]
      ring
  have e2 : ∀ x : ℝ, min (x * -a) (x * a) = -(|x| * a) := by
    intro x
    rcases le_total 0 x with hx | hx
    · rw [abs_of_nonneg hx, min_eq_left (by nlinarith)]
      ring
    · rw [abs_of_nonpos hx, min_eq_right (by nlinarith)]
      ring
  rw [e1, e1, e2, e2, min_neg_neg, max_mul_of_nonneg _ _ ha]

theorem Sym.mul {I J : Itv ℝ} (hI : Bdd I) (hJ : Sym J) : Sym (Itv.mul I J) := by
  obtain ⟨c, d, h1, rfl⟩ := hI
  obtain ⟨a, ha, rfl⟩ := hJ
  exact ⟨_, mul_nonneg ((abs_nonneg _).trans (le_max_left _ _)) ha, mul_sym h1 ha⟩

theorem Sym.isum {n : Nat} {g : Fin n → Itv ℝ} (h : ∀ j, Sym (g j)) : Sym (isum g) := by
  induction n with
  | zero => exact ⟨0, le_rfl, by rw [neg_zero]; exact point_eq_icc 0⟩
  | succ n ih =>
    unfold Loh.isum
    rw [List.ofFn_succ, List.foldr_cons]
    exact (h 0).add (ih fun j => h j.succ)

theorem Sym.inf {I J : Itv ℝ} (hI : Sym I) (hJ : Sym J) : Sym (I ⊓ J) := by
  obtain ⟨a, ha, rfl⟩ := hI
  obtain ⟨b, hb, rfl⟩ := hJ
  refine ⟨min a b, le_min ha hb, Itv.ext_mem fun x => ?_⟩
  simp only [Itv.mem_inf, Itv.mem_icc, neg_le, le_min_iff]
  tauto

variable {n : Nat} {P : Lohner n ℝ} {φ : (Fin n → ℝ) → (Fin n → ℝ)}

/-- the middle of a bounded interval is its centre, and the evaluations on bounded boxes are bounded -/
structure Tame (P : Lohner n ℝ) : Prop where
  centre : ∀ a b, a ≤ b → P.mid (Itv.icc a b) = (a + b) / 2
  evalB : ∀ X : IV n ℝ, (∀ i, Bdd (X i)) → ∀ i, Bdd (P.F X i)
  jacB : ∀ X : IV n ℝ, (∀ i, Bdd (X i)) → ∀ i j, Bdd (P.J X i j)

theorem Tame.subMid (h : Tame P) {I : Itv ℝ} (hI : Bdd I) : Sym (Itv.sub I (Itv.point (P.mid I))) := by
  obtain ⟨a, b, h1, rfl⟩ := hI
  rw [h.centre a b h1, point_eq_icc, icc_sub h1 le_rfl]
  refine ⟨(b - a) / 2, by linarith, ?_⟩
  congr 1 <;> ring

theorem enclLoop_bdd (h : Tame P) {σ hs : ℝ} (hh : 0 ≤ hs) {guess : IV n ℝ} (hg : ∀ i, Bdd (guess i)) (k : Nat) {u0 U : IV n ℝ} (h0 : ∀ i, Bdd (u0 i))
    (hU : P.enclLoop σ hs guess k u0 = some U) : ∀ i, Bdd (U i) := by
  induction k generalizing u0 with
  | zero => cases hU
  | succ k ih =>
    rw [Lohner.enclLoop] at hU
    have h1 : ∀ i, Bdd (addV guess (smulV (Itv.mul (Itv.point σ) (Itv.icc 0 hs)) (P.F u0)) i) := fun i =>
      (hg i).add (((bdd_point σ).mul ⟨0, hs, hh, rfl⟩).mul (h.evalB u0 h0 i))
    by_cases hc : ∀ i, addV guess (smulV (Itv.mul (Itv.point σ) (Itv.icc 0 hs)) (P.F u0)) i ≤ u0 i
    · rw [if_pos hc] at hU
      obtain rfl := Option.some.inj hU
      exact h0
    · rw [if_neg hc] at hU
      exact ih (fun i => ((bdd_point _).mul (h1 i)).sub ((bdd_point _).mul (h1 i))) hU

/-- invariant of the algorithm: `r` symmetric, `u` bounded -/
structure AlgInv (a : Alg n ℝ) : Prop where
  r : ∀ i, Sym (a.r i)
  u : ∀ i, Bdd (a.u i)
  inv : a.B * a.Binv = 1

/-- `u` is the box around `û + B r` -/
def IsHull (a : Alg n ℝ) : Prop := a.u = addV (ptV a.uh) (mulMV (ptM a.B) a.r)

theorem refine_inv (hP : Faithful P φ) (h : Tame P) {σ hs : ℝ} {a : Alg n ℝ} (ha : AlgInv a) {ut : IV n ℝ} (hut : ∀ i, Bdd (ut i)) :
    AlgInv (P.refine σ hs a ut) ∧ IsHull (P.refine σ hs a ut) := by
  have hz : ∀ i, Bdd (mulMV (smulM (Itv.point (1 / 2 * hs * hs)) (P.J ut)) (P.F ut) i) := fun i =>
    Bdd.isum fun j => ((bdd_point _).mul (h.jacB ut hut i j)).mul (h.evalB ut hut j)
  have hA : ∀ i j, Bdd (P.matA σ hs a.u i j) := fun i j => (bdd_point _).add ((bdd_point _).mul (h.jacB a.u ha.u i j))
  have hr : ∀ i, Sym ((P.refine σ hs a ut).r i) := by
    intro i
    refine Sym.add (Sym.isum fun j => Sym.mul ?_ (ha.r j)) (Sym.isum fun j => Sym.mul (bdd_point _) (h.subMid (hz j)))
    exact Bdd.isum fun k => (Bdd.isum fun l => (bdd_point _).mul (hA l k)).mul (bdd_point _)
  refine ⟨⟨hr, ?_, hP.qr _⟩, rfl⟩
  intro i
  exact (bdd_point _).add (Bdd.isum fun j => (bdd_point _).mul (hr j).bdd)

theorem contrLoop_inv (hP : Faithful P φ) (h : Tame P) {σ hs : ℝ} (hh : 0 < hs) (hσ : σ * σ = 1) {y : ℝ → Fin n → ℝ} (hy : Flow φ σ hs y) {a : Alg n ℝ}
    (hu : InV (y 0) a.u) (hc : InV a.uh a.u) (hp : InPar a (y 0)) (ha : AlgInv a) (k : Nat) {ut : IV n ℝ} (hut : ∀ i, Bdd (ut i))
    (hin : ∀ s ∈ Icc 0 hs, InV (y s) ut) {a' : Alg n ℝ} (he : P.contrLoop σ hs a k ut = some a') : AlgInv a' ∧ IsHull a' := by
  induction k generalizing ut with
  | zero =>
    rw [Lohner.contrLoop] at he
    obtain rfl := Option.some.inj he
    exact refine_inv hP h ha hut
  | succ k ih =>
    rw [Lohner.contrLoop, Option.bind_eq_some_iff] at he
    obtain ⟨g, hg, he⟩ := he
    have hin' : ∀ s ∈ Icc 0 hs, InV (y s) (infV ut g) := by
      intro s hs' i
      refine Itv.mem_inf.2 ⟨hin s hs' i, ?_⟩
      have h1 := global_sound hP hh.le hy.reverse (by
        simp only [sub_zero]
        exact (refine_sound hP hσ hh hy hu hc hp hin).2) hg (hs - s) ⟨by linarith [hs'.2], by linarith [hs'.1]⟩ i
      simpa using h1
    refine ih ?_ hin' he
    intro i
    exact Bdd.inf (enclLoop_bdd h hh.le ((refine_inv hP h ha hut).1.u) 30 ((refine_inv hP h ha hut).1.u) hg i) (hin' 0 ⟨le_rfl, hh.le⟩ i)

theorem integrate_inv (hP : Faithful P φ) (h : Tame P) {σ hs : ℝ} (hh : 0 < hs) (hσ : σ * σ = 1) {y : ℝ → Fin n → ℝ} (hy : Flow φ σ hs y) {a : Alg n ℝ}
    (hu : InV (y 0) a.u) (hc : InV a.uh a.u) (hp : InPar a (y 0)) (ha : AlgInv a) {a' : Alg n ℝ} (he : P.integrate σ hs a = some a') :
    AlgInv a' ∧ IsHull a' := by
  unfold Lohner.integrate at he
  rw [Option.bind_eq_some_iff] at he
  obtain ⟨ut, hut, he⟩ := he
  rw [one_mul] at hut
  have h1 := global_sound hP hh.le hy hu hut
  cases hk : P.contractions with
  | zero => exact absurd hP.contr (by rw [hk]; decide)
  | succ k =>
    rw [hk] at he
    exact contrLoop_inv hP h hh hσ hy hu hc hp ha k (enclLoop_bdd h hh.le ha.u 30 ha.u hut) h1 he

theorem contractStep_inv (h : Tame P) {a : Alg n ℝ} (ha : AlgInv a) {x : IV n ℝ} {v : Fin n → ℝ} (hx : InV v x) (hu : InV v a.u) :
    AlgInv (P.contractStep x a) := by
  have hb : ∀ i, Bdd (infV x a.u i) := fun i => Bdd.inf (ha.u i) (Itv.mem_inf.2 ⟨hx i, hu i⟩)
  exact ⟨fun i => Sym.inf (ha.r i) (Sym.isum fun j => Sym.mul (bdd_point _) (h.subMid (hb j))), hb, ha.inv⟩

theorem contractStep_in (hP : Faithful P φ) {a : Alg n ℝ} {x : IV n ℝ} {v : Fin n → ℝ} (hx : InV v x) (hu : InV v a.u) :
    InV v (P.contractStep x a).u ∧ InV (P.contractStep x a).uh (P.contractStep x a).u := by
  have h1 : InV v (P.contractStep x a).u := fun i => Itv.mem_inf.2 ⟨hx i, hu i⟩
  exact ⟨h1, fun i => hP.mid_mem _ _ (h1 i)⟩

/-- the parallelepiped still contains the vector, if `B⁻¹(v - û')` is in `r` -/
theorem contractStep_par {a : Alg n ℝ} (ha : AlgInv a) {x : IV n ℝ} {v : Fin n → ℝ} (hx : InV v x) (hu : InV v a.u)
    (hr : InV (a.Binv.mulVec (v - (P.contractStep x a).uh)) a.r) : InPar (P.contractStep x a) v := by
  refine ⟨a.Binv.mulVec (v - (P.contractStep x a).uh), fun i => Itv.mem_inf.2 ⟨hr i, ?_⟩, ?_⟩
  · exact mem_mulMV (mem_ptM a.Binv) (fun j => Itv.mem_sub (Itv.mem_inf.2 ⟨hx j, hu j⟩) (mem_ptV _ j) :
      InV (v - (P.contractStep x a).uh) (subV (infV x a.u) (ptV (P.contractStep x a).uh))) i
  · change v = (P.contractStep x a).uh + a.B.mulVec _
    rw [Matrix.mulVec_mulVec, ha.inv, Matrix.one_mulVec]
    simp

/-- a gate which does not restrict the enclosure -/
theorem contractStep_free (h : Tame P) {a : Alg n ℝ} (ha : AlgInv a) (hh : IsHull a) {x : IV n ℝ} (hx : ∀ i, a.u i ≤ x i) {v : Fin n → ℝ}
    (hp : InPar a v) (hu : InV v a.u) : InPar (P.contractStep x a) v := by
  have hue : infV x a.u = a.u := by
    funext i
    exact inf_eq_right.2 (hx i)
  have huh : (P.contractStep x a).uh = a.uh := by
    funext i
    change P.mid (infV x a.u i) = a.uh i
    rw [hue]
    have hs : Sym (mulMV (ptM a.B) a.r i) := Sym.isum fun j => Sym.mul (bdd_point _) (ha.r j)
    obtain ⟨e, he, hs⟩ := hs
    have : a.u i = Itv.icc (a.uh i + -e) (a.uh i + e) := by
      have h1 : a.u i = Itv.add (Itv.point (a.uh i)) (mulMV (ptM a.B) a.r i) := congrFun hh i
      rw [h1, hs, point_eq_icc, icc_add le_rfl (by linarith)]
    rw [this, h.centre _ _ (by linarith)]
    ring
  refine contractStep_par ha (fun i => Itv.mem_of_le (hx i) (hu i)) hu ?_
  obtain ⟨ρ, hρ, rfl⟩ := hp
  rw [huh, add_sub_cancel_left, Matrix.mulVec_mulVec, mul_eq_one_comm.1 ha.inv, Matrix.one_mulVec]
  exact hρ

/-- in dimension 1, all gates can be used -/
theorem contractStep_scalar {P : Lohner 1 ℝ} (h : Tame P) {a : Alg 1 ℝ} (ha : AlgInv a) (hh : IsHull a) {x : IV 1 ℝ} {v : Fin 1 → ℝ}
    (hx : InV v x) (hu : InV v a.u) : InPar (P.contractStep x a) v := by
  refine contractStep_par ha hx hu ?_
  obtain ⟨e, he, hr⟩ := ha.r 0
  obtain ⟨c, d, hcd, hb⟩ := Bdd.inf (I := x 0) (ha.u 0) (Itv.mem_inf.2 ⟨hx 0, hu 0⟩)
  have huh : (P.contractStep x a).uh 0 = (c + d) / 2 := by
    change P.mid (infV x a.u 0) = _
    rw [infV, hb, h.centre c d hcd]
  have hv : c ≤ v 0 ∧ v 0 ≤ d := by
    have := Itv.mem_inf.2 ⟨hx 0, hu 0⟩
    rw [hb] at this
    exact Itv.mem_icc.1 this
  have hu1 : a.u 0 = Itv.icc (a.uh 0 + -(|a.B 0 0| * e)) (a.uh 0 + |a.B 0 0| * e) := by
    have h1 : a.u 0 = Itv.add (Itv.point (a.uh 0)) (mulMV (ptM a.B) a.r 0) := congrFun hh 0
    have h2 : mulMV (ptM a.B) a.r 0 = Itv.icc (-(|a.B 0 0| * e)) (|a.B 0 0| * e) := by
      change Itv.add (Itv.mul (Itv.point (a.B 0 0)) (a.r 0)) (Itv.point 0) = _
      rw [hr, point_eq_icc, mul_sym le_rfl he, max_self, point_eq_icc, icc_add (by nlinarith [abs_nonneg (a.B 0 0), mul_nonneg (abs_nonneg (a.B 0 0)) he]) le_rfl,
        add_zero, add_zero]
    rw [h1, h2, point_eq_icc, icc_add le_rfl (by nlinarith [mul_nonneg (abs_nonneg (a.B 0 0)) he])]
  have hle : Itv.icc c d ≤ a.u 0 := by rw [← hb]; exact inf_le_right
  have hc' := Itv.mem_of_le hle (Itv.mem_icc.2 ⟨le_rfl, hcd⟩)
  have hd' := Itv.mem_of_le hle (Itv.mem_icc.2 ⟨hcd, le_rfl⟩)
  rw [hu1, Itv.mem_icc] at hc' hd'
  have hbi : |a.Binv 0 0| * |a.B 0 0| = 1 := by
    have := congrFun (congrFun ha.inv 0) 0
    rw [Matrix.mul_apply, Fin.sum_univ_one, Matrix.one_apply_eq] at this
    rw [← abs_mul, mul_comm, this, abs_one]
  have habs : |v 0 - (c + d) / 2| ≤ |a.B 0 0| * e := by
    rw [abs_le]
    constructor <;> linarith [hc'.1, hd'.2, hv.1, hv.2]
  intro i
  obtain rfl : i = 0 := Subsingleton.elim _ _
  have e1 : a.Binv.mulVec (v - (P.contractStep x a).uh) 0 = a.Binv 0 0 * (v 0 - (c + d) / 2) := by
    rw [Matrix.mulVec, dotProduct, Fin.sum_univ_one, Pi.sub_apply, huh]
  rw [e1, hr, Itv.mem_icc, ← abs_le, abs_mul]
  calc |a.Binv 0 0| * |v 0 - (c + d) / 2| ≤ |a.Binv 0 0| * (|a.B 0 0| * e) := mul_le_mul_of_nonneg_left habs (abs_nonneg _)
    _ = e := by rw [← mul_assoc, hbi, one_mul]

end Codac.Loh
