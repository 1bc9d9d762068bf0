import Verif.Ctc.LohnerLin

/-!
# `CtcLohner`: a solution lost when a gate restricts the enclosure

The system `x1' = 0`, `x2' = 4/3 x1`, integrated over `[0,1]` then `[1,45/32]`, with the gate `x1 ∈ [-3,-2]` at `1`.
-/

set_option linter.unusedSectionVars false

namespace Codac.Loh
open Codac Set

/-- matrix of the system -/
noncomputable def dM : Matrix (Fin 2) (Fin 2) ℝ := !![0, 0; 4 / 3, 0]

/-- the parameters -/
noncomputable def dP : Lohner 2 ℝ := linP dM rotQR 1

theorem dP_faithful : Faithful dP fun v => dM.mulVec v := lin_faithful (fun A => rot_orth A) le_rfl

theorem dP_tame : Tame dP := lin_tame

/-- the evaluation of the function -/
theorem dP_F {X : IV 2 ℝ} (h : ∀ i, Bdd (X i)) : dP.F X = ![Itv.point 0, Itv.mul (Itv.point (4 / 3)) (X 0)] := by
  have h0 := zero_mul_bdd (h 0)
  have h1 := zero_mul_bdd (h 1)
  obtain ⟨a, b, hab, e⟩ : Bdd (Itv.mul (Itv.point (4 / 3)) (X 0)) := (bdd_point _).mul (h 0)
  have key : ∀ i, dP.F X i = Itv.add (Itv.mul (Itv.point (dM i 0)) (X 0)) (Itv.add (Itv.mul (Itv.point (dM i 1)) (X 1)) (Itv.point 0)) := fun i => by
    change mulMV (ptM dM) X i = _
    simp [mulMV, isum, ptM]
  funext i
  rw [key]
  fin_cases i
  · simp [dM, h0, h1, add_point]
  · simp [dM, h1, add_point, e]
    rw [point_eq_icc, icc_add hab le_rfl]
    simp

theorem dP_z1 {X : IV 2 ℝ} (h : ∀ i, Bdd (X i)) (c : ℝ) : mulMV (smulM (Itv.point c) (dP.J X)) (dP.F X) = ptV 0 := by
  rw [dP_F h]
  have h1 : Bdd (Itv.mul (Itv.point (4 / 3)) (X 0)) := (bdd_point _).mul (h 0)
  funext i
  have key : ∀ i, mulMV (smulM (Itv.point c) (dP.J X)) ![Itv.point 0, Itv.mul (Itv.point (4 / 3)) (X 0)] i =
      Itv.add (Itv.mul (Itv.mul (Itv.point c) (Itv.point (dM i 0))) (Itv.point 0)) (Itv.add (Itv.mul (Itv.mul (Itv.point c) (Itv.point (dM i 1))) (Itv.mul (Itv.point (4 / 3)) (X 0))) (Itv.point 0)) := fun i => by
    change mulMV (smulM (Itv.point c) (ptM dM)) _ i = _
    simp [mulMV, isum, ptM, smulM]
  rw [key]
  fin_cases i <;> simp [dM, mul_point, zero_mul_bdd h1, add_point, ptV]

/-- the matrix `I + h M` -/
noncomputable def dA (h : ℝ) : Matrix (Fin 2) (Fin 2) ℝ := !![1, 0; h * (4 / 3), 1]

theorem dP_matA (h : ℝ) (u : IV 2 ℝ) : dP.matA 1 h u = ptM (dA h) := by
  funext i j
  change Itv.add (Itv.point _) (Itv.mul (Itv.point _) (Itv.point (dM i j))) = _
  rw [mul_point, add_point]
  unfold ptM
  congr 1
  fin_cases i <;> fin_cases j <;> simp [dA, dM]

/-- one step of the integration, with symmetric uncertainties -/
theorem dP_refine {h : ℝ} {a : Alg 2 ℝ} {ρ : Fin 2 → ℝ} (hρ : ∀ j, 0 ≤ ρ j) (hr : a.r = symV ρ) {ut : IV 2 ℝ} (hut : ∀ i, Bdd (ut i)) :
    let Q := rot (dA h * a.B)
    let ρ1 := radius (Q.transpose * dA h * a.B) ρ
    let uh1 : Fin 2 → ℝ := ![a.uh 0, a.uh 1 + h * (4 / 3 * a.uh 0)]
    dP.refine 1 h a ut = { u := fun i => Itv.icc (uh1 i - radius Q ρ1 i) (uh1 i + radius Q ρ1 i), r := symV ρ1, ut := ut, B := Q, Binv := Q.transpose, uh := uh1 } := by
  intro Q ρ1 uh1
  have hmid : ∀ A : Matrix (Fin 2) (Fin 2) ℝ, (fun i j => dP.mid (ptM A i j)) = A := fun A => by
    funext i j
    exact midR_point _
  have hm1 : (fun i => dP.mid (ptV (0 : Fin 2 → ℝ) i)) = 0 := by
    funext i
    exact midR_point _
  have hs : subV (ptV (0 : Fin 2 → ℝ)) (ptV 0) = ptV 0 := by
    funext i
    exact (sub_point _ _).trans (by simp [ptV])
  have hρ1 : ∀ i, 0 ≤ ρ1 i := radius_nonneg _ hρ
  have hadd : ∀ {σ : Fin 2 → ℝ}, (∀ j, 0 ≤ σ j) → addV (symV σ) (ptV 0) = symV σ := fun {σ} hσ => by
    funext i
    simp only [addV, symV, ptV, point_eq_icc]
    rw [icc_add (by linarith [hσ i]) le_rfl]
    simp
  have huh : (fun i => a.uh i + h * 1 * dP.mid (dP.F (ptV a.uh) i) + dP.mid (ptV (0 : Fin 2 → ℝ) i)) = uh1 := by
    funext i
    rw [dP_faithful.thin a.uh i, congrFun hm1 i]
    fin_cases i <;> simp [dM, uh1, Matrix.mulVec, dotProduct, Fin.sum_univ_two]
  have hQ : dP.qr (dA h * a.B) = (Q, Q.transpose) := rfl
  unfold Lohner.refine
  simp only [dP_z1 hut, dP_matA, mulMM_point, hmid, hm1, hs, hQ, mulMV_point, Matrix.mulVec_zero]
  have hr1 : addV (mulMV (ptM (Q.transpose * dA h * a.B)) a.r) (ptV 0) = symV ρ1 := by
    rw [hr, mulMV_sym _ hρ, hadd (radius_nonneg _ hρ)]
  rw [hr1, huh, mulMV_sym _ hρ1, addV_point_sym _ (radius_nonneg _ hρ1)]

theorem point_mul_icc {c a b : ℝ} (hc : 0 ≤ c) (h : a ≤ b) : Itv.mul (Itv.point c) (Itv.icc a b) = Itv.icc (c * a) (c * b) := by
  have h' : c * a ≤ c * b := mul_le_mul_of_nonneg_left h hc
  rw [point_eq_icc, icc_mul le_rfl h]
  simp [h']

theorem zero_icc_mul {h p q : ℝ} (hh : 0 ≤ h) (hpq : p ≤ q) : Itv.mul (Itv.icc 0 h) (Itv.icc p q) = Itv.icc (min 0 (h * p)) (max 0 (h * q)) := by
  have h' : h * p ≤ h * q := mul_le_mul_of_nonneg_left hpq hh
  rw [icc_mul hh hpq]
  simp [h']

/-- operator of `globalEnclosure` -/
theorem dP_picard {h a b c d a' b' c' d' : ℝ} (hh : 0 < h) (hab : a ≤ b) (hcd : c ≤ d) (hab' : a' ≤ b') (hcd' : c' ≤ d') :
    addV ![Itv.icc a b, Itv.icc c d] (smulV (Itv.mul (Itv.point (1 * 1)) (Itv.icc 0 h)) (dP.F ![Itv.icc a' b', Itv.icc c' d'])) =
      ![Itv.icc a b, Itv.icc (c + min 0 (h * (4 / 3 * a'))) (d + max 0 (h * (4 / 3 * b')))] := by
  have hb : ∀ i, Bdd ((![Itv.icc a' b', Itv.icc c' d'] : IV 2 ℝ) i) := fun i => by
    fin_cases i
    · exact ⟨_, _, hab', rfl⟩
    · exact ⟨_, _, hcd', rfl⟩
  have h4 : 4 / 3 * a' ≤ 4 / 3 * b' := by linarith
  rw [dP_F hb, one_mul, point_mul_icc zero_le_one hh.le]
  funext i
  fin_cases i
  · change Itv.add (Itv.icc a b) (Itv.mul (Itv.icc (1 * 0) (1 * h)) (Itv.point 0)) = Itv.icc a b
    rw [point_eq_icc, mul_zero, one_mul, zero_icc_mul hh.le le_rfl, mul_zero, min_self, max_self, icc_add hab le_rfl, add_zero, add_zero]
  · change Itv.add (Itv.icc c d) (Itv.mul (Itv.icc (1 * 0) (1 * h)) (Itv.mul (Itv.point (4 / 3)) (Itv.icc a' b'))) = _
    rw [mul_zero, one_mul, point_mul_icc (by norm_num) hab', zero_icc_mul hh.le h4,
      icc_add hcd ((min_le_left _ _).trans (le_max_left _ _))]
    rfl

/-- inflation -/
theorem inflate_icc {a b : ℝ} (h : a ≤ b) : Itv.sub (Itv.mul (Itv.point (1 + 1 / 10)) (Itv.icc a b)) (Itv.mul (Itv.point (1 / 10)) (Itv.icc a b)) =
    Itv.icc ((1 + 1 / 10) * a - 1 / 10 * b) ((1 + 1 / 10) * b - 1 / 10 * a) := by
  rw [point_mul_icc (by norm_num) h, point_mul_icc (by norm_num) h, icc_sub (by linarith) (by linarith)]

/-- the global enclosure is found in two iterations at most -/
theorem dP_encl {h a b c d : ℝ} (hh : 0 < h) (hab : a ≤ b) (hcd : c ≤ d) : (dP.globalEnclosure (1 * 1) h ![Itv.icc a b, Itv.icc c d]).isSome := by
  have hP : h * (4 / 3 * a) ≤ h * (4 / 3 * b) := mul_le_mul_of_nonneg_left (by linarith) hh.le
  have hCD : c + min 0 (h * (4 / 3 * a)) ≤ d + max 0 (h * (4 / 3 * b)) := add_le_add hcd ((min_le_left _ _).trans (le_max_left _ _))
  unfold Lohner.globalEnclosure
  rw [Lohner.enclLoop]
  simp only [dP_picard hh hab hcd hab hcd]
  split_ifs with h1
  · rfl
  · have e : subV (smulV (Itv.point (1 + dP.eps)) ![Itv.icc a b, Itv.icc (c + min 0 (h * (4 / 3 * a))) (d + max 0 (h * (4 / 3 * b)))])
        (smulV (Itv.point dP.eps) ![Itv.icc a b, Itv.icc (c + min 0 (h * (4 / 3 * a))) (d + max 0 (h * (4 / 3 * b)))]) =
        ![Itv.icc ((1 + 1 / 10) * a - 1 / 10 * b) ((1 + 1 / 10) * b - 1 / 10 * a),
          Itv.icc ((1 + 1 / 10) * (c + min 0 (h * (4 / 3 * a))) - 1 / 10 * (d + max 0 (h * (4 / 3 * b))))
            ((1 + 1 / 10) * (d + max 0 (h * (4 / 3 * b))) - 1 / 10 * (c + min 0 (h * (4 / 3 * a))))] := by
      funext i
      fin_cases i
      · exact inflate_icc hab
      · exact inflate_icc hCD
    rw [e, Lohner.enclLoop]
    simp only [dP_picard hh hab hcd (show (1 + 1 / 10) * a - 1 / 10 * b ≤ (1 + 1 / 10) * b - 1 / 10 * a by linarith)
      (show (1 + 1 / 10) * (c + min 0 (h * (4 / 3 * a))) - 1 / 10 * (d + max 0 (h * (4 / 3 * b))) ≤
        (1 + 1 / 10) * (d + max 0 (h * (4 / 3 * b))) - 1 / 10 * (c + min 0 (h * (4 / 3 * a))) by linarith)]
    rw [if_pos]
    · rfl
    · intro i
      rw [Itv.le_iff]
      fin_cases i
      · intro x hx
        have hx : x ∈ Itv.icc a b := hx
        rw [Itv.mem_icc] at hx
        change x ∈ Itv.icc _ _
        rw [Itv.mem_icc]
        constructor <;> linarith [hx.1, hx.2]
      · intro x hx
        have hx : x ∈ Itv.icc (c + min 0 (h * (4 / 3 * ((1 + 1 / 10) * a - 1 / 10 * b)))) (d + max 0 (h * (4 / 3 * ((1 + 1 / 10) * b - 1 / 10 * a)))) := hx
        rw [Itv.mem_icc] at hx
        change x ∈ Itv.icc _ _
        rw [Itv.mem_icc]
        rw [show h * (4 / 3 * ((1 + 1 / 10) * a - 1 / 10 * b)) = (1 + 1 / 10) * (h * (4 / 3 * a)) - 1 / 10 * (h * (4 / 3 * b)) by ring,
          show h * (4 / 3 * ((1 + 1 / 10) * b - 1 / 10 * a)) = (1 + 1 / 10) * (h * (4 / 3 * b)) - 1 / 10 * (h * (4 / 3 * a)) by ring] at hx
        generalize h * (4 / 3 * a) = p at hx hP ⊢
        generalize h * (4 / 3 * b) = q at hx hP ⊢
        obtain ⟨h1, h2⟩ := hx
        simp only [min_def, max_def] at h1 h2 ⊢
        constructor <;> split_ifs at * <;> linarith

theorem Q1_eq : rot (dA 1 * 1) = !![3 / 5, -(4 / 5); 4 / 5, 3 / 5] := by
  rw [mul_one, rot_eq (d := 5 / 3) (by norm_num) (by norm_num [dA])]
  norm_num [dA]

theorem Q2_eq : rot (dA (13 / 32) * !![3 / 5, -(4 / 5); 4 / 5, 3 / 5]) = !![8 / 17, -(15 / 17); 15 / 17, 8 / 17] := by
  have e : dA (13 / 32) * !![3 / 5, -(4 / 5); 4 / 5, 3 / 5] = !![3 / 5, -(4 / 5); 9 / 8, 1 / 6] := by
    ext i j
    fin_cases i <;> fin_cases j <;> norm_num [dA, Matrix.mul_apply, Fin.sum_univ_two]
  rw [e, rot_eq (d := 51 / 40) (by norm_num) (by norm_num)]
  norm_num

theorem dP_integrate {h a b c d : ℝ} {al : Alg 2 ℝ} (hu : al.u = ![Itv.icc a b, Itv.icc c d]) (hh : 0 < h) (hab : a ≤ b) (hcd : c ≤ d) :
    ∃ ut : IV 2 ℝ, (∀ i, Bdd (ut i)) ∧ dP.integrate 1 h al = some (dP.refine 1 h al ut) := by
  obtain ⟨ut, hut⟩ := Option.isSome_iff_exists.1 (dP_encl hh hab hcd)
  have hb : ∀ i, Bdd ((![Itv.icc a b, Itv.icc c d] : IV 2 ℝ) i) := fun i => by
    fin_cases i
    · exact ⟨_, _, hab, rfl⟩
    · exact ⟨_, _, hcd, rfl⟩
  refine ⟨ut, enclLoop_bdd dP_tame hh.le hb 30 hb hut, ?_⟩
  unfold Lohner.integrate
  rw [hu, hut]
  rfl

/-- the tubes -/
noncomputable def dX : Fin 2 → Tube ℝ :=
  ![⟨0, 45 / 32, .icc (-3) 3, [⟨0, 1, ⊤, .icc (-3) (-2)⟩, ⟨1, 45 / 32, ⊤, ⊤⟩]⟩, ⟨0, 45 / 32, .icc 0 0, [⟨0, 1, ⊤, ⊤⟩, ⟨1, 45 / 32, ⊤, ⊤⟩]⟩]

/-- their slicing -/
noncomputable def dB : List (ℝ × ℝ) := [(0, 1), (1, 45 / 32)]

theorem symV_two (a b : ℝ) : symV ![a, b] = ![Itv.icc (-a) a, Itv.icc (-b) b] := by
  funext i
  fin_cases i <;> rfl

theorem radius_two (M : Matrix (Fin 2) (Fin 2) ℝ) (ρ : Fin 2 → ℝ) : radius M ρ = ![|M 0 0| * ρ 0 + |M 0 1| * ρ 1, |M 1 0| * ρ 0 + |M 1 1| * ρ 1] := by
  funext i
  fin_cases i <;> simp [radius, Fin.sum_univ_two]

theorem icc_inf {a b c d e f : ℝ} (h1 : max a c = e) (h2 : min b d = f) : Itv.icc a b ⊓ Itv.icc c d = Itv.icc e f := by
  refine Itv.ext_mem fun x => ?_
  rw [Itv.mem_inf, Itv.mem_icc, Itv.mem_icc, Itv.mem_icc, ← h1, ← h2, max_le_iff, le_min_iff]
  tauto

/-- the first integration -/
theorem d_int1 {ut : IV 2 ℝ} (hut : ∀ i, Bdd (ut i)) : dP.refine 1 1 (dP.init ![Itv.icc (-3) 3, Itv.icc 0 0]) ut =
    { u := ![Itv.icc (-3) 3, Itv.icc (-4) 4], r := symV ![5, 0], ut := ut, B := !![3 / 5, -(4 / 5); 4 / 5, 3 / 5],
      Binv := !![3 / 5, 4 / 5; -(4 / 5), 3 / 5], uh := ![0, 0] } := by
  have hm : ∀ a b : ℝ, a ≤ b → dP.mid (Itv.icc a b) = (a + b) / 2 := fun a b h => midR_icc h
  have hr : (dP.init ![Itv.icc (-3) 3, Itv.icc 0 0]).r = symV ![3, 0] := by
    rw [symV_two]
    funext i
    fin_cases i
    · change Itv.sub (Itv.icc (-3) 3) (Itv.point (dP.mid (Itv.icc (-3) 3))) = Itv.icc (-3) 3
      rw [hm _ _ (by norm_num), point_eq_icc, icc_sub (by norm_num) le_rfl]
      norm_num
    · change Itv.sub (Itv.icc 0 0) (Itv.point (dP.mid (Itv.icc 0 0))) = Itv.icc (-0) 0
      rw [hm _ _ (by norm_num), point_eq_icc, icc_sub (by norm_num) le_rfl]
      norm_num
  have h3 : ∀ j, (0 : ℝ) ≤ (![3, 0] : Fin 2 → ℝ) j := fun j => by fin_cases j <;> norm_num
  have huh : (dP.init ![Itv.icc (-3) 3, Itv.icc 0 0]).uh = ![0, 0] := by
    funext i
    fin_cases i
    · change dP.mid (Itv.icc (-3) 3) = 0
      rw [hm _ _ (by norm_num)]; norm_num
    · change dP.mid (Itv.icc 0 0) = 0
      rw [hm _ _ (by norm_num)]; norm_num
  have hB : (dP.init ![Itv.icc (-3) 3, Itv.icc 0 0]).B = 1 := rfl
  have hT : (!![3 / 5, -(4 / 5); 4 / 5, 3 / 5] : Matrix (Fin 2) (Fin 2) ℝ).transpose = !![3 / 5, 4 / 5; -(4 / 5), 3 / 5] := by
    ext i j
    fin_cases i <;> fin_cases j <;> rfl
  have hC : (!![3 / 5, 4 / 5; -(4 / 5), 3 / 5] : Matrix (Fin 2) (Fin 2) ℝ) * dA 1 * 1 = !![5 / 3, 4 / 5; 0, 3 / 5] := by
    ext i j
    fin_cases i <;> fin_cases j <;> norm_num [dA, Matrix.mul_apply, Fin.sum_univ_two]
  have key := dP_refine (h := 1) h3 hr hut
  simp only [hB, Q1_eq, hT, hC, huh] at key
  rw [key]
  have e1 : radius !![5 / 3, 4 / 5; 0, 3 / 5] ![3, 0] = ![5, 0] := by
    rw [radius_two]; norm_num
  have e2 : radius !![3 / 5, -(4 / 5); 4 / 5, 3 / 5] ![5, 0] = ![3, 4] := by
    rw [radius_two]; norm_num
  rw [e1, e2]
  congr 1
  · funext i
    fin_cases i <;> norm_num
  · norm_num

/-- state after the first step -/
noncomputable def dAl (ut : IV 2 ℝ) : Alg 2 ℝ :=
  { u := ![Itv.icc (-3) (-2), Itv.icc (-4) 4], r := symV ![7 / 2, 0], ut := ut, B := !![3 / 5, -(4 / 5); 4 / 5, 3 / 5], Binv := !![3 / 5, 4 / 5; -(4 / 5), 3 / 5], uh := ![-(5 / 2), 0] }

/-- the first step -/
theorem d_step1 {ut : IV 2 ℝ} (hut : ∀ i, Bdd (ut i)) : dP.contractStep ![Itv.icc (-3) (-2), ⊤] (dP.refine 1 1 (dP.init ![Itv.icc (-3) 3, Itv.icc 0 0]) ut) =
    (dAl ut) := by
  have hm : ∀ a b : ℝ, a ≤ b → dP.mid (Itv.icc a b) = (a + b) / 2 := fun a b h => midR_icc h
  rw [d_int1 hut]
  have hu : infV ![Itv.icc (-3) (-2), ⊤] ![Itv.icc (-3) 3, Itv.icc (-4) 4] = ![Itv.icc (-3) (-2), Itv.icc (-4) (4 : ℝ)] := by
    funext i
    fin_cases i
    · exact icc_inf (by norm_num) (by norm_num)
    · exact top_inf_eq _
  have huh : (fun i => dP.mid ((![Itv.icc (-3) (-2), Itv.icc (-4) 4] : IV 2 ℝ) i)) = ![-(5 / 2), 0] := by
    funext i
    fin_cases i
    · change dP.mid (Itv.icc (-3) (-2)) = -(5 / 2)
      rw [hm _ _ (by norm_num)]; norm_num
    · change dP.mid (Itv.icc (-4) 4) = 0
      rw [hm _ _ (by norm_num)]; norm_num
  have hs : subV ![Itv.icc (-3) (-2), Itv.icc (-4) 4] (ptV ![-(5 / 2), 0]) = symV ![1 / 2, (4 : ℝ)] := by
    rw [symV_two]
    funext i
    fin_cases i
    · change Itv.sub (Itv.icc (-3) (-2)) (Itv.point (-(5 / 2))) = Itv.icc (-(1 / 2)) (1 / 2)
      rw [point_eq_icc, icc_sub (by norm_num) le_rfl]; norm_num
    · change Itv.sub (Itv.icc (-4) 4) (Itv.point 0) = Itv.icc (-4) 4
      rw [point_eq_icc, icc_sub (by norm_num) le_rfl]; norm_num
  have h3 : ∀ j, (0 : ℝ) ≤ (![1 / 2, 4] : Fin 2 → ℝ) j := fun j => by fin_cases j <;> norm_num
  have e1 : radius !![3 / 5, 4 / 5; -(4 / 5), 3 / 5] ![1 / 2, 4] = ![7 / 2, 14 / 5] := by
    rw [radius_two]; norm_num
  have hr : infV (symV ![5, 0]) (symV ![7 / 2, 14 / 5]) = symV ![7 / 2, (0 : ℝ)] := by
    rw [symV_two, symV_two, symV_two]
    funext i
    fin_cases i
    · exact icc_inf (by norm_num) (by norm_num)
    · exact icc_inf (by norm_num) (by norm_num)
  unfold Lohner.contractStep
  simp only [hu]
  rw [huh, hs, mulMV_sym _ h3, e1, hr]
  rfl

/-- the second integration -/
theorem d_int2 {ut0 ut : IV 2 ℝ} (hut : ∀ i, Bdd (ut i)) : dP.refine 1 (13 / 32)
    (dAl ut0) ut =
    { u := ![Itv.icc (-(23 / 5)) (-(2 / 5)), Itv.icc (-(127 / 24)) (31 / 12)], r := symV ![357 / 80, 0], ut := ut, B := !![8 / 17, -(15 / 17); 15 / 17, 8 / 17],
      Binv := !![8 / 17, 15 / 17; -(15 / 17), 8 / 17], uh := ![-(5 / 2), -(65 / 48)] } := by
  have h3 : ∀ j, (0 : ℝ) ≤ (![7 / 2, 0] : Fin 2 → ℝ) j := fun j => by fin_cases j <;> norm_num
  have hT : (!![8 / 17, -(15 / 17); 15 / 17, 8 / 17] : Matrix (Fin 2) (Fin 2) ℝ).transpose = !![8 / 17, 15 / 17; -(15 / 17), 8 / 17] := by
    ext i j
    fin_cases i <;> fin_cases j <;> rfl
  have hC : (!![8 / 17, 15 / 17; -(15 / 17), 8 / 17] : Matrix (Fin 2) (Fin 2) ℝ) * dA (13 / 32) * !![3 / 5, -(4 / 5); 4 / 5, 3 / 5] = !![51 / 40, -(39 / 170); 0, 40 / 51] := by
    ext i j
    fin_cases i <;> fin_cases j <;> norm_num [dA, Matrix.mul_apply, Fin.sum_univ_two]
  have key := dP_refine (h := 13 / 32) (a := (dAl ut0)) h3 rfl hut
  simp only [show (dAl ut0).B = !![3 / 5, -(4 / 5); 4 / 5, 3 / 5] from rfl, show (dAl ut0).uh = ![-(5 / 2), 0] from rfl, Q2_eq, hT, hC] at key
  rw [key]
  have e1 : radius !![51 / 40, -(39 / 170); 0, 40 / 51] ![7 / 2, 0] = ![357 / 80, 0] := by
    rw [radius_two]; norm_num
  have e2 : radius !![8 / 17, -(15 / 17); 15 / 17, 8 / 17] ![357 / 80, 0] = ![21 / 10, 63 / 16] := by
    rw [radius_two]; norm_num
  rw [e1, e2]
  congr 1
  · funext i
    fin_cases i <;> norm_num
  · norm_num

/-- the forward contraction, with the enclosure found at the end -/
theorem d_forward : ∃ ys : Fin 2 → Tube ℝ, dP.oneWay true dB dX = some ys ∧
    ∃ T : Tube ℝ, T.WF ∧ T.t0 = 0 ∧ T.tf = 45 / 32 ∧ ys 1 = T.setAt (Itv.icc (-(127 / 24)) (31 / 12)) (45 / 32) := by
  have hu0 : (fun j => (dX j).inAt 0) = ![Itv.icc (-3) 3, Itv.icc 0 0] := by
    funext j
    fin_cases j <;> rfl
  have hg1 : (fun j => (dX j).outAt 0) = ![Itv.icc (-3) (-2), ⊤] := by
    funext j
    fin_cases j <;> rfl
  have hg2 : ∀ j, (dX j).outAt 1 = ⊤ := by
    intro j
    fin_cases j <;> rfl
  obtain ⟨ut1, hb1, hi1⟩ := dP_integrate (h := 1) (al := dP.init ![Itv.icc (-3) 3, Itv.icc 0 0]) rfl one_pos (by norm_num) le_rfl
  obtain ⟨ut2, hb2, hi2⟩ := dP_integrate (h := 13 / 32) (al := (dAl ut1)) rfl (by norm_num) (by norm_num) (by norm_num)
  let xs1 : Fin 2 → Tube ℝ := fun j => (dX j).upd 0 (Slice.setEnvelope ((dX j).codAt 0 ⊓ ut1 j) true)
  have hs1 : dP.step true 0 (0, 1) dX (dP.init ![Itv.icc (-3) 3, Itv.icc 0 0]) = some (xs1, (dAl ut1)) := by
    unfold Lohner.step
    simp only [if_true, sub_zero]
    rw [hi1, hg1]
    simp only [Option.map_some, d_step1 hb1]
    rfl
  let xs2 : Fin 2 → Tube ℝ := fun j => (xs1 j).upd 1 (Slice.setEnvelope ((xs1 j).codAt 1 ⊓ ut2 j) true)
  have hg3 : (fun j => (xs1 j).outAt 1) = fun _ => ⊤ := by
    funext j
    exact (outAt_upd (by omega)).trans (hg2 j)
  have hs2 : ∃ a, dP.step true 1 (1, 45 / 32) xs1 (dAl ut1) = some (xs2, a) ∧ a.u 1 = Itv.icc (-(127 / 24)) (31 / 12) := by
    unfold Lohner.step
    simp only [if_true]
    rw [show (45 / 32 - 1 : ℝ) = 13 / 32 by norm_num, hi2, hg3]
    refine ⟨_, rfl, ?_⟩
    rw [d_int2 hb2]
    exact top_inf_eq _
  obtain ⟨a2, hs2, hu2⟩ := hs2
  refine ⟨fun j => (xs2 j).setAt (a2.u j) (xs2 j).tf, ?_, xs2 1, ?_, rfl, rfl, ?_⟩
  · unfold Lohner.oneWay
    simp only [if_true]
    rw [hu0]
    have hl : Lohner.indices dB = [(0, (0, 1)), (1, (1, 45 / 32))] := rfl
    rw [hl]
    simp only [Lohner.loop, hs1, hs2, Option.bind_some, Option.map_some]
  · refine upd_wf (upd_wf ⟨by simp [dX], ?_⟩ _ _) _ _
    norm_num [dX, Tiles]
  · change (xs2 1).setAt (a2.u 1) (xs2 1).tf = _
    rw [hu2]
    rfl

end Codac.Loh
