import Verif.Ctc.LohnerDefect

/-!
# C98: guaranteed integration by `CtcLohner`

The function and its Jacobian matrix are evaluated by inclusion functions (`Faithful`), which give bounded results on bounded boxes and
whose midpoints are the centres (`Tame`); `none` is the exception `GlobalEnclosureError`.
-/

set_option linter.unusedSectionVars false

namespace Codac.Props
open Codac Codac.Loh Set

variable {n : Nat} {P : Lohner n ℝ} {φ : (Fin n → ℝ) → (Fin n → ℝ)}

/-- the components of a tube vector: well formed, of the same domain and slicing, with gates included in the envelopes -/
structure LohnerTubes (bs : List (ℝ × ℝ)) (t0 tf : ℝ) (xs : Fin n → Tube ℝ) : Prop where
  wf : ∀ j, (xs j).WF
  gates : ∀ j, (xs j).GatesInEnvelopes
  dom : ∀ j, (xs j).t0 = t0 ∧ (xs j).tf = tf
  slicing : ∀ j, (xs j).cells.map (fun c => (c.lb, c.ub)) = bs

/-- the trajectory `x` is a solution of `x' = φ(x)` that belongs to the tube vector -/
structure LohnerSol (φ : (Fin n → ℝ) → (Fin n → ℝ)) (t0 tf : ℝ) (xs : Fin n → Tube ℝ) (x : ℝ → Fin n → ℝ) : Prop where
  ode : ∀ t ∈ Icc t0 tf, HasDerivWithinAt x (φ (x t)) (Icc t0 tf) t
  mem : ∀ j, (xs j).Encloses fun t => x t j

theorem LohnerTubes.inv {bs : List (ℝ × ℝ)} {t0 tf : ℝ} {xs : Fin n → Tube ℝ} (h : LohnerTubes bs t0 tf xs) {x : ℝ → Fin n → ℝ} (hx : LohnerSol φ t0 tf xs x) (j : Fin n) :
    StInv bs (xs j) fun t => x t j := ⟨h.wf j, h.gates j, hx.mem j, h.slicing j⟩

/-- for a system of one equation, the contraction with a propagation forward keeps all solutions -/
theorem C98_scalar_forward {P : Lohner 1 ℝ} {φ : (Fin 1 → ℝ) → (Fin 1 → ℝ)} (hP : Faithful P φ) (ht : Loh.Tame P) {bs : List (ℝ × ℝ)} {t0 tf : ℝ} {xs ys : Fin 1 → Tube ℝ}
    (hT : LohnerTubes bs t0 tf xs) (hb : ∀ j, Bdd ((xs j).inAt 0)) (hy : P.oneWay true bs xs = some ys) {x : ℝ → Fin 1 → ℝ}
    (hx : LohnerSol φ t0 tf xs x) : LohnerTubes bs t0 tf ys ∧ LohnerSol φ t0 tf ys x := by
  obtain ⟨h1, h2, -⟩ := oneWay_sound hP ht one_pos hT.dom hx.ode (hT.inv hx) (fwd := true) hb (Or.inl rfl) hy
  exact ⟨⟨fun j => (h1 j).wf, fun j => (h1 j).gc, h2, fun j => (h1 j).bounds⟩, ⟨hx.ode, fun j => (h1 j).encl⟩⟩

/-- idem backward -/
theorem C98_scalar_backward {P : Lohner 1 ℝ} {φ : (Fin 1 → ℝ) → (Fin 1 → ℝ)} (hP : Faithful P φ) (ht : Loh.Tame P) {bs : List (ℝ × ℝ)} {t0 tf : ℝ} {xs ys : Fin 1 → Tube ℝ}
    (hT : LohnerTubes bs t0 tf xs) (hb : ∀ j, Bdd ((xs j).outAt (bs.length - 1))) (hy : P.oneWay false bs xs = some ys) {x : ℝ → Fin 1 → ℝ}
    (hx : LohnerSol φ t0 tf xs x) : LohnerTubes bs t0 tf ys ∧ LohnerSol φ t0 tf ys x := by
  obtain ⟨h1, h2, -⟩ := oneWay_sound hP ht one_pos hT.dom hx.ode (hT.inv hx) (fwd := false) hb (Or.inl rfl) hy
  exact ⟨⟨fun j => (h1 j).wf, fun j => (h1 j).gc, h2, fun j => (h1 j).bounds⟩, ⟨hx.ode, fun j => (h1 j).encl⟩⟩

/-- idem forward then backward, which is the default; the first gate only has to be bounded -/
theorem C98_scalar {P : Lohner 1 ℝ} {φ : (Fin 1 → ℝ) → (Fin 1 → ℝ)} (hP : Faithful P φ) (ht : Loh.Tame P) {bs : List (ℝ × ℝ)} {t0 tf : ℝ} {xs ys : Fin 1 → Tube ℝ}
    (hT : LohnerTubes bs t0 tf xs) (hb : ∀ j, Bdd ((xs j).inAt 0)) (hy : P.both bs xs = some ys) {x : ℝ → Fin 1 → ℝ}
    (hx : LohnerSol φ t0 tf xs x) : LohnerTubes bs t0 tf ys ∧ LohnerSol φ t0 tf ys x := by
  rw [Lohner.both, Option.bind_eq_some_iff] at hy
  obtain ⟨zs, hz, hy⟩ := hy
  obtain ⟨-, -, h3⟩ := oneWay_sound hP ht one_pos hT.dom hx.ode (hT.inv hx) (fwd := true) hb (Or.inl rfl) hz
  obtain ⟨g1, g2⟩ := C98_scalar_forward hP ht hT hb hz hx
  exact C98_scalar_backward hP ht g1 (h3 rfl) hy g2

/-- Full claim: the contraction of the tubes of a system of any dimension keeps all solutions. Missing: the gates that the propagation meets before
its end have to be unbounded (simulation from an initial box), because of `C98_fails`. -/
theorem C98_oneway_partial (hP : Faithful P φ) (ht : Loh.Tame P) (hn : 0 < n) {bs : List (ℝ × ℝ)} {t0 tf : ℝ} {xs ys : Fin n → Tube ℝ} (hT : LohnerTubes bs t0 tf xs)
    (fwd : Bool) (hb : ∀ j, Bdd (if fwd then (xs j).inAt 0 else (xs j).outAt (bs.length - 1)))
    (hfree : ∀ k, (if fwd then k + 1 < bs.length else 0 < k ∧ k < bs.length) → ∀ j, (if fwd then (xs j).outAt k else (xs j).inAt k) = ⊤)
    (hy : P.oneWay fwd bs xs = some ys) {x : ℝ → Fin n → ℝ} (hx : LohnerSol φ t0 tf xs x) : LohnerTubes bs t0 tf ys ∧ LohnerSol φ t0 tf ys x := by
  obtain ⟨h1, h2, -⟩ := oneWay_sound hP ht hn hT.dom hx.ode (hT.inv hx) hb (Or.inr hfree) hy
  exact ⟨⟨fun j => (h1 j).wf, fun j => (h1 j).gc, h2, fun j => (h1 j).bounds⟩, ⟨hx.ode, fun j => (h1 j).encl⟩⟩

/-- the QR decomposition is the one of a matrix of dimension 2: an orthogonal matrix, its transpose, and an upper triangular product -/
def IsQR (P : Lohner 2 ℝ) : Prop :=
  ∀ A, (P.qr A).1 * (P.qr A).1.transpose = 1 ∧ (P.qr A).2 = (P.qr A).1.transpose ∧ ((P.qr A).1.transpose * A) 1 0 = 0

/-- In dimension 2 a solution is lost when a gate restricts the enclosure: `contractStep` moves the centre but intersects the uncertainties
around the former centre with those around the new one. The system is `x1' = 0, x2' = 4/3 x1`, with `x1(1) ∈ [-3,-2]`. -/
theorem C98_fails : ∃ (P : Lohner 2 ℝ) (φ : (Fin 2 → ℝ) → (Fin 2 → ℝ)) (bs : List (ℝ × ℝ)) (xs ys : Fin 2 → Tube ℝ) (x : ℝ → Fin 2 → ℝ),
    Faithful P φ ∧ Loh.Tame P ∧ IsQR P ∧ LohnerTubes bs 0 (45 / 32) xs ∧ (∀ j, Bdd ((xs j).inAt 0)) ∧ P.oneWay true bs xs = some ys ∧
    LohnerSol φ 0 (45 / 32) xs x ∧ ¬ LohnerSol φ 0 (45 / 32) ys x := by
  obtain ⟨ys, h1, T, hwf, e0, ef, h2⟩ := d_forward
  refine ⟨dP, fun v => dM.mulVec v, dB, dX, ys, fun t => ![-3, -4 * t], dP_faithful, dP_tame, fun A => ⟨rot_orth A, rfl, rot_tri A⟩, ?_, ?_, h1, ⟨?_, ?_⟩, ?_⟩
  · refine ⟨fun j => ?_, fun j => ?_, fun j => ?_, fun j => ?_⟩
    · fin_cases j <;> exact ⟨by simp [dX], by norm_num [dX, Codac.Tiles]⟩
    · fin_cases j <;> intro s hs <;> simp [dX, Tube.slices, slicesFrom] at hs <;> rcases hs with rfl | rfl <;> exact ⟨le_top, le_top⟩
    · fin_cases j <;> exact ⟨rfl, rfl⟩
    · fin_cases j <;> rfl
  · intro j
    fin_cases j
    · exact ⟨-3, 3, by norm_num, rfl⟩
    · exact ⟨0, 0, le_rfl, rfl⟩
  · intro t _
    rw [hasDerivWithinAt_pi]
    intro i
    fin_cases i
    · simpa [dM, Matrix.mulVec, dotProduct, Fin.sum_univ_two] using hasDerivWithinAt_const t (Icc (0 : ℝ) (45 / 32)) (-3 : ℝ)
    · have := ((hasDerivWithinAt_id t (Icc (0 : ℝ) (45 / 32))).const_mul (-4 : ℝ))
      norm_num [dM, Matrix.mulVec, dotProduct, Fin.sum_univ_two] at this ⊢
      exact this
  · intro j
    fin_cases j <;> intro s hs <;> simp [dX, Tube.slices, slicesFrom] at hs <;> rcases hs with rfl | rfl <;>
      refine ⟨?_, ?_, fun t _ _ => Itv.mem_all _⟩ <;> first | exact Itv.mem_all _ | (simp [Itv.mem_icc]; try norm_num)
  · intro h
    have := h.mem 1
    rw [h2] at this
    have := ((sampleGate_encloses hwf (by rw [e0]; norm_num) (by rw [ef])).1 this).1
    norm_num [Itv.mem_icc] at this

/-! ### The hypotheses are satisfiable: motion at constant speed -/

/-- `x' = c` -/
noncomputable def constP (c : Fin n → ℝ) (k : Nat) : Lohner n ℝ where
  F := fun _ => ptV c
  J := fun _ => ptM 0
  mid := midR
  qr := fun _ => (1, 1)
  eps := 1 / 10
  contractions := k

theorem const_faithful (c : Fin n → ℝ) : Faithful (constP c 1) (fun _ => c) := by
  refine ⟨contDiff_const, fun X v _ i => Itv.mem_point.2 rfl, fun X v _ i j => ?_, fun v i => midR_point _, midR_mem, fun M => by simp [constP], le_rfl⟩
  have : fderiv ℝ (fun _ : Fin n → ℝ => c) v = 0 := by simp
  rw [this]
  exact Itv.mem_point.2 rfl

theorem const_tame (c : Fin n → ℝ) (k : Nat) : Loh.Tame (constP c k) :=
  ⟨fun _ _ h => midR_icc h, fun _ _ _ => bdd_point _, fun _ _ _ _ => bdd_point _⟩

theorem const_encl (c : Fin n → ℝ) (k : Nat) (s h : ℝ) (guess : IV n ℝ) : ((constP c k).globalEnclosure s h guess).isSome := by
  unfold Lohner.globalEnclosure
  rw [Lohner.enclLoop]
  split_ifs with h1
  · rfl
  · rw [Lohner.enclLoop, if_pos]
    · rfl
    · intro i
      rw [Itv.le_iff]
      intro w hw
      have := Itv.mem_sub (Itv.mem_mul (Itv.mem_point.2 rfl : 1 + (constP c k).eps ∈ Itv.point _) hw) (Itv.mem_mul (Itv.mem_point.2 rfl : (constP c k).eps ∈ Itv.point _) hw)
      rw [show (1 + (constP c k).eps) * w - (constP c k).eps * w = w by ring] at this
      exact this

theorem const_loop (c : Fin n → ℝ) (fwd : Bool) (l : List (Nat × (ℝ × ℝ))) (xs : Fin n → Tube ℝ) (a : Alg n ℝ) : ((constP c 1).loop fwd l xs a).isSome := by
  induction l generalizing xs a with
  | nil => rfl
  | cons kb l ih =>
    obtain ⟨ut, hut⟩ := Option.isSome_iff_exists.1 (const_encl c 1 (1 * (if fwd then 1 else -1)) (kb.2.2 - kb.2.1) a.u)
    have hi : (constP c 1).integrate (if fwd then 1 else -1) (kb.2.2 - kb.2.1) a = some ((constP c 1).refine (if fwd then 1 else -1) (kb.2.2 - kb.2.1) a ut) := by
      unfold Lohner.integrate
      rw [hut]
      rfl
    rw [Lohner.loop, Lohner.step, hi]
    exact ih _ _

theorem const_both (c : Fin n → ℝ) (bs : List (ℝ × ℝ)) (xs : Fin n → Tube ℝ) : ((constP c 1).both bs xs).isSome := by
  obtain ⟨r, hr⟩ := Option.isSome_iff_exists.1 (const_loop c true (Lohner.indices bs) xs ((constP c 1).init fun j => (xs j).inAt 0))
  rw [Lohner.both, Lohner.oneWay]
  simp only [if_true, hr, Option.map_some, Option.bind_some, Lohner.oneWay, Option.isSome_map]
  exact const_loop c _ _ _ _

/-- two slices, the first gate is bounded, the second one too -/
noncomputable def lohX : Tube ℝ := ⟨0, 2, .icc 0 1, [⟨0, 1, ⊤, .icc 1 (3 / 2)⟩, ⟨1, 2, ⊤, ⊤⟩]⟩

theorem lohX_ok : LohnerTubes (n := 1) [(0, 1), (1, 2)] 0 2 (fun _ => lohX) := by
  refine ⟨fun _ => ⟨by simp [lohX], by norm_num [lohX, Codac.Tiles]⟩, fun _ s hs => ?_, fun _ => ⟨rfl, rfl⟩, fun _ => rfl⟩
  simp [lohX, Tube.slices, slicesFrom] at hs
  rcases hs with rfl | rfl <;> exact ⟨le_top, le_top⟩

theorem lohX_sol : LohnerSol (n := 1) (fun _ _ => 1) 0 2 (fun _ => lohX) fun t _ => t := by
  refine ⟨fun t _ => ?_, fun _ s hs => ?_⟩
  · rw [hasDerivWithinAt_pi]
    exact fun _ => hasDerivWithinAt_id _ _
  · simp [lohX, Tube.slices, slicesFrom] at hs
    rcases hs with rfl | rfl <;> refine ⟨?_, ?_, fun t _ _ => Itv.mem_all _⟩ <;> first | exact Itv.mem_all _ | (simp [Itv.mem_icc]; try norm_num)

example : Faithful (constP (n := 1) (fun _ => 1) 1) (fun _ _ => 1) ∧ Loh.Tame (constP (n := 1) (fun _ => 1) 1) ∧
    LohnerTubes (n := 1) [(0, 1), (1, 2)] 0 2 (fun _ => lohX) ∧ Bdd (lohX.inAt 0) ∧ (∃ ys, (constP (n := 1) (fun _ => 1) 1).both [(0, 1), (1, 2)] (fun _ => lohX) = some ys) ∧
    LohnerSol (n := 1) (fun _ _ => 1) 0 2 (fun _ => lohX) fun t _ => t :=
  ⟨const_faithful _, const_tame _ _, lohX_ok, ⟨0, 1, zero_le_one, rfl⟩, Option.isSome_iff_exists.1 (const_both _ _ _), lohX_sol⟩

/-- dimension 2 forward, with unbounded gates after the first one -/
noncomputable def lohF : Tube ℝ := ⟨0, 2, .icc 0 1, [⟨0, 1, ⊤, ⊤⟩, ⟨1, 2, ⊤, ⊤⟩]⟩

example : Faithful (constP (n := 2) (fun _ => 1) 1) (fun _ _ => 1) ∧ Loh.Tame (constP (n := 2) (fun _ => 1) 1) ∧
    LohnerTubes (n := 2) [(0, 1), (1, 2)] 0 2 (fun _ => lohF) ∧ Bdd (lohF.inAt 0) ∧ (∀ k, k + 1 < [((0 : ℝ), (1 : ℝ)), (1, 2)].length → lohF.outAt k = ⊤) ∧
    (∃ ys, (constP (n := 2) (fun _ => 1) 1).oneWay true [(0, 1), (1, 2)] (fun _ => lohF) = some ys) ∧
    LohnerSol (n := 2) (fun _ _ => 1) 0 2 (fun _ => lohF) fun t _ => t := by
  refine ⟨const_faithful _, const_tame _ _, ⟨fun _ => ⟨by simp [lohF], by norm_num [lohF, Codac.Tiles]⟩, fun _ s hs => ?_, fun _ => ⟨rfl, rfl⟩, fun _ => rfl⟩,
    ⟨0, 1, zero_le_one, rfl⟩, ?_, ?_, fun t _ => ?_, fun _ s hs => ?_⟩
  · simp [lohF, Tube.slices, slicesFrom] at hs
    rcases hs with rfl | rfl <;> exact ⟨le_top, le_top⟩
  · intro k hk
    obtain rfl : k = 0 := by simp at hk; omega
    rfl
  · obtain ⟨r, hr⟩ := Option.isSome_iff_exists.1 (const_loop (n := 2) (fun _ => 1) true (Lohner.indices [(0, 1), (1, 2)]) (fun _ => lohF) ((constP (fun _ => 1) 1).init fun _ => lohF.inAt 0))
    rw [Lohner.oneWay]
    simp only [if_true, hr]
    exact ⟨_, rfl⟩
  · rw [hasDerivWithinAt_pi]
    exact fun _ => hasDerivWithinAt_id _ _
  · simp [lohF, Tube.slices, slicesFrom] at hs
    rcases hs with rfl | rfl <;> refine ⟨?_, ?_, fun t _ _ => Itv.mem_all _⟩ <;> first | exact Itv.mem_all _ | (simp [Itv.mem_icc]; try norm_num)

/-- With `contractions = 0` (accepted by the constructor) the enclosure does not follow the system: the solution `x(t) = t` of `x' = 1` is lost. -/
theorem C98_contractions_fails : ∃ (xs ys : Fin 1 → Tube ℝ) (x : ℝ → Fin 1 → ℝ), LohnerTubes [(0, 1)] 0 1 xs ∧ (∀ j, Bdd ((xs j).inAt 0)) ∧
    (constP (fun _ => 1) 0).oneWay true [(0, 1)] xs = some ys ∧ LohnerSol (fun _ _ => 1) 0 1 xs x ∧ ¬ LohnerSol (fun _ _ => 1) 0 1 ys x := by
  obtain ⟨ut, hut⟩ := Option.isSome_iff_exists.1 (const_encl (n := 1) (fun _ => 1) 0 (1 * 1) (1 - 0) (fun _ => Itv.icc 0 0))
  let T : Tube ℝ := ⟨0, 1, .icc 0 0, [⟨0, 1, ⊤, ⊤⟩]⟩
  have hi : (constP (n := 1) (fun _ => 1) 0).integrate 1 (1 - 0) ((constP (fun _ => 1) 0).init fun _ => Itv.icc 0 0) =
      some { (constP (n := 1) (fun _ => 1) 0).init (fun _ => Itv.icc 0 0) with ut := ut } := by
    unfold Lohner.integrate
    rw [show ((constP (n := 1) (fun _ => 1) 0).init fun _ => Itv.icc 0 0).u = fun _ => Itv.icc 0 0 from rfl, hut]
    rfl
  refine ⟨fun _ => T, fun j => (T.upd 0 (Slice.setEnvelope (T.codAt 0 ⊓ ut j) true)).setAt (Itv.icc 0 0) 1, fun t _ => t, ?_, fun _ => ⟨0, 0, le_rfl, rfl⟩, ?_, ⟨fun t _ => ?_, fun _ s hs => ?_⟩, ?_⟩
  · refine ⟨fun _ => ⟨by simp [T], by norm_num [T, Codac.Tiles]⟩, fun _ s hs => ?_, fun _ => ⟨rfl, rfl⟩, fun _ => rfl⟩
    simp [T, Tube.slices, slicesFrom] at hs
    rcases hs with rfl
    exact ⟨le_top, le_top⟩
  · unfold Lohner.oneWay
    have hl : Lohner.indices [((0 : ℝ), (1 : ℝ))] = [(0, (0, 1))] := rfl
    simp only [if_true, hl, Lohner.loop, Lohner.step]
    rw [show (fun _ : Fin 1 => T.inAt 0) = fun _ => Itv.icc 0 0 from rfl, hi]
    simp only [Option.map_some, Option.bind_some, Option.some.injEq]
    funext j
    have e : ((constP (n := 1) (fun _ => 1) 0).contractStep (fun _ => T.outAt 0) { (constP (n := 1) (fun _ => 1) 0).init (fun _ => Itv.icc 0 0) with ut := ut }).u j = Itv.icc 0 0 :=
      top_inf_eq _
    rw [e]
    rfl
  · rw [hasDerivWithinAt_pi]
    exact fun _ => hasDerivWithinAt_id _ _
  · simp [T, Tube.slices, slicesFrom] at hs
    rcases hs with rfl
    refine ⟨?_, ?_, fun t _ _ => Itv.mem_all _⟩ <;> first | exact Itv.mem_all _ | simp [Itv.mem_icc]
  · intro h
    have := h.mem 0
    have := ((sampleGate_encloses (upd_wf ⟨by simp [T], by norm_num [T, Codac.Tiles]⟩ _ _) (by norm_num [T, Tube.upd]) (by norm_num [T, Tube.upd])).1 this).1
    norm_num [Itv.mem_icc] at this

/-- `x' ∈ [-1,1]`: a function with an interval coefficient -/
noncomputable def thickP : Lohner 1 ℝ where
  F := fun _ _ => Itv.icc (-1) 1
  J := fun _ => ptM 0
  mid := midR
  qr := fun _ => (1, 1)
  eps := 1 / 10
  contractions := 1

/-- Only the midpoint of the value of the function at the centre is used: with a function that has an interval coefficient, `x' ∈ [-1,1]`, the
solution `x(t) = t` is lost. -/
theorem C98_thick_fails : ∃ (xs ys : Fin 1 → Tube ℝ) (x : ℝ → Fin 1 → ℝ), LohnerTubes [(0, 1)] 0 1 xs ∧ (∀ j, Bdd ((xs j).inAt 0)) ∧
    thickP.oneWay true [(0, 1)] xs = some ys ∧
    (∀ t ∈ Icc 0 1, ∃ d : Fin 1 → ℝ, HasDerivWithinAt x d (Icc 0 1) t ∧ InV d (thickP.F (ptV (x t)))) ∧
    (∀ j, (xs j).Encloses fun t => x t j) ∧ ¬ ∀ j, (ys j).Encloses fun t => x t j := by
  obtain ⟨ut, hut⟩ : ∃ ut, thickP.globalEnclosure (1 * 1) (1 - 0) (fun _ => Itv.icc 0 0) = some ut := by
    refine Option.isSome_iff_exists.1 ?_
    unfold Lohner.globalEnclosure
    rw [Lohner.enclLoop]
    split_ifs with h1
    · rfl
    · rw [Lohner.enclLoop, if_pos]
      · rfl
      · intro i
        rw [Itv.le_iff]
        intro w hw
        have := Itv.mem_sub (Itv.mem_mul (Itv.mem_point.2 rfl : 1 + thickP.eps ∈ Itv.point _) hw) (Itv.mem_mul (Itv.mem_point.2 rfl : thickP.eps ∈ Itv.point _) hw)
        rw [show (1 + thickP.eps) * w - thickP.eps * w = w by ring] at this
        exact this
  let T : Tube ℝ := ⟨0, 1, .icc 0 0, [⟨0, 1, ⊤, ⊤⟩]⟩
  have hi : thickP.integrate 1 (1 - 0) (thickP.init fun _ => Itv.icc 0 0) = some (thickP.refine 1 (1 - 0) (thickP.init fun _ => Itv.icc 0 0) ut) := by
    unfold Lohner.integrate
    rw [show (thickP.init fun _ => Itv.icc 0 0).u = fun _ => Itv.icc 0 0 from rfl, hut]
    rfl
  have hu : (thickP.refine 1 (1 - 0) (thickP.init fun _ => Itv.icc 0 0) ut).u = fun _ => Itv.icc 0 0 := by
    funext j
    have z : mulMV (smulM (Itv.point (1 / 2 * (1 - 0) * (1 - 0))) (thickP.J ut)) (thickP.F ut) = ptV 0 := by
      funext i
      simp [mulMV, isum, smulM, thickP, ptM, ptV, mul_point, add_point, zero_mul_bdd ⟨-1, 1, by norm_num, rfl⟩]
    have hm : ∀ a b : ℝ, a ≤ b → thickP.mid (Itv.icc a b) = (a + b) / 2 := fun a b h => midR_icc h
    have hp : ∀ a : ℝ, thickP.mid (Itv.point a) = a := fun a => midR_point a
    have hA : thickP.matA 1 (1 - 0) (thickP.init fun _ => Itv.icc 0 0).u = ptM 1 := by
      funext i j
      simp [Lohner.matA, thickP, ptM, mul_point, add_point]
    have hr : (thickP.init fun _ => Itv.icc 0 0).r = ptV 0 := by
      funext i
      simp [Lohner.init, hm, point_eq_icc, icc_sub, ptV]
    have huh : (thickP.init fun _ => Itv.icc 0 0).uh = 0 := by
      funext i
      simp [Lohner.init, hm]
    have hF : ∀ (X : IV 1 ℝ) i, thickP.F X i = Itv.icc (-1) 1 := fun _ _ => rfl
    have hB : (thickP.init fun _ => Itv.icc 0 0).B = 1 := rfl
    have hm0 : (fun i => thickP.mid (ptV (0 : Fin 1 → ℝ) i)) = 0 := funext fun i => hp 0
    have h1 : (fun i => (0 : Fin 1 → ℝ) i + (1 - 0) * 1 * ((-1 + 1) / 2) + thickP.mid (ptV (0 : Fin 1 → ℝ) i)) = 0 := by
      rw [show (fun i => (0 : Fin 1 → ℝ) i + (1 - 0) * 1 * ((-1 + 1) / 2) + thickP.mid (ptV (0 : Fin 1 → ℝ) i)) = fun i => thickP.mid (ptV (0 : Fin 1 → ℝ) i) by
        funext i; norm_num, hm0]
    unfold Lohner.refine
    simp only [z, hA, hr, huh, hB, mulMM_point, mulMV_point, hF, hm (-1) 1 (by norm_num), hm0, h1, subV_point, addV_point, Matrix.mulVec_zero, sub_self, add_zero]
    exact point_eq_icc 0
  refine ⟨fun _ => T, fun j => (T.upd 0 (Slice.setEnvelope (T.codAt 0 ⊓ ut j) true)).setAt (Itv.icc 0 0) 1, fun t _ => t, ?_, fun _ => ⟨0, 0, le_rfl, rfl⟩, ?_, fun t _ => ⟨fun _ => 1, ?_, fun _ => ?_⟩, fun _ s hs => ?_, ?_⟩
  · refine ⟨fun _ => ⟨by simp [T], by norm_num [T, Codac.Tiles]⟩, fun _ s hs => ?_, fun _ => ⟨rfl, rfl⟩, fun _ => rfl⟩
    simp [T, Tube.slices, slicesFrom] at hs
    rcases hs with rfl
    exact ⟨le_top, le_top⟩
  · unfold Lohner.oneWay
    have hl : Lohner.indices [((0 : ℝ), (1 : ℝ))] = [(0, (0, 1))] := rfl
    simp only [if_true, hl, Lohner.loop, Lohner.step]
    rw [show (fun _ : Fin 1 => T.inAt 0) = fun _ => Itv.icc 0 0 from rfl, hi]
    simp only [Option.map_some, Option.bind_some, Option.some.injEq]
    funext j
    have e : (thickP.contractStep (fun _ => T.outAt 0) (thickP.refine 1 (1 - 0) (thickP.init fun _ => Itv.icc 0 0) ut)).u j = Itv.icc 0 0 := by
      change (⊤ : Itv ℝ) ⊓ _ = _
      rw [hu, top_inf_eq]
    rw [e]
    rfl
  · rw [hasDerivWithinAt_pi]
    exact fun _ => hasDerivWithinAt_id _ _
  · change (1 : ℝ) ∈ Itv.icc (-1) 1
    norm_num [Itv.mem_icc]
  · simp [T, Tube.slices, slicesFrom] at hs
    rcases hs with rfl
    refine ⟨?_, ?_, fun t _ _ => Itv.mem_all _⟩ <;> first | exact Itv.mem_all _ | simp [Itv.mem_icc]
  · intro h
    have := h 0
    have := ((sampleGate_encloses (upd_wf ⟨by simp [T], by norm_num [T, Codac.Tiles]⟩ _ _) (by norm_num [T, Tube.upd]) (by norm_num [T, Tube.upd])).1 this).1
    norm_num [Itv.mem_icc] at this

end Codac.Props
