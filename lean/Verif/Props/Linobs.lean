import Verif.Ctc.LinobsFlow
import Verif.Ctc.LinobsTotal
import Verif.Tube.IntegralExact
import Mathlib.Analysis.SpecialFunctions.Trigonometric.Deriv
import Mathlib.Analysis.SpecialFunctions.Trigonometric.Basic

/-!
# C87: `CtcLinobs` and `CtcChain` keep the solutions of linear systems

`x' = A x + b v` in dimension 2: the domains of `x` are two tubes, the domain of `v` is a tube; each gate of the pair of tubes is enclosed
with a polygon.
-/

namespace Codac.Props
open Codac Codac.Lin Codac.Poly Codac.Graham

/-- a solution of `x' = A x + b v` that lies in the tubes and in the boxes of the observations -/
structure LinSolution (A : Mat ℝ) (b : Pt ℝ) (obs : List (ℝ × TPt ℝ)) (x1 x2 u : Tube ℝ) (x : ℝ → Pt ℝ) (v : ℝ → ℝ) : Prop where
  in1 : x1.Encloses fun t => (x t).1
  in2 : x2.Encloses fun t => (x t).2
  inU : u.Encloses v
  ode : ∀ s ∈ u.slices, Solves A b (s.lb, s.ub) x v
  seen : ∀ o ∈ obs, u.t0 ≤ o.1 → o.1 ≤ u.tf → In (x o.1) o.2

/-- what the user gives: consistent tubes with the same slicing, slices no longer than `w`, solutions in the domain `C` the contractor supports -/
structure LinInput (C : Itv ℝ) (w : ℝ) (x1 x2 u : Tube ℝ) (x : ℝ → Pt ℝ) : Prop where
  wf1 : x1.WF
  wf2 : x2.WF
  wfU : u.WF
  gc1 : x1.GatesInEnvelopes
  gc2 : x2.GatesInEnvelopes
  gcU : u.GatesInEnvelopes
  same1 : x1.sameSlicing u = true
  same2 : x2.sameSlicing u = true
  short : ∀ s ∈ u.slices, s.ub - s.lb ≤ w
  lim1 : ∀ t, x1.t0 ≤ t → t ≤ x1.tf → (x t).1 ∈ C
  lim2 : ∀ t, x2.t0 ≤ t → t ≤ x2.tf → (x t).2 ∈ C

/-- the result keeps the trajectory: in the tubes, which keep their slices, and in the polygons at the gates -/
structure LinKept (u : Tube ℝ) (x : ℝ → Pt ℝ) (σ : St ℝ) : Prop where
  wf1 : σ.x1.WF
  wf2 : σ.x2.WF
  gc1 : σ.x1.GatesInEnvelopes
  gc2 : σ.x2.GatesInEnvelopes
  in1 : σ.x1.Encloses fun t => (x t).1
  in2 : σ.x2.Encloses fun t => (x t).2
  same1 : σ.x1.slices.map (fun s => (s.lb, s.ub)) = u.slices.map fun s => (s.lb, s.ub)
  same2 : σ.x2.slices.map (fun s => (s.lb, s.ub)) = u.slices.map fun s => (s.lb, s.ub)
  gates : ∀ (k : Nat) (s : Slice ℝ), u.slices[k]? = some s → x s.lb ∈ Hull (σ.ps.getD k []) ∧ x s.ub ∈ Hull (σ.ps.getD (k + 1) [])

variable {A : Mat ℝ} {E F : ℝ → Mat ℝ} {b : Pt ℝ} {eps eps' w : ℝ} {edges : Nat} {R C : Itv ℝ} {fwd bwd : Bool} {obs : List (ℝ × TPt ℝ)} {x1 x2 u : Tube ℝ} {x : ℝ → Pt ℝ} {v : ℝ → ℝ}

theorem linHyp {mk : List (TPt ℝ) → Option (List (Pt ℝ))} (hmk : SoundPoly mk) (hE : IsExp A E) (hF : IsExp ((-A.1.1, -A.1.2), (-A.2.1, -A.2.2)) F) (hEw : HullExp E w)
    (hFw : HullExp F w) (he : 0 < eps) (hn : 3 ≤ edges) (hin : LinInput C w x1 x2 u x) (hs : LinSolution A b obs x1 x2 u x v) :
    LHyp ⟨mk, eps, E, F, b, edges⟩ obs u (u.slices.map fun s => (s.lb, s.ub)) (gateTime u) x where
  ok := ⟨hmk, he, hn⟩
  time k c hc := gateTime_spec hin.wfU hc
  flow k c hc := by
    have hU : StInv (u.slices.map fun s => (s.lb, s.ub)) u v := ⟨hin.wfU, hin.gcU, hs.inU, by rw [Tube.slices_bounds]⟩
    obtain ⟨s, hsl, e1, e2, hlt⟩ := hU.at hc
    have hm := List.mem_of_getElem? hsl
    have hec : c = (s.lb, s.ub) := Prod.ext e1.symm e2.symm
    subst hec
    exact flow_of_solves (P := ⟨mk, eps, E, F, b, edges⟩) hE hF hEw hFw (hin.short s hm) hlt (hs.ode s hm) fun t h1 h2 => hU.codAt hc h1.le h2.le
  seen k c hc o ho h1 h2 := by
    rw [List.getElem?_map, Option.map_eq_some_iff] at hc
    obtain ⟨s, hsl, rfl⟩ := hc
    have := hin.wfU.tiles.mem_bounds (List.mem_of_getElem? hsl)
    exact hs.seen o ho (this.1.trans h1) (h2.trans this.2.2)

theorem linStInv (hin : LinInput C w x1 x2 u x) (hs : LinSolution A b obs x1 x2 u x v) :
    StInv (u.slices.map fun s => (s.lb, s.ub)) x1 (fun t => (x t).1) ∧ StInv (u.slices.map fun s => (s.lb, s.ub)) x2 (fun t => (x t).2) :=
  ⟨⟨hin.wf1, hin.gc1, hs.in1, by rw [Tube.slices_bounds]; exact sameSlicing_iff.mp hin.same1⟩,
    ⟨hin.wf2, hin.gc2, hs.in2, by rw [Tube.slices_bounds]; exact sameSlicing_iff.mp hin.same2⟩⟩

theorem slices_map_ne (h : u.WF) : (u.slices.map fun s => (s.lb, s.ub)) ≠ [] := by
  rw [Tube.slices_bounds]
  exact fun e => h.ne (List.map_eq_nil_iff.mp e)

theorem linKept_of (hin : LinInput C w x1 x2 u x) {σ : St ℝ} (h : LInv (u.slices.map fun s => (s.lb, s.ub)) (gateTime u) x σ) : LinKept u x σ := by
  refine ⟨h.x1.wf, h.x2.wf, h.x1.gc, h.x2.gc, h.x1.encl, h.x2.encl, (Tube.slices_bounds _).trans h.x1.bounds, (Tube.slices_bounds _).trans h.x2.bounds,
    fun k s hk => ?_⟩
  have hb : (u.slices.map fun s => (s.lb, s.ub))[k]? = some (s.lb, s.ub) := by rw [List.getElem?_map, hk]; rfl
  have hl := (List.getElem?_eq_some_iff.mp hb).1
  obtain ⟨e1, e2, -⟩ := gateTime_spec hin.wfU hb
  dsimp only at e1 e2
  exact ⟨by rw [e1]; exact (h.polys k hl.le).2.2, by rw [e2]; exact (h.polys (k + 1) hl).2.2⟩

/-- **C87**: whatever the directions, the restricted time domain and the observations, the contractor keeps the solutions in the tubes, and in the
polygons at the gates. Missing (false, see below): solutions outside `C` (`[-9999,9999]` in the code); slices on which an entry of the
exponential leaves the interval between its first and last values; runs in which a thick point smaller than the threshold `eps'` but not reduced
to a point is given to the constructor of polygons (`mkChecked` stops there, otherwise it is the constructor of the code). The thresholds of the
products and sums (`eps'`) and of the intersections (`eps`) are both `1e-10` in the code. -/
theorem C87_keeps_partial (hE : IsExp A E) (hF : IsExp ((-A.1.1, -A.1.2), (-A.2.1, -A.2.2)) F) (hEw : HullExp E w) (hFw : HullExp F w) (he : 0 < eps)
    (hn : 3 ≤ edges) (hin : LinInput C w x1 x2 u x) (hs : LinSolution A b obs x1 x2 u x v) {σ : St ℝ}
    (h : linobs ⟨mkChecked eps', eps, E, F, b, edges⟩ R C fwd bwd obs x1 x2 u = some σ) :
    linobs ⟨ofThick eps', eps, E, F, b, edges⟩ R C fwd bwd obs x1 x2 u = some σ ∧ LinKept u x σ := by
  obtain ⟨i1, i2⟩ := linStInv hin hs
  exact ⟨linobs_mono (P := ⟨mkChecked eps', eps, E, F, b, edges⟩) (fun l r hr => mkChecked_le hr) h,
    linKept_of hin (linobs_inv (linHyp (mkChecked_sound eps') hE hF hEw hFw he hn hin hs) rfl (slices_map_ne hin.wfU) i1 i2 hin.lim1 hin.lim2 h)⟩

/-- **C87**: with bounded domains, for a threshold of thick points that is small enough (it depends on the domains), the contractor ends with
a result, always the same, that keeps the solutions. -/
theorem C87_total_partial (hE : IsExp A E) (hF : IsExp ((-A.1.1, -A.1.2), (-A.2.1, -A.2.2)) F) (hEw : HullExp E w) (hFw : HullExp F w) (he : 0 < eps)
    (hn : 3 ≤ edges) (hin : LinInput C w x1 x2 u x) (hs : LinSolution A b obs x1 x2 u x v) (hC : C.bounds?.isSome) (hu : ∀ s ∈ u.slices, s.cod.bounds?.isSome)
    (hobs : ∀ o ∈ obs, o.2.1.bounds?.isSome ∧ o.2.2.bounds?.isSome) :
    ∃ σ e0, 0 < e0 ∧ LinKept u x σ ∧ ∀ e, 0 < e → e ≤ e0 → linobs ⟨ofThick e, eps, E, F, b, edges⟩ R C fwd bwd obs x1 x2 u = some σ := by
  obtain ⟨i1, i2⟩ := linStInv hin hs
  have hy : ∀ e, 0 < e → LHyp ((⟨mkChecked 1, eps, E, F, b, edges⟩ : Params ℝ).at e) obs u (u.slices.map fun s => (s.lb, s.ub)) (gateTime u) x :=
    fun e _ => linHyp (mkChecked_sound e) hE hF hEw hFw he hn hin hs
  obtain ⟨σ, e0, h0, h⟩ := linobs_ev (R := R) (fwd := fwd) (bwd := bwd) hy ⟨fun k c hc => by
    rw [List.getElem?_map, Option.map_eq_some_iff] at hc
    obtain ⟨s, hsl, -⟩ := hc
    have : u.codAt k = s.cod := by simp only [Tube.codAt, hsl, Option.map_some, Option.getD_some]
    rw [this]
    exact hu s (List.mem_of_getElem? hsl), hobs⟩ rfl (slices_map_ne hin.wfU) hC i1 i2 hin.lim1 hin.lim2 hin.same1 hin.same2
  refine ⟨σ, e0, h0, linKept_of hin (linobs_inv (hy e0 h0) rfl (slices_map_ne hin.wfU) i1 i2 hin.lim1 hin.lim2 (h e0 h0 le_rfl)), fun e he hle => ?_⟩
  exact linobs_mono (P := ⟨mkChecked e, eps, E, F, b, edges⟩) (fun l r hr => mkChecked_le hr) (h e he hle)

/-! ### `CtcChain` -/

/-- the exponential of `[[0,1],[0,0]] t` -/
theorem chain_exp : IsExp ((0, 1), (0, 0)) (fun t => ((1, t), (0, 1))) where
  one := rfl
  d11 t := by simpa using hasDerivAt_const t (1 : ℝ)
  d12 t := by simpa using hasDerivAt_id' t
  d21 t := by simpa using hasDerivAt_const t (0 : ℝ)
  d22 t := by simpa using hasDerivAt_const t (1 : ℝ)

theorem chain_exp_neg : IsExp ((-0, -1), (-0, -0)) (fun t => ((1, -t), (0, 1))) where
  one := by simp
  d11 t := by simpa using hasDerivAt_const t (1 : ℝ)
  d12 t := by simpa using (hasDerivAt_id' t).fun_neg
  d21 t := by simpa using hasDerivAt_const t (0 : ℝ)
  d22 t := by simpa using hasDerivAt_const t (1 : ℝ)

theorem mem_sup_self (a : ℝ) : a ∈ (Itv.point a ⊔ Itv.point a : Itv ℝ) := Itv.mem_sup_left (Itv.mem_point.mpr rfl)

theorem chain_hull (w : ℝ) : HullExp (fun t => ((1, t), (0, 1))) w := fun _ _ h0 h1 _ =>
  ⟨⟨mem_sup_self 1, Itv.mem_sup_of_between (Itv.mem_point.mpr rfl) (Itv.mem_point.mpr rfl) h0 h1⟩, mem_sup_self 0, mem_sup_self 1⟩

theorem chain_hull_neg (w : ℝ) : HullExp (fun t => ((1, -t), (0, 1))) w := fun s d h0 h1 _ =>
  ⟨⟨mem_sup_self 1, by
    have : (Itv.point (-0 : ℝ) ⊔ Itv.point (-d)) = (Itv.point (-d) ⊔ Itv.point (-0)) := sup_comm _ _
    change -s ∈ (Itv.point (-0 : ℝ) ⊔ Itv.point (-d))
    rw [this]
    exact Itv.mem_sup_of_between (Itv.mem_point.mpr rfl) (Itv.mem_point.mpr rfl) (by linarith) (by linarith)⟩, mem_sup_self 0, mem_sup_self 1⟩

/-- **C87** for `CtcChain` (`x' = v`, `v' = a`): no condition on the slices is left. Missing: as in `C87_keeps_partial`. -/
theorem C87_chain_partial {f g a : ℝ → ℝ} (he : 0 < eps) (hin : LinInput C w x1 x2 u fun t => (f t, g t)) (hf : x1.Encloses f) (hg : x2.Encloses g) (ha : u.Encloses a)
    (cf : ∀ s ∈ u.slices, ContinuousOn f (Set.Icc s.lb s.ub) ∧ ∀ t, s.lb < t → t < s.ub → HasDerivAt f (g t) t)
    (cg : ∀ s ∈ u.slices, ContinuousOn g (Set.Icc s.lb s.ub) ∧ ∀ t, s.lb < t → t < s.ub → HasDerivAt g (a t) t) {σ : St ℝ}
    (h : linobs (chain (mkChecked eps') eps) R C fwd bwd [] x1 x2 u = some σ) :
    linobs (chain (ofThick eps') eps) R C fwd bwd [] x1 x2 u = some σ ∧ LinKept u (fun t => (f t, g t)) σ := by
  refine C87_keeps_partial (A := ((0, 1), (0, 0))) (v := a) chain_exp chain_exp_neg (chain_hull w) (chain_hull_neg w) he (by norm_num) hin ?_ h
  refine ⟨hf, hg, ha, fun s hs => ⟨(cf s hs).1, (cg s hs).1, fun t h1 h2 => ?_, fun t h1 h2 => ?_⟩, fun o ho => by simp at ho⟩
  · simpa using (cf s hs).2 t h1 h2
  · simpa using (cg s hs).2 t h1 h2

/-! ### A concrete case: `a = 1`, `x(t) = t²/2`, `v(t) = t` over `[0,1]`, from `(0,0)` -/

noncomputable def linX : Tube ℝ := ⟨0, 1, .point 0, [⟨0, 1, .icc (-10) 10, .icc (-10) 10⟩]⟩

noncomputable def linU : Tube ℝ := ⟨0, 1, .point 1, [⟨0, 1, .point 1, .point 1⟩]⟩

theorem linX_wf : linX.WF := ⟨by simp [linX], by simp [linX, Tiles]⟩

theorem linU_wf : linU.WF := ⟨by simp [linU], by simp [linU, Tiles]⟩

theorem linInput_ex : LinInput (.icc (-9999) 9999) 1 linX linX linU fun t => (t ^ 2 / 2, t) where
  wf1 := linX_wf
  wf2 := linX_wf
  wfU := linU_wf
  gc1 s hs := by
    simp only [linX, Tube.slices, slicesFrom_cons, slicesFrom_nil, List.mem_singleton] at hs
    subst hs
    exact ⟨Itv.le_iff.mpr fun y hy => by rw [Itv.mem_point.mp hy]; exact Itv.mem_icc.mpr (by norm_num), le_rfl⟩
  gc2 s hs := by
    simp only [linX, Tube.slices, slicesFrom_cons, slicesFrom_nil, List.mem_singleton] at hs
    subst hs
    exact ⟨Itv.le_iff.mpr fun y hy => by rw [Itv.mem_point.mp hy]; exact Itv.mem_icc.mpr (by norm_num), le_rfl⟩
  gcU s hs := by
    simp only [linU, Tube.slices, slicesFrom_cons, slicesFrom_nil, List.mem_singleton] at hs
    subst hs
    exact ⟨le_rfl, le_rfl⟩
  same1 := sameSlicing_iff.mpr rfl
  same2 := sameSlicing_iff.mpr rfl
  short s hs := by
    simp only [linU, Tube.slices, slicesFrom_cons, slicesFrom_nil, List.mem_singleton] at hs
    subst hs
    norm_num
  lim1 t h0 h1 := by
    change 0 ≤ t at h0
    change t ≤ 1 at h1
    exact Itv.mem_icc.mpr ⟨by dsimp only; nlinarith, by dsimp only; nlinarith⟩
  lim2 t h0 h1 := by
    change 0 ≤ t at h0
    change t ≤ 1 at h1
    exact Itv.mem_icc.mpr ⟨by dsimp only; nlinarith, by dsimp only; nlinarith⟩

theorem linSolution_ex : LinSolution ((0, 1), (0, 0)) (0, 1) [(1 / 2, (.icc 0 1, .icc 0 1))] linX linX linU (fun t => (t ^ 2 / 2, t)) fun _ => 1 where
  in1 s hs := by
    simp only [linX, Tube.slices, slicesFrom_cons, slicesFrom_nil, List.mem_singleton] at hs
    subst hs
    refine ⟨by simp [Itv.mem_point], by simp only [Itv.mem_icc]; norm_num, fun t h0 h1 => ?_⟩
    dsimp only at h0 h1 ⊢
    exact Itv.mem_icc.mpr ⟨by nlinarith, by nlinarith⟩
  in2 s hs := by
    simp only [linX, Tube.slices, slicesFrom_cons, slicesFrom_nil, List.mem_singleton] at hs
    subst hs
    refine ⟨by simp [Itv.mem_point], by simp only [Itv.mem_icc]; norm_num, fun t h0 h1 => ?_⟩
    dsimp only at h0 h1 ⊢
    exact Itv.mem_icc.mpr ⟨by nlinarith, by nlinarith⟩
  inU s hs := by
    simp only [linU, Tube.slices, slicesFrom_cons, slicesFrom_nil, List.mem_singleton] at hs
    subst hs
    exact ⟨by simp [Itv.mem_point], by simp [Itv.mem_point], fun t _ _ => by simp [Itv.mem_point]⟩
  ode s _ := ⟨by dsimp only; fun_prop, by dsimp only; fun_prop,
    fun t _ _ => by
      have := (hasDerivAt_pow 2 t).div_const 2
      simpa using this,
    fun t _ _ => by simpa using hasDerivAt_id' t⟩
  seen o ho _ _ := by
    rw [List.mem_singleton] at ho
    subst ho
    exact ⟨Itv.mem_icc.mpr (by norm_num), Itv.mem_icc.mpr (by norm_num)⟩

/-- the hypotheses are met, with an observation, in both directions -/
example : ∃ σ e0, 0 < e0 ∧ LinKept linU (fun t => (t ^ 2 / 2, t)) σ ∧ ∀ e, 0 < e → e ≤ e0 →
    linobs ⟨ofThick e, 1 / 10 ^ 10, fun t => ((1, t), (0, 1)), fun t => ((1, -t), (0, 1)), (0, 1), 15⟩ ⊤ (.icc (-9999) 9999) true true
      [(1 / 2, (.icc 0 1, .icc 0 1))] linX linX linU = some σ :=
  C87_total_partial chain_exp chain_exp_neg (chain_hull 1) (chain_hull_neg 1) (by norm_num) (by norm_num) linInput_ex linSolution_ex (bd_icc (by norm_num))
    (fun s hs => by
      simp only [linU, Tube.slices, slicesFrom_cons, slicesFrom_nil, List.mem_singleton] at hs
      subst hs
      exact bd_point 1)
    (fun o ho => by
      rw [List.mem_singleton] at ho
      subst ho
      exact ⟨bd_icc (by norm_num), bd_icc (by norm_num)⟩)

/-! ### Defects -/

/-- a tube of one slice over `[0,1]` -/
def linT (g0 c o : Itv ℚ) : Tube ℚ := ⟨0, 1, g0, [⟨0, 1, c, o⟩]⟩

theorem linT_encl {g0 c o : Itv ℚ} {r : ℚ} (h0 : r ∈ g0) (h1 : r ∈ c) (h2 : r ∈ o) : (linT g0 c o).Encloses fun _ => r := fun s hs => by
  simp only [linT, Tube.slices, slicesFrom_cons, slicesFrom_nil, List.mem_singleton] at hs
  subst hs
  exact ⟨h0, h2, fun _ _ _ => h1⟩

/-- `CtcChain::contract(x, v, a)` with the constants of the code -/
def chainRun (fwd bwd : Bool) (x v a : Tube ℚ) : Option (St ℚ) := linobs (chain (ofThick (1 / 10 ^ 10)) (1 / 10 ^ 10)) ⊤ (.icc (-9999) 9999) fwd bwd [] x v a

/-- **C87** fails beyond `±9999`: `x = 15000`, `v = 0`, `a = 0` is a solution in the tubes, the result does not contain it at the first gate. -/
theorem C87_clip_fails : ∃ x v a : Tube ℚ, ∃ σ, (x.Encloses fun _ => 15000) ∧ (v.Encloses fun _ => 0) ∧ (a.Encloses fun _ => 0) ∧
    chainRun true true x v a = some σ ∧ ¬ σ.x1.Encloses fun _ => 15000 := by
  refine ⟨linT (.icc 0 20000) (.icc 0 20000) (.icc 0 20000), linT (.point 0) (.point 0) (.point 0), linT (.point 0) (.point 0) (.point 0), ?_⟩
  obtain ⟨σ, hσ, hg⟩ := Option.map_eq_some_iff.mp (show (chainRun true true (linT (.icc 0 20000) (.icc 0 20000) (.icc 0 20000)) (linT (.point 0) (.point 0) (.point 0))
    (linT (.point 0) (.point 0) (.point 0))).map (fun σ => (σ.x1.g0, σ.x1.cells.length)) = some (.icc 0 9999, 1) by decide +kernel)
  simp only [Prod.mk.injEq] at hg
  refine ⟨σ, linT_encl (by decide +kernel) (by decide +kernel) (by decide +kernel), linT_encl (by decide +kernel) (by decide +kernel) (by decide +kernel),
    linT_encl (by decide +kernel) (by decide +kernel) (by decide +kernel), hσ, fun h => ?_⟩
  obtain ⟨c, cs, hc⟩ := List.exists_cons_of_length_pos (l := σ.x1.cells) (by omega)
  have h0 : (15000 : ℚ) ∈ σ.x1.g0 := (h ⟨c.lb, c.ub, c.cod, σ.x1.g0, c.out⟩ (by unfold Tube.slices; rw [hc, slicesFrom_cons]; exact List.mem_cons_self)).1
  rw [hg.1, Itv.mem_icc] at h0
  norm_num at h0

/-- **C87** fails with thick points smaller than `1e-10`: from `(0,0)`, with `a` in `[0,1e-11]`, the solution `x = v = a = 0` lies in the tubes and
the result is empty. -/
theorem C87_small_fails : ∃ x v a : Tube ℚ, ∃ σ, (x.Encloses fun _ => 0) ∧ (v.Encloses fun _ => 0) ∧ (a.Encloses fun _ => 0) ∧
    chainRun true true x v a = some σ ∧ σ.x1.g0 = ⊥ ∧ σ.x2.g0 = ⊥ ∧ ∀ c ∈ σ.x1.cells ++ σ.x2.cells, c.cod = ⊥ := by
  refine ⟨linT (.point 0) (.icc (-10) 10) (.icc (-10) 10), linT (.point 0) (.icc (-10) 10) (.icc (-10) 10),
    linT (.icc 0 (1 / 10 ^ 11)) (.icc 0 (1 / 10 ^ 11)) (.icc 0 (1 / 10 ^ 11)), ?_⟩
  obtain ⟨σ, hσ, hg⟩ := Option.map_eq_some_iff.mp (show (chainRun true true (linT (.point 0) (.icc (-10) 10) (.icc (-10) 10)) (linT (.point 0) (.icc (-10) 10) (.icc (-10) 10))
    (linT (.icc 0 (1 / 10 ^ 11)) (.icc 0 (1 / 10 ^ 11)) (.icc 0 (1 / 10 ^ 11)))).map
      (fun σ => (σ.x1.g0, σ.x2.g0, (σ.x1.cells ++ σ.x2.cells).map Cell.cod)) = some (⊥, ⊥, [⊥, ⊥]) by decide +kernel)
  simp only [Prod.mk.injEq] at hg
  refine ⟨σ, linT_encl (by decide +kernel) (by decide +kernel) (by decide +kernel), linT_encl (by decide +kernel) (by decide +kernel) (by decide +kernel),
    linT_encl (by decide +kernel) (by decide +kernel) (by decide +kernel), hσ, hg.1, hg.2.1, fun c hc => ?_⟩
  have := List.mem_map_of_mem (f := Cell.cod) hc
  rw [hg.2.2] at this
  simpa using this

/-- the result is not always included in the domain: the envelope `[-1/100,1/100]` of `x` becomes `[-2,2]`, because the envelopes are replaced
instead of being intersected. -/
theorem C87_contracting_fails : ∃ x v a : Tube ℚ, ∃ σ, chainRun true true x v a = some σ ∧ x.codAt 0 = .icc (-1 / 100) (1 / 100) ∧ σ.x1.codAt 0 = .icc (-2) 2 := by
  refine ⟨linT (.point 0) (.icc (-1 / 100) (1 / 100)) (.point 0), linT (.icc (-1) 1) (.icc (-1) 1) (.icc (-1) 1), linT (.icc (-1) 1) (.icc (-1) 1) (.icc (-1) 1), ?_⟩
  obtain ⟨σ, hσ, hg⟩ := Option.map_eq_some_iff.mp (show (chainRun true true (linT (.point 0) (.icc (-1 / 100) (1 / 100)) (.point 0)) (linT (.icc (-1) 1) (.icc (-1) 1) (.icc (-1) 1))
    (linT (.icc (-1) 1) (.icc (-1) 1) (.icc (-1) 1))).map (fun σ => σ.x1.codAt 0) = some (.icc (-2) 2) by decide +kernel)
  exact ⟨σ, hσ, by decide +kernel, hg⟩

/-- the vertices are in the thick points -/
theorem thickPts_in {eps : ℝ} {c : Pt ℝ} {X : TPt ℝ} {ps : List (Pt ℝ)} (h : thickPts eps c X = some ps) {y : Pt ℝ} (hy : y ∈ ps) : In y X := by
  unfold thickPts at h
  split at h
  · rename_i a b c' d h1 h2
    have k1 := bounds_le h1
    have k2 := bounds_le h2
    split_ifs at h <;> cases h
    all_goals simp only [mem_removeIdentical, List.mem_cons, List.not_mem_nil, or_false] at hy
    all_goals unfold In
    all_goals rw [bounds_mem h1, bounds_mem h2]
    all_goals first
      | (subst hy; simp [k1, k2])
      | (rcases hy with rfl | rfl | rfl | rfl <;> simp [k1, k2])
  · cases h

theorem ofThick_line {eps : ℝ} {l : List (TPt ℝ)} {r : List (Pt ℝ)} (h : ofThick eps l = some r) (hl : ∀ X ∈ l, X.2 = .point 0) {q : Pt ℝ} (hq : q ∈ Hull r) : q.2 = 0 := by
  have hr : ∀ p ∈ r, p.2 = 0 := by
    unfold ofThick at h
    split_ifs at h
    · cases h; intro p hp; simp at hp
    · obtain ⟨ls, h1, rfl⟩ := Option.map_eq_some_iff.mp h
      intro p hp
      have hp' : p ∈ Hull ls.flatten := by rw [← (convexHullPts_poly ls.flatten).2.2]; exact Hull.mem hp
      refine convexHull_min (t := {q : Pt ℝ | q.2 = 0}) ?_ ?_ hp'
      · intro y hy
        obtain ⟨X, hX, ps, h2, h3⟩ := (mapM_flatten _ _ h1 y).mp hy
        have := (thickPts_in h2 h3).2
        rw [hl X hX] at this
        exact Itv.mem_point.mp this
      · intro y hy z hz s t _ _ _
        change s * y.2 + t * z.2 = 0
        rw [hy, hz]; ring
  refine convexHull_min (t := {q : Pt ℝ | q.2 = 0}) hr ?_ hq
  intro y hy z hz s t _ _ _
  change s * y.2 + t * z.2 = 0
  rw [hy, hz]; ring

/-- the exponential of `[[0,-1],[1,0]] t` -/
noncomputable def rotE (t : ℝ) : Mat ℝ := ((Real.cos t, -Real.sin t), (Real.sin t, Real.cos t))

theorem rotE_exp : IsExp ((0, -1), (1, 0)) rotE where
  one := by simp [rotE]
  d11 t := by simpa [rotE] using Real.hasDerivAt_cos t
  d12 t := by simpa [rotE] using (Real.hasDerivAt_sin t).fun_neg
  d21 t := by simpa [rotE] using Real.hasDerivAt_sin t
  d22 t := by simpa [rotE] using Real.hasDerivAt_cos t

theorem mem_hull_two {a c y : ℝ} (h : (a ≤ y ∧ y ≤ c) ∨ (c ≤ y ∧ y ≤ a)) : y ∈ (Itv.point a ⊔ Itv.point c : Itv ℝ) := by
  rcases h with h | h
  · exact Itv.mem_sup_of_between (Itv.mem_point.mpr rfl) (Itv.mem_point.mpr rfl) h.1 h.2
  · rw [sup_comm]
    exact Itv.mem_sup_of_between (Itv.mem_point.mpr rfl) (Itv.mem_point.mpr rfl) h.1 h.2

/-- with slices no longer than a quarter of turn, the condition on the exponential holds for the rotation -/
example : HullExp rotE (Real.pi / 2) := by
  intro s d h0 h1 hd
  have hpi := Real.pi_pos
  have s1 : Real.sin 0 ≤ Real.sin s := Real.sin_le_sin_of_le_of_le_pi_div_two (by linarith) (by linarith) h0
  have s2 : Real.sin s ≤ Real.sin d := Real.sin_le_sin_of_le_of_le_pi_div_two (by linarith) (by linarith) h1
  have c1 : Real.cos s ≤ Real.cos 0 := Real.cos_le_cos_of_nonneg_of_le_pi le_rfl (by linarith) h0
  have c2 : Real.cos d ≤ Real.cos s := Real.cos_le_cos_of_nonneg_of_le_pi h0 (by linarith) h1
  exact ⟨⟨mem_hull_two (Or.inr ⟨c2, c1⟩), mem_hull_two (Or.inr ⟨neg_le_neg s2, neg_le_neg s1⟩)⟩, mem_hull_two (Or.inl ⟨s1, s2⟩), mem_hull_two (Or.inr ⟨c2, c1⟩)⟩

theorem mul_point_zero {X : Itv ℝ} (h : Bd X) : Itv.mul X (.point 0) = .point 0 := by
  match X, h with
  | .mk (some a) (some b) hab, _ => simp only [Itv.mul, Itv.point, mul_zero, min_self, max_self]; exact Itv.icc_eq_mk le_rfl

theorem point_zero_mul {X : Itv ℝ} (h : Bd X) : Itv.mul (.point 0) X = .point 0 := by
  match X, h with
  | .mk (some a) (some b) hab, _ => simp only [Itv.mul, Itv.point, zero_mul, min_self, max_self]; exact Itv.icc_eq_mk le_rfl

theorem ofThick_some {eps : ℝ} {l : List (TPt ℝ)} (h : ∀ X ∈ l, Bd X.1 ∧ Bd X.2) : ∃ r, ofThick eps l = some r := by
  unfold ofThick
  split_ifs
  · exact ⟨_, rfl⟩
  · obtain ⟨ls, hls⟩ := mapM_isSome (thickPts eps (centerOf l)) l (by
      intro X hX
      obtain ⟨⟨a, b⟩, h1⟩ := Option.isSome_iff_exists.mp (h X hX).1
      obtain ⟨⟨c, d⟩, h2⟩ := Option.isSome_iff_exists.mp (h X hX).2
      simp only [thickPts, h1, h2]
      split_ifs <;> exact ⟨_, rfl⟩)
    exact ⟨_, by rw [hls]; rfl⟩

/-- **C87** fails on long slices: for `x' = -y`, `y' = x` (rotation), over a slice of duration `π`, the envelope computed from the gate `{(1,0)}` has
only points of ordinate `0`; the solution `(cos t, sin t)` goes through `(0,1)`. -/
theorem C87_rotation_fails {F : ℝ → Mat ℝ} {eps eps' : ℝ} {edges : Nat} : ∃ r, polyEnvelope ⟨ofThick eps', eps, rotE, F, (0, 0), edges⟩ [(1, 0)] Real.pi (.point 0) = some r ∧
    ((Real.cos (Real.pi / 2), Real.sin (Real.pi / 2)) : Pt ℝ) ∉ Hull r := by
  have hM : expAt rotE 0 Real.pi = ((.point 1 ⊔ .point (-1), .point 0), (.point 0, .point 1 ⊔ .point (-1))) := by
    simp [expAt, rotE]
  have hc : Bd (Itv.point (1 : ℝ) ⊔ .point (-1)) := bd_sup (bd_point _) (bd_point _)
  have h0 : Bd (Itv.point (0 : ℝ)) := bd_point 0
  have hf : forced (.icc 0 Real.pi) (expAt rotE 0 Real.pi) (.point 0) ((0, 0) : Pt ℝ) = (.point 0, .point 0) := by
    have hD : Bd (Itv.icc 0 Real.pi) := bd_icc Real.pi_pos.le
    rw [hM]
    simp only [forced, mul_point_zero h0, mul_point_zero (bd_mul hD hc), mul_point_zero (bd_mul hD h0), Itv.add_point, add_zero]
  have hm1 : Bd (Itv.mul (.point 1 ⊔ .point (-1)) (.point 1) : Itv ℝ) := bd_mul hc (bd_point 1)
  have hl : ∀ X ∈ ([((1 : ℝ), (0 : ℝ))].map fun p => tpt (.add (.mul (expAt rotE 0 Real.pi).1.1 (.point p.1)) (.mul (expAt rotE 0 Real.pi).1.2 (.point p.2)))
      (.add (.mul (expAt rotE 0 Real.pi).2.1 (.point p.1)) (.mul (expAt rotE 0 Real.pi).2.2 (.point p.2)))), Bd X.1 ∧ X.2 = .point 0 := by
    intro X hX
    rw [List.map_singleton, List.mem_singleton] at hX
    subst hX
    rw [hM]
    dsimp only
    rw [mul_point_zero h0, mul_point_zero hc, point_zero_mul (bd_point 1), Itv.add_point, add_zero, tpt_bd (bd_add hm1 h0) h0]
    exact ⟨bd_add hm1 h0, rfl⟩
  obtain ⟨q, hq⟩ := ofThick_some (eps := eps') fun X hX => ⟨(hl X hX).1, by rw [(hl X hX).2]; exact h0⟩
  have hqs : ∀ p ∈ q, p.2 = 0 := fun p hp => ofThick_line hq (fun X hX => (hl X hX).2) (Hull.mem hp)
  have hl2 : ∀ X ∈ q.map fun p => tpt (.add (.point p.1) (.point 0)) (.add (.point p.2) (.point (0 : ℝ))), Bd X.1 ∧ X.2 = .point 0 := by
    intro X hX
    obtain ⟨p, hp, rfl⟩ := List.mem_map.mp hX
    rw [hqs p hp, Itv.add_point, Itv.add_point, tpt_bd (bd_point _) (bd_point _), add_zero]
    exact ⟨bd_point _, by rw [add_zero]⟩
  obtain ⟨r, hr⟩ := ofThick_some (eps := eps') fun X hX => ⟨(hl2 X hX).1, by rw [(hl2 X hX).2]; exact h0⟩
  refine ⟨r, ?_, fun h => ?_⟩
  · unfold polyEnvelope mulW addW
    dsimp only
    rw [hf, hq, Option.bind_some, hr]
  · have := ofThick_line hr (fun X hX => (hl2 X hX).2) h
    rw [Real.sin_pi_div_two] at this
    norm_num at this

end Codac.Props
