import Verif.C2.Wrap
import Verif.Props.Convert
import Verif.Props.Deriv
import Verif.Props.Linobs

/-!
# C119: `CtcDeriv` and `CtcChain` on the tubes of codac2
-/

set_option linter.unusedSectionVars false

namespace Codac.Props
open Codac Codac.C2

section
variable {ι K : Type*} [Field K] [LinearOrder K] [IsStrictOrderedRing K] [DecidableEq ι]

/-- a gate at each bound of each slice of the temporal domain -/
def AllGates (l : List (TS K ι K)) : Prop := ∀ s ∈ l, (∃ g ∈ l, g.lb = s.lb ∧ g.ub = s.lb) ∧ ∃ g ∈ l, g.lb = s.ub ∧ g.ub = s.ub

/-- the bounds of the slices that are not gates -/
def cutsOf (l : List (TS K ι K)) : List (K × K) := (l.filter fun s => decide (s.lb ≠ s.ub)).map fun s => (s.lb, s.ub)

theorem allGates_iff {l : List (TS K ι K)} : AllGates l ↔ Full l := by
  have key : ∀ t, (∃ g ∈ l, g.lb = t ∧ g.ub = t) ↔ GateAt l t := by
    intro t
    constructor
    · rintro ⟨g, hg, e1, e2⟩; exact ⟨g, hg, e1.trans e2.symm, e1⟩
    · rintro ⟨g, hg, e1, e2⟩
      have e1 : g.lb = g.ub := e1
      exact ⟨g, hg, e2, e1.symm.trans e2⟩
  unfold AllGates Full
  simp only [key]

theorem cutsOf_eq (l : List (TS K ι K)) : cutsOf l = spans (deleteGates l) := by
  unfold cutsOf spans deleteGates
  congr 1
  refine List.filter_congr fun s _ => ?_
  by_cases h : s.lb = s.ub
  · rw [decide_eq_true (show s.IsGate from h)]; simp [h]
  · rw [decide_eq_false (show ¬ s.IsGate from h)]; simp [h]

theorem derivTube_wf {A : IArith K} {B : K} {R : Itv K} {fw bw : Bool} {x v x' : Tube K} (hx : x.WF) (hg : x.GatesInEnvelopes)
    (h : derivTube A B R fw bw x v = some x') : x'.WF ∧ x'.GatesInEnvelopes ∧ x'.t0 = x.t0 ∧ x'.tf = x.tf ∧ SameB x' x := by
  obtain ⟨-, rfl⟩ := derivTube_eq_some h
  have hgc : ∀ k p n s, LocalGC p n s → LocalGC p n (derivSlice A B R (v.codAt k) p n s) :=
    fun k p n s h => derivSlice_gc h
  have i1 := foldl_upd_inv (fun k => derivSlice A B R (v.codAt k)) (if fw then List.range x.nbSlices else []) hx
  have g1 := foldl_upd_gc (fun k => derivSlice A B R (v.codAt k)) hgc (if fw then List.range x.nbSlices else []) hg
  have i2 := foldl_upd_inv (fun k => derivSlice A B R (v.codAt k)) (if bw then (List.range x.nbSlices).reverse else []) i1.1
  have g2 := foldl_upd_gc (fun k => derivSlice A B R (v.codAt k)) hgc
    (if bw then (List.range x.nbSlices).reverse else []) g1
  exact ⟨i2.1, g2, i2.2.1.trans i1.2.1, i2.2.2.1.trans i1.2.2.1, i2.2.2.2.trans i1.2.2.2⟩

theorem slices_spans {T : Tube K} {l : List (TS K ι K)} {k : ι}
    (h : T.slices.map (fun s => (s.lb, s.ub, s.cod)) = (deleteGates l).map fun s => (s.lb, s.ub, s.val k)) :
    T.slices.map (fun s => (s.lb, s.ub)) = spans (deleteGates l) := by
  have := congrArg (List.map fun p : K × K × Itv K => (p.1, p.2.1)) h
  simpa [spans, Function.comp_def] using this

variable {A : IArith K} {B : K} {R : Itv K} {fw bw : Bool} {kx kv : ι} {l u l' : List (TS K ι K)} {a b : K}

/-- the steps of the contraction -/
theorem derivC2_steps (h : WF a b l) (hu : WF a b u) (hab : a < b) (e : derivC2 A B R fw bw kx l kv u = some l') :
    ∃ X V X', toC1 kx l = some X ∧ toC1 kv u = some V ∧ derivTube A B R fw bw X V = some X' ∧ meetBack kx X' l = some l' ∧ X'.WF ∧ X'.GatesInEnvelopes := by
  obtain ⟨X, eX, -, -, wX, gX, -⟩ := C93_to_codac1 h hab kx
  obtain ⟨V, eV, -⟩ := C93_to_codac1 hu hab kv
  rw [derivC2, eX, Option.bind_some, eV, Option.bind_some, Option.bind_eq_some_iff] at e
  obtain ⟨X', e1, e2⟩ := e
  obtain ⟨w, g, -⟩ := derivTube_wf wX gX e1
  exact ⟨X, V, X', eX, eV, e1, e2, w, g⟩

/-- **C119**: on tubes of codac2, `CtcDeriv` ends with a result exactly when the temporal domain of `x` has a gate at each bound of its slices, and the
slices of `x` and `v` (without their gates) are the same; otherwise an assertion fails -/
theorem C119_deriv_defined (A : IArith K) (B : K) (R : Itv K) (fw bw : Bool) (kx kv : ι) (h : WF a b l) (hu : WF a b u) (hab : a < b) :
    (∃ l', derivC2 A B R fw bw kx l kv u = some l') ↔ AllGates l ∧ cutsOf l = cutsOf u := by
  rw [allGates_iff, cutsOf_eq, cutsOf_eq]
  obtain ⟨X, eX, x0, xf, wX, gX, -, sX⟩ := C93_to_codac1 h hab kx
  obtain ⟨V, eV, v0, vf, -, -, -, sV⟩ := C93_to_codac1 hu hab kv
  have hsame : X.sameSlicing V = true ↔ spans (deleteGates l) = spans (deleteGates u) := by
    rw [sameSlicing_iff, SameB, ← Tube.slices_bounds, ← Tube.slices_bounds, slices_spans sX, slices_spans sV]
  constructor
  · rintro ⟨l', e⟩
    obtain ⟨X1, V1, X', e1, e2, e3, e4, w, g⟩ := derivC2_steps h hu hab e
    rw [eX, Option.some.injEq] at e1
    rw [eV, Option.some.injEq] at e2
    subst e1 e2
    exact ⟨(meetBack_some h w g e4).1, hsame.mp (sameSlicing_iff.mpr (derivTube_eq_some e3).1)⟩
  · rintro ⟨hf, hs⟩
    have e3 : ∃ X', derivTube A B R fw bw X V = some X' := by
      unfold derivTube
      rw [if_pos ⟨x0.trans v0.symm, xf.trans vf.symm, hsame.mpr hs⟩]
      exact ⟨_, rfl⟩
    obtain ⟨X', e3⟩ := e3
    obtain ⟨w, g, -, tf, sb⟩ := derivTube_wf wX gX e3
    obtain ⟨l', e4⟩ := meetBack_total (k := kx) h w g hf (tf.trans xf) (by
      rw [Tube.slices_bounds, sb, ← Tube.slices_bounds, slices_spans sX])
    exact ⟨l', by rw [derivC2, eX, Option.bind_some, eV, Option.bind_some, e3, Option.bind_some, e4]⟩

/-- **C119**: on tubes of codac2, `CtcDeriv` only removes trajectories of `x`, whatever the tubes (with tubes of codac, `C18_contract_enlarges_fails`);
the temporal domain and the other tubes on it are not changed -/
theorem C119_deriv_contracts (h : WF a b l) (hu : WF a b u) (hab : a < b) (e : derivC2 A B R fw bw kx l kv u = some l') :
    WF a b l' ∧ l'.map (fun s => (s.lb, s.ub)) = l.map (fun s => (s.lb, s.ub)) ∧ (∀ f, InTube l' kx f → InTube l kx f) ∧
      ∀ k ≠ kx, ∀ f, InTube l' k f ↔ InTube l k f := by
  obtain ⟨X, V, X', -, -, -, e4, -⟩ := derivC2_steps h hu hab e
  obtain ⟨hs, hle⟩ := meetBack_le h e4
  exact ⟨wf_of_same hs h, hs.1, hle, fun k hk f => inTube_of_same hs hk⟩

/-- **C119**: every trajectory of `x` bounded by `BOUNDED_INFINITY`, the slopes of which in each slice are in the codomain of the slice of `v`, is kept.
Missing: the trajectories that exceed this bound, lost as with tubes of codac (`C18_beyond_bounded_infinity_fails`). -/
theorem C119_deriv_slope_partial (h : WF a b l) (hu : WF a b u) (hab : a < b) (e : derivC2 A B R fw bw kx l kv u = some l') {f : K → K}
    (hf : InTube l kx f) (hv : ∀ s ∈ u, s.lb < s.ub → ∀ m t, s.lb ≤ m → m < t → t ≤ s.ub → ∃ c ∈ s.val kv, f t - f m = c * (t - m))
    (hB : ∀ t, a ≤ t → t ≤ b → -B ≤ f t ∧ f t ≤ B) : InTube l' kx f := by
  obtain ⟨X, V, X', e1, e2, e3, e4, w, g⟩ := derivC2_steps h hu hab e
  obtain ⟨X1, eX, x0, xf, wX, gX, hX, -⟩ := C93_to_codac1 h hab kx
  rw [e1, Option.some.injEq] at eX; subst eX
  obtain ⟨V1, eV, -, -, -, -, -, sV⟩ := C93_to_codac1 hu hab kv
  rw [e2, Option.some.injEq] at eV; subst eV
  have hsl : V.SlopeIn f := by
    intro s hs m t h1 h2 h3
    have : (s.lb, s.ub, s.cod) ∈ (deleteGates u).map fun s => (s.lb, s.ub, s.val kv) := by
      rw [← sV]; exact List.mem_map.mpr ⟨s, hs, rfl⟩
    obtain ⟨r, hr, er⟩ := List.mem_map.mp this
    simp only [Prod.mk.injEq] at er
    obtain ⟨r1, r2, r3⟩ := er
    rw [← r3]
    obtain ⟨c, hc, ec⟩ := hv r (List.mem_of_mem_filter hr) (by rw [r1, r2]; exact h1.trans_lt (h2.trans_le h3)) m t (r1.le.trans h1) h2 (h3.trans r2.ge)
    exact ⟨c, hc, ec⟩
  have := (C18_deriv_sound_partial wX gX e3 ((hX f).mpr hf) hsl (by rw [x0, xf]; exact hB)).2.2
  exact ((meetBack_some h w g e4).2.2 f).mpr ⟨hf, this⟩

end

/-- **C119** over the reals: every trajectory of `x`, continuous, whose derivative is a signal of `v`, bounded by `BOUNDED_INFINITY`, is kept. Missing: as in
`C119_deriv_slope_partial`. -/
theorem C119_deriv_real_partial {ι : Type*} [DecidableEq ι] {A : IArith ℝ} {B : ℝ} {R : Itv ℝ} {fw bw : Bool} {kx kv : ι} {l u l' : List (TS ℝ ι ℝ)} {a b : ℝ}
    (h : WF a b l) (hu : WF a b u) (hab : a < b) (e : derivC2 A B R fw bw kx l kv u = some l') {f w : ℝ → ℝ} (hf : InTube l kx f) (hw : InTube u kv w)
    (hc : ContinuousOn f (Set.Icc a b)) (hd : ∀ s ∈ u, ∀ t, s.lb < t → t < s.ub → HasDerivAt f (w t) t)
    (hB : ∀ t, a ≤ t → t ≤ b → -B ≤ f t ∧ f t ≤ B) : InTube l' kx f := by
  refine C119_deriv_slope_partial h hu hab e hf ?_ hB
  intro s hs hlt m t h1 h2 h3
  have hb := hu.chain.mem hs
  obtain ⟨c, ⟨hc1, hc2⟩, ec⟩ := exists_hasDerivAt_eq_slope f w h2 (hc.mono (Set.Icc_subset_Icc (hb.1.trans h1) (h3.trans hb.2.2)))
    fun y hy => hd s hs y (h1.trans_lt hy.1) (hy.2.trans_le h3)
  refine ⟨w c, hw s hs c (h1.trans hc1.le) (hc2.le.trans h3), ?_⟩
  have : t - m ≠ 0 := sub_ne_zero.mpr h2.ne'
  rw [ec]
  field_simp

/-! ### `CtcChain` -/

section
open Codac.Lin Codac.Poly Codac.Graham
variable {ι : Type*} [DecidableEq ι] {eps eps' : ℝ} {R C : Itv ℝ} {fwd bwd : Bool} {kx kv ka : ι} {l l' : List (TS ℝ ι ℝ)} {t0 tf : ℝ}

/-- **C119**: on three tubes `x`, `v`, `a` of one temporal domain of codac2, `CtcChain` only removes trajectories of `x` and `v`; the temporal domain, `a` and
the other tubes are not changed -/
theorem C119_chain_contracts {P : Params ℝ} (h : WF t0 tf l) (hk : kx ≠ kv) (e : chainC2 P R C fwd bwd kx kv ka l = some l') :
    WF t0 tf l' ∧ l'.map (fun s => (s.lb, s.ub)) = l.map (fun s => (s.lb, s.ub)) ∧ (∀ k f, InTube l' k f → InTube l k f) ∧
      ∀ k, k ≠ kx → k ≠ kv → ∀ f, InTube l' k f ↔ InTube l k f := by
  simp only [chainC2, Option.bind_eq_some_iff] at e
  obtain ⟨X, -, V, -, U, -, σ, -, l1, e1, e2⟩ := e
  obtain ⟨s1, m1⟩ := meetBack_le h e1
  obtain ⟨s2, m2⟩ := meetBack_le (wf_of_same s1 h) e2
  refine ⟨wf_of_same s2 (wf_of_same s1 h), s2.1.trans s1.1, fun k f hf => ?_, fun k h1 h2 f => (inTube_of_same s2 h2).trans (inTube_of_same s1 h1)⟩
  by_cases h2 : k = kv
  · subst h2
    exact (inTube_of_same s1 hk.symm).mp (m2 f hf)
  · have hf := (inTube_of_same s2 h2).mp hf
    by_cases h1 : k = kx
    · subst h1; exact m1 f hf
    · exact (inTube_of_same s1 h1).mp hf

/-- the trajectories `f`, `g` of the tubes `x`, `v`, with `f' = g` and `g' = w` for a signal `w` of the tube `a`, that stay in `C` -/
structure ChainSol (C : Itv ℝ) (t0 tf : ℝ) (kx kv ka : ι) (l : List (TS ℝ ι ℝ)) (f g w : ℝ → ℝ) : Prop where
  inX : InTube l kx f
  inV : InTube l kv g
  inA : InTube l ka w
  contX : ContinuousOn f (Set.Icc t0 tf)
  contV : ContinuousOn g (Set.Icc t0 tf)
  ode : ∀ s ∈ l, ∀ t, s.lb < t → t < s.ub → HasDerivAt f (g t) t ∧ HasDerivAt g (w t) t
  lim : ∀ t, t0 ≤ t → t ≤ tf → f t ∈ C ∧ g t ∈ C

/-- the tubes of codac, given to `CtcChain` on tubes of codac -/
theorem chainSol_lin {f g w : ℝ → ℝ} (h : WF t0 tf l) (hab : t0 < tf) (hs : ChainSol C t0 tf kx kv ka l f g w) :
    ∃ X V U, toC1 kx l = some X ∧ toC1 kv l = some V ∧ toC1 ka l = some U ∧ LinInput C (tf - t0) X V U (fun t => (f t, g t)) ∧
      LinSolution ((0, 1), (0, 0)) (0, 1) [] X V U (fun t => (f t, g t)) w ∧ U.tf = tf ∧ U.slices.map (fun s => (s.lb, s.ub)) = spans (deleteGates l) ∧
      ∀ s ∈ U.slices, ∃ r ∈ l, s.cod = r.val ka := by
  obtain ⟨X, eX, x0, xf, wX, gX, hX, sX⟩ := C93_to_codac1 h hab kx
  obtain ⟨V, eV, v0, vf, wV, gV, hV, sV⟩ := C93_to_codac1 h hab kv
  obtain ⟨U, eU, u0, uf, wU, gU, hU, sU⟩ := C93_to_codac1 h hab ka
  have hm : ∀ s ∈ U.slices, ∃ r ∈ l, r.lb = s.lb ∧ r.ub = s.ub ∧ r.val ka = s.cod := by
    intro s hs
    have : (s.lb, s.ub, s.cod) ∈ (deleteGates l).map fun s => (s.lb, s.ub, s.val ka) := by
      rw [← sU]; exact List.mem_map.mpr ⟨s, hs, rfl⟩
    obtain ⟨r, hr, er⟩ := List.mem_map.mp this
    simp only [Prod.mk.injEq] at er
    exact ⟨r, List.mem_of_mem_filter hr, er⟩
  have hb : ∀ s ∈ U.slices, t0 ≤ s.lb ∧ s.lb < s.ub ∧ s.ub ≤ tf := by
    intro s hs
    obtain ⟨b1, b2, b3⟩ := wU.tiles.mem_bounds hs
    exact ⟨u0 ▸ b1, b2, uf ▸ b3⟩
  have hc : ∀ s ∈ U.slices, Set.Icc s.lb s.ub ⊆ Set.Icc t0 tf := fun s hs => Set.Icc_subset_Icc (hb s hs).1 (hb s hs).2.2
  refine ⟨X, V, U, eX, eV, eU, ⟨wX, wV, wU, gX, gV, gU, ?_, ?_, fun s hs => ?_, fun t h1 h2 => ?_, fun t h1 h2 => ?_⟩,
    ⟨(hX f).mpr hs.inX, (hV g).mpr hs.inV, (hU w).mpr hs.inA, fun s hsl => ?_, fun o ho => by simp at ho⟩, uf, slices_spans sU, fun s hs => ?_⟩
  · rw [sameSlicing_iff, SameB, ← Tube.slices_bounds, ← Tube.slices_bounds, slices_spans sX, slices_spans sU]
  · rw [sameSlicing_iff, SameB, ← Tube.slices_bounds, ← Tube.slices_bounds, slices_spans sV, slices_spans sU]
  · obtain ⟨b1, b2, b3⟩ := hb s hs
    linarith
  · exact (hs.lim t (x0 ▸ h1) (xf ▸ h2)).1
  · exact (hs.lim t (v0 ▸ h1) (vf ▸ h2)).2
  · obtain ⟨r, hr, r1, r2, -⟩ := hm s hsl
    refine ⟨hs.contX.mono (hc s hsl), hs.contV.mono (hc s hsl), fun t h1 h2 => ?_, fun t h1 h2 => ?_⟩
    · simpa using (hs.ode r hr t (by rw [r1]; exact h1) (by rw [r2]; exact h2)).1
    · simpa using (hs.ode r hr t (by rw [r1]; exact h1) (by rw [r2]; exact h2)).2
  · obtain ⟨r, hr, -, -, r3⟩ := hm s hs
    exact ⟨r, hr, r3.symm⟩

/-- **C119**: the solutions are kept, and the temporal domain has all its gates. Missing: as for tubes of codac (`C87_chain_partial`), the trajectories that
leave `C`, and the runs that meet thick points smaller than the threshold; and the temporal domain of the three tubes is the same object. -/
theorem C119_chain_keeps_partial (he : 0 < eps) (h : WF t0 tf l) (hab : t0 < tf) (hk : kx ≠ kv)
    (e : chainC2 (chain (mkChecked eps') eps) R C fwd bwd kx kv ka l = some l') {f g w : ℝ → ℝ} (hs : ChainSol C t0 tf kx kv ka l f g w) :
    chainC2 (chain (ofThick eps') eps) R C fwd bwd kx kv ka l = some l' ∧ AllGates l ∧ InTube l' kx f ∧ InTube l' kv g := by
  obtain ⟨X, V, U, eX, eV, eU, hin, hsol, -⟩ := chainSol_lin h hab hs
  rw [chainC2, eX, Option.bind_some, eV, Option.bind_some, eU, Option.bind_some, Option.bind_eq_some_iff] at e
  obtain ⟨σ, e1, e2⟩ := e
  rw [Option.bind_eq_some_iff] at e2
  obtain ⟨l1, e2, e3⟩ := e2
  obtain ⟨e1', kept⟩ := C87_keeps_partial chain_exp chain_exp_neg (chain_hull _) (chain_hull_neg _) he (by norm_num) hin hsol e1
  obtain ⟨full, s1, k1⟩ := meetBack_some h kept.wf1 kept.gc1 e2
  obtain ⟨-, s2, k2⟩ := meetBack_some (wf_of_same s1 h) kept.wf2 kept.gc2 e3
  refine ⟨?_, allGates_iff.mpr full, ?_, ?_⟩
  · rw [chainC2, eX, Option.bind_some, eV, Option.bind_some, eU, Option.bind_some]
    refine Option.bind_eq_some_iff.mpr ⟨σ, e1', ?_⟩
    rw [e2, Option.bind_some, e3]
  · exact (inTube_of_same s2 hk).mpr ((k1 f).mpr ⟨hs.inX, kept.in1⟩)
  · exact (k2 g).mpr ⟨(inTube_of_same s1 hk.symm).mpr hs.inV, kept.in2⟩

theorem tiles_end {K : Type*} [LinearOrder K] {cs ds : List (Cell K)} {a a' b b' : K} (h : Tiles a cs b) (h' : Tiles a' ds b') (hn : cs ≠ [])
    (e : cs.map (fun c => (c.lb, c.ub)) = ds.map fun c => (c.lb, c.ub)) : b = b' := by
  induction cs generalizing a a' ds with
  | nil => exact absurd rfl hn
  | cons c cs ih =>
    cases ds with
    | nil => cases e
    | cons d ds =>
      rw [List.map_cons, List.map_cons] at e
      injection e with e1 e2
      obtain ⟨-, -, h3⟩ := h
      obtain ⟨-, -, h3'⟩ := h'
      cases cs with
      | nil =>
        cases ds with
        | nil =>
          have h3 : c.ub = b := h3
          have h3' : d.ub = b' := h3'
          rw [← h3, ← h3']
          exact (Prod.mk.injEq _ _ _ _ ▸ e1).2
        | cons d' ds => cases e2
      | cons c' cs => exact ih h3 h3' (by simp) e2

/-- **C119**: with bounded domains and all the gates, for a threshold of thick points that is small enough, `CtcChain` ends with a result that keeps the
solutions -/
theorem C119_chain_total_partial (R : Itv ℝ) (fwd bwd : Bool) (he : 0 < eps) (h : WF t0 tf l) (hab : t0 < tf) (hk : kx ≠ kv) (hf : AllGates l)
    (hC : C.bounds?.isSome) (ha : ∀ s ∈ l, (s.val ka).bounds?.isSome) {f g w : ℝ → ℝ} (hs : ChainSol C t0 tf kx kv ka l f g w) :
    ∃ l' e0, 0 < e0 ∧ InTube l' kx f ∧ InTube l' kv g ∧ ∀ e, 0 < e → e ≤ e0 → chainC2 (chain (ofThick e) eps) R C fwd bwd kx kv ka l = some l' := by
  obtain ⟨X, V, U, eX, eV, eU, hin, hsol, utf, hsp, hcod⟩ := chainSol_lin h hab hs
  obtain ⟨σ, e0, h0, kept, run⟩ := C87_total_partial (R := R) (fwd := fwd) (bwd := bwd) chain_exp chain_exp_neg (chain_hull _) (chain_hull_neg _) he
    (show 3 ≤ 15 by norm_num) hin hsol hC (fun s hsl => by
      obtain ⟨r, hr, er⟩ := hcod s hsl
      rw [er]; exact ha r hr) (fun o ho => by simp at ho)
  have hend : ∀ {T : Tube ℝ}, T.WF → T.slices.map (fun s => (s.lb, s.ub)) = U.slices.map (fun s => (s.lb, s.ub)) → T.tf = tf := by
    intro T hT e
    rw [Tube.slices_bounds, Tube.slices_bounds] at e
    exact (tiles_end hT.tiles hin.wfU.tiles hT.ne e).trans utf
  rw [allGates_iff] at hf
  obtain ⟨l1, e1⟩ := meetBack_total (k := kx) h kept.wf1 kept.gc1 hf (hend kept.wf1 kept.same1) (kept.same1.trans hsp)
  obtain ⟨-, s1, k1⟩ := meetBack_some h kept.wf1 kept.gc1 e1
  have hf1 : Full l1 := by rw [full_spans, s1.spans, ← full_spans]; exact hf
  have hcuts : ∀ m : List (TS ℝ ι ℝ), spans (deleteGates m) = (spans m).filter fun p => decide (p.1 ≠ p.2) := by
    intro m
    rw [← cutsOf_eq, cutsOf, spans, List.filter_map]
    rfl
  obtain ⟨l2, e2⟩ := meetBack_total (k := kv) (wf_of_same s1 h) kept.wf2 kept.gc2 hf1 (hend kept.wf2 kept.same2) (by
    rw [kept.same2, hsp, hcuts, hcuts, s1.spans])
  obtain ⟨-, s2, k2⟩ := meetBack_some (wf_of_same s1 h) kept.wf2 kept.gc2 e2
  refine ⟨l2, e0, h0, (inTube_of_same s2 hk).mpr ((k1 f).mpr ⟨hs.inX, kept.in1⟩), (k2 g).mpr ⟨(inTube_of_same s1 hk.symm).mpr hs.inV, kept.in2⟩, fun e p q => ?_⟩
  rw [chainC2, eX, Option.bind_some, eV, Option.bind_some, eU, Option.bind_some]
  refine Option.bind_eq_some_iff.mpr ⟨σ, run e p q, ?_⟩
  rw [e1, Option.bind_some, e2]

/-- the tubes `x` (0), `v` (1) and `a` (2) on `[0,1]` -/
noncomputable def wrapC : List (TS ℝ (Fin 3) ℝ) :=
  [⟨0, 0, ![.point 0, .point 0, .point 1]⟩, ⟨0, 1, ![.icc (-10) 10, .icc (-10) 10, .point 1]⟩, ⟨1, 1, ![.icc (-10) 10, .icc (-10) 10, .point 1]⟩]

theorem wrapC_wf : WF 0 1 wrapC :=
  ⟨by simp [wrapC], ⟨rfl, le_refl _, rfl, by norm_num, rfl, le_refl _, rfl⟩, by unfold OneGate wrapC; simp [TS.IsGate]⟩

/-- the hypotheses are met by `a = 1`, `v(t) = t`, `x(t) = t²/2` -/
example : ∃ l' e0, 0 < e0 ∧ InTube l' 0 (fun t => t ^ 2 / 2) ∧ InTube l' 1 (fun t => t) ∧ ∀ e, 0 < e → e ≤ e0 →
    chainC2 (chain (ofThick e) (1 / 10 ^ 10)) ⊤ (.icc (-9999) 9999) true true (0 : Fin 3) 1 2 wrapC = some l' := by
  refine C119_chain_total_partial (w := fun _ => 1) ⊤ true true (by norm_num) wrapC_wf (by norm_num) (by decide) ?_ (bd_icc (by norm_num)) ?_
    ⟨?_, ?_, ?_, by fun_prop, by fun_prop, fun s _ t _ _ => ⟨?_, hasDerivAt_id' t⟩, fun t h1 h2 => ⟨?_, ?_⟩⟩
  · unfold AllGates wrapC
    simp
  · intro s hs
    simp only [wrapC, List.mem_cons, List.not_mem_nil, or_false] at hs
    rcases hs with rfl | rfl | rfl <;> exact bd_point 1
  · intro s hs t h1 h2
    simp only [wrapC, List.mem_cons, List.not_mem_nil, or_false] at hs
    rcases hs with rfl | rfl | rfl <;> simp only [Matrix.cons_val_zero, Itv.mem_point, Itv.mem_icc] at h1 h2 ⊢
    · have : t = 0 := le_antisymm h2 h1
      rw [this]; norm_num
    · constructor <;> nlinarith
    · constructor <;> nlinarith
  · intro s hs t h1 h2
    simp only [wrapC, List.mem_cons, List.not_mem_nil, or_false] at hs
    rcases hs with rfl | rfl | rfl <;> simp only [Matrix.cons_val_one, Matrix.cons_val_zero, Itv.mem_point, Itv.mem_icc] at h1 h2 ⊢
    · exact le_antisymm h2 h1
    · constructor <;> linarith
    · constructor <;> linarith
  · intro s hs t h1 h2
    simp only [wrapC, List.mem_cons, List.not_mem_nil, or_false] at hs
    rcases hs with rfl | rfl | rfl <;> exact Itv.mem_point.mpr rfl
  · have := (hasDerivAt_pow 2 t).div_const 2
    simpa using this
  · exact Itv.mem_icc.mpr ⟨by nlinarith, by nlinarith⟩
  · exact Itv.mem_icc.mpr ⟨by linarith, by linarith⟩

end

/-! ### Concrete cases -/

/-- the tubes `x` (`false`) and `v` (`true`) on `[0,2]`, with two slices and three gates: `x` starts at 0, `v` is 1 then in `[0,1]` -/
def wrapL : List (TS ℚ Bool ℚ) :=
  [⟨0, 0, fun k => if k then ⊤ else .point 0⟩, ⟨0, 1, fun k => if k then .point 1 else .icc (-10) 10⟩, ⟨1, 1, fun k => if k then ⊤ else .icc (-10) 10⟩,
   ⟨1, 2, fun k => if k then .icc 0 1 else .icc (-10) 10⟩, ⟨2, 2, fun k => if k then ⊤ else .icc (-10) 10⟩]

/-- the same without gates -/
def wrapN : List (TS ℚ Bool ℚ) :=
  [⟨0, 1, fun k => if k then .point 1 else .icc (-10) 10⟩, ⟨1, 2, fun k => if k then .icc 0 1 else .icc (-10) 10⟩]

theorem wrapL_wf : WF 0 2 wrapL :=
  ⟨by simp [wrapL], ⟨rfl, le_refl _, rfl, by norm_num, rfl, le_refl _, rfl, by norm_num, rfl, le_refl _, rfl⟩, by
    unfold OneGate wrapL; simp [TS.IsGate]⟩

theorem wrapN_wf : WF 0 2 wrapN :=
  ⟨by simp [wrapN], ⟨rfl, by norm_num, rfl, by norm_num, rfl⟩, by unfold OneGate wrapN; simp [TS.IsGate]⟩

/-- the hypotheses are met, with the trajectory `x(t) = t` -/
example : AllGates wrapL ∧ cutsOf wrapL = cutsOf wrapL ∧ InTube wrapL false (fun t => t) ∧
    (∀ s ∈ wrapL, s.lb < s.ub → ∀ m t : ℚ, s.lb ≤ m → m < t → t ≤ s.ub → ∃ c ∈ s.val true, t - m = c * (t - m)) ∧
    ∀ t : ℚ, 0 ≤ t → t ≤ 2 → -floatMax ≤ t ∧ t ≤ floatMax := by
  refine ⟨by unfold AllGates; decide +kernel, rfl, ?_, ?_, fun t h1 h2 => ⟨?_, ?_⟩⟩
  · intro s hs t h1 h2
    simp only [wrapL, List.mem_cons, List.not_mem_nil, or_false] at hs
    rcases hs with rfl | rfl | rfl | rfl | rfl <;> simp [Itv.mem_icc, Itv.mem_point] at * <;> first | exact le_antisymm h2 h1 | constructor <;> linarith
  · intro s hs hlt m t _ _ _
    refine ⟨1, ?_, by ring⟩
    simp only [wrapL, List.mem_cons, List.not_mem_nil, or_false] at hs
    rcases hs with rfl | rfl | rfl | rfl | rfl <;> simp [Itv.mem_icc, Itv.mem_point] at *
  · unfold floatMax; linarith
  · unfold floatMax; linarith

/-- and the contraction: the values of `x` -/
example : (derivC2 (IArith.exact ℚ) floatMax ⊤ true true false wrapL true wrapL).map (valuesOf false) =
    some [.point 0, .icc 0 1, .point 1, .icc 1 2, .icc 1 2] := by decide +kernel

/-- **C119** fails without gates: on tubes whose temporal domain was created without gates (the default), the contraction of the converted tubes is done, but
its result cannot be intersected with the tube `x`: an assertion fails -/
theorem C119_gates_fails : ∃ (l : List (TS ℚ Bool ℚ)) (X V X' : Tube ℚ), WF 0 2 l ∧ toC1 false l = some X ∧ toC1 true l = some V ∧
    derivTube (IArith.exact ℚ) floatMax ⊤ true true X V = some X' ∧ (∃ f, InTube l false f) ∧
    derivC2 (IArith.exact ℚ) floatMax ⊤ true true false l true l = none := by
  obtain ⟨X, eX, x0, xf, -, -, -, sX⟩ := C93_to_codac1 wrapN_wf (by norm_num) false
  obtain ⟨V, eV, v0, vf, -, -, -, sV⟩ := C93_to_codac1 wrapN_wf (by norm_num) true
  have e : ∃ X', derivTube (IArith.exact ℚ) floatMax ⊤ true true X V = some X' := by
    unfold derivTube
    rw [if_pos ⟨x0.trans v0.symm, xf.trans vf.symm, by
      rw [sameSlicing_iff, SameB, ← Tube.slices_bounds, ← Tube.slices_bounds, slices_spans sX, slices_spans sV]⟩]
    exact ⟨_, rfl⟩
  obtain ⟨X', e⟩ := e
  refine ⟨wrapN, X, V, X', wrapN_wf, eX, eV, e, ⟨fun _ => 0, ?_⟩, ?_⟩
  · intro s hs t _ _
    simp only [wrapN, List.mem_cons, List.not_mem_nil, or_false] at hs
    rcases hs with rfl | rfl <;> simp [Itv.mem_icc]
  · by_contra hc
    obtain ⟨l', hl⟩ := Option.ne_none_iff_exists'.mp hc
    have := ((C119_deriv_defined (IArith.exact ℚ) floatMax ⊤ true true false true wrapN_wf wrapN_wf (by norm_num)).mp ⟨l', hl⟩).1
    revert this
    unfold AllGates
    decide +kernel

end Codac.Props
