import Verif.Paving.TPlane
import Verif.Props.Paving
import Verif.Props.Integral
import Mathlib.Analysis.Calculus.Deriv.Pow

/-!
# C46: detection of loops
-/

set_option linter.unusedSectionVars false

namespace Codac.Props
open Codac Codac.Paving

/-- the arguments of a call of `compute_detections` for the trajectory `x` of velocity `f` on `[t0,tf]`: bounded well-formed tubes, which
contain the positions and the velocities with a margin `ε > 0` -/
structure DetectsFor (x f : Fin 2 → ℝ → ℝ) (t0 tf : ℝ) (D : TPlaneArgs ℝ) : Prop where
  sign : SignSub D.sub
  finite : D.A.NoOverflow
  p_ok : ∀ i, (D.p i).WF ∧ (D.p i).Bounded ∧ (D.p i).t0 = t0 ∧ (D.p i).tf = tf
  v_ok : ∀ v, D.v = some v → ∀ i, (v i).WF ∧ (v i).Bounded ∧ (v i).GatesInEnvelopes ∧ (v i).t0 = t0 ∧ (v i).tf = tf
  margin : ∃ ε > 0, (∀ i, (D.p i).Encloses (fun t => x i t - ε) ∧ (D.p i).Encloses (fun t => x i t + ε)) ∧
    ∀ v, D.v = some v → ∀ i, (v i).Encloses (fun t => f i t - ε) ∧ (v i).Encloses (fun t => f i t + ε)

variable {x f : Fin 2 → ℝ → ℝ} {t0 tf : ℝ} {t1 t2 : ℝ}

/-- the tests keep a loop -/
theorem classify_loop {D : TPlaneArgs ℝ} (hD : DetectsFor x f t0 tf D) (hx : ∀ i, ContinuousOn (x i) (Set.Icc t0 tf))
    (hf : ∀ i, ∀ t, t0 < t → t < tf → HasDerivAt (x i) (f i t) t) (ht : t1 < t2) (hloop : ∀ i, x i t1 = x i t2)
    {X : Box ℝ} {u : SetValue} (hX : BoxLe X [.icc t0 tf, .icc t0 tf]) (hv : InBox [t1, t2] X) (h : D.classify X = some u) : Kept u := by
  cases X with
  | nil => cases hv
  | cons I X =>
  cases X with
  | nil => cases hv with | cons _ h => cases h
  | cons J X =>
  cases X with
  | cons L X => cases hv with | cons _ h => cases h with | cons _ h => cases h
  | nil =>
  obtain ⟨_, h12⟩ := List.forall₂_cons.mp hX
  have hI : I ≤ .icc t0 tf := (List.forall₂_cons.mp hX).1
  have hJ : J ≤ .icc t0 tf := (List.forall₂_cons.mp h12).1
  have hv1 : t1 ∈ I := (List.forall₂_cons.mp hv).1
  have hv2 : t2 ∈ J := (List.forall₂_cons.mp (List.forall₂_cons.mp hv).2).1
  have m1 := Itv.mem_icc.mp (Itv.mem_of_le hI hv1)
  have m2 := Itv.mem_icc.mp (Itv.mem_of_le hJ hv2)
  have hicc : (Itv.icc t0 tf).isUnbounded = false := by rw [Itv.icc_eq_mk (m1.1.trans m1.2)]; rfl
  obtain ⟨a1, b1, q1, rfl⟩ := Itv.bounds_of_bounded (Itv.isEmpty_false_iff.mpr (Itv.ne_bot_of_mem hv1)) (Itv.width_mono hI hicc).2
  obtain ⟨a2, b2, q2, rfl⟩ := Itv.bounds_of_bounded (Itv.isEmpty_false_iff.mpr (Itv.ne_bot_of_mem hv2)) (Itv.width_mono hJ hicc).2
  have ka1 := Itv.mem_icc.mp (Itv.mem_of_le hI (x := a1) ⟨le_refl a1, q1⟩)
  have kb1 := Itv.mem_icc.mp (Itv.mem_of_le hI (x := b1) ⟨q1, le_refl b1⟩)
  have ka2 := Itv.mem_icc.mp (Itv.mem_of_le hJ (x := a2) ⟨le_refl a2, q2⟩)
  have kb2 := Itv.mem_icc.mp (Itv.mem_of_le hJ (x := b2) ⟨q2, le_refl b2⟩)
  obtain ⟨ε, hε, hp, hvel⟩ := hD.margin
  have h1 : D.primitiveOut a1 b1 a2 b2 = false :=
    primitiveOut_false hD.sign (fun i => ⟨(hD.p_ok i).1, (hD.p_ok i).2.1⟩) hε hp
      (fun i => by rw [(hD.p_ok i).2.2.1, (hD.p_ok i).2.2.2]; exact ⟨ka1.1, kb1.2, ka2.1, kb2.2⟩)
      hv1.1 hv1.2 hv2.1 hv2.2 ht hloop
  have h2 : D.derivativeOut a1 b1 a2 b2 = false := by
    cases hvv : D.v with
    | none => unfold TPlaneArgs.derivativeOut; rw [hvv]
    | some v =>
      have hok := hD.v_ok v hvv
      refine derivativeOut_false hD.finite hvv (fun i => ⟨(hok i).1, (hok i).2.1, (hok i).2.2.1⟩) hε (f := f) (x := x) ?_ (hvel v hvv)
        (fun i => by rw [(hok i).2.2.2.1, (hok i).2.2.2.2]; exact ⟨ka1.1, kb1.2, ka2.1, kb2.2⟩) hv1.1 hv1.2 hv2.1 hv2.2 ht hloop ?_
      · intro i
        obtain ⟨w, _, _, e0, ef⟩ := hok i
        obtain ⟨f1, f2⟩ := hvel v hvv i
        have hin : ∀ s ∈ (v i).slices, ∀ t, s.lb < t → t < s.ub → HasDerivAt (x i) (f i t) t := by
          intro s hs t s1 s2
          have hb := w.tiles.mem_bounds hs
          exact hf i t (e0 ▸ lt_of_le_of_lt hb.1 s1) (ef ▸ lt_of_lt_of_le s2 hb.2.2)
        constructor
        · refine C13_primitive_slope w f1 ?_ fun s hs t s1 s2 => ?_
          · rw [e0, ef]; exact (hx i).sub (Continuous.continuousOn (by fun_prop))
          · exact (hin s hs t s1 s2).sub (by simpa using (hasDerivAt_id t).const_mul ε)
        · refine C13_primitive_slope w f2 ?_ fun s hs t s1 s2 => ?_
          · rw [e0, ef]; exact (hx i).add (Continuous.continuousOn (by fun_prop))
          · exact (hin s hs t s1 s2).add (by simpa using (hasDerivAt_id t).const_mul ε)
      · intro i
        have hc : ContinuousOn (x i) (Set.Icc t1 t2) := (hx i).mono (Set.Icc_subset_Icc m1.1 m2.2)
        obtain ⟨c, hc1, hc2⟩ := exists_hasDerivAt_eq_zero ht hc (hloop i)
          (f' := f i) (fun t hht => hf i t (lt_of_le_of_lt m1.1 hht.1) (lt_of_lt_of_le hht.2 m2.2))
        exact ⟨c, hc1.1.le, hc1.2.le, hc2⟩
  unfold TPlaneArgs.classify at h
  dsimp only at h
  rw [h1, h2] at h
  simp only [Bool.or_self, Bool.false_eq_true, if_false] at h
  split_ifs at h <;> cases h
  · exact .inr rfl
  · exact .inl rfl

/-- the plane after any number of calls -/
theorem detections_live {bis : Box ℝ → Box ℝ × Box ℝ} (hb : IsBis bis) {fuel : Nat} {Ds : List (TPlaneArgs ℝ)} (hD : ∀ D ∈ Ds, DetectsFor x f t0 tf D)
    (hx : ∀ i, ContinuousOn (x i) (Set.Icc t0 tf)) (hf : ∀ i, ∀ t, t0 < t → t < tf → HasDerivAt (x i) (f i t) t) (ht : t1 < t2)
    (hloop : ∀ i, x i t1 = x i t2) {P P' : Paving ℝ} (hw : P.WF 2) (hbd : ∀ I ∈ P.box, I.isUnbounded = false)
    (hbox : BoxLe P.box [.icc t0 tf, .icc t0 tf]) (hl : P.Live [t1, t2])
    (h : P.detections bis fuel Ds = some P') : P'.WF 2 ∧ P'.Live [t1, t2] := by
  induction Ds generalizing P with
  | nil => cases h; exact ⟨hw, hl⟩
  | cons D Ds ih =>
    rw [Paving.detections] at h
    have e0 := initBox_of_bounded hbd
    unfold Paving.computeDetections at h
    rw [e0] at h
    cases hc : P.detect bis D.classify fuel with
    | none => rw [hc] at h; cases h
    | some Q =>
      rw [hc] at h
      obtain ⟨w1, w2⟩ := detect_wf hb (by norm_num) hw hc
      have hlQ : Q.Live [t1, t2] := detect_live hb (by norm_num) (fun X u hX hv hu => classify_loop (hD D (by simp)) hx hf ht hloop hX hv hu)
        hw hbox hl hc
      exact ih (fun D hD' => hD D (List.mem_cons_of_mem _ hD')) w1 (by rw [w2]; exact hbd) (by rw [w2]; exact hbox) hlQ h

/-- C46: a plane on `[I] × [I]`, after any number of calls of `compute_detections` (one at least) with tubes on `[t0,tf]`, each
containing the trajectory `x` (and its velocity `f` when the velocities are used) with some margin: every loop `t1 < t2`, `x(t1) = x(t2)`,
of the plane is in a leaf which is not labelled `OUT`, and in one of the returned connected subsets. `I` is a part of `[t0,tf]`, or is
unbounded (then the plane is on `[t0,tf] × [t0,tf]`). Missing: tubes containing the trajectory without margin (`C46_thin_fails`,
`C46_rest_fails`). -/
theorem C46_partial {bis : Box ℝ → Box ℝ × Box ℝ} (hb : IsBis bis) {fuel : Nat} {D : TPlaneArgs ℝ} {Ds : List (TPlaneArgs ℝ)}
    (hD : ∀ D' ∈ D :: Ds, DetectsFor x f t0 tf D') (hx : ∀ i, ContinuousOn (x i) (Set.Icc t0 tf))
    (hf : ∀ i, ∀ t, t0 < t → t < tf → HasDerivAt (x i) (f i t) t) {I : Itv ℝ} (hI : I ≤ .icc t0 tf ∨ I.isUnbounded = true)
    {P : Paving ℝ} (h : (Paving.leaf [I, I] SetValue.UNKNOWN).detections bis fuel (D :: Ds) = some P)
    (h1 : t0 ≤ t1) (ht : t1 < t2) (h2 : t2 ≤ tf) (hm1 : t1 ∈ I) (hm2 : t2 ∈ I) (hloop : ∀ i, x i t1 = x i t2) :
    (∃ q ∈ P.leaves 0 [], InBox [t1, t2] q.box ∧ q.value ≠ SetValue.OUT) ∧
      ∃ R, (∀ n, (selected P 5).length + 1 ≤ n → connectedSubsets n 5 0 [] P 0 P [] = some R) ∧
        ∃ s ∈ R, ∃ q ∈ s, InBox [t1, t2] q.box := by
  have h0 : t0 ≤ tf := h1.trans (ht.le.trans h2)
  have hicc : (Itv.icc t0 tf).isUnbounded = false := by rw [Itv.icc_eq_mk h0]; rfl
  have hdom : (Itv.icc (D.p 0).t0 (D.p 0).tf) = .icc t0 tf := by
    have := (hD D (by simp)).p_ok 0
    rw [this.2.2.1, this.2.2.2]
  -- the box of the plane once initialised
  obtain ⟨J, hJ, m1, m2, hinit⟩ : ∃ J : Itv ℝ, J ≤ .icc t0 tf ∧ t1 ∈ J ∧ t2 ∈ J ∧
      (Paving.leaf [I, I] SetValue.UNKNOWN).initBox (.icc t0 tf) = (Paving.leaf [J, J] SetValue.UNKNOWN).initBox (.icc t0 tf) := by
    rcases hI with hI | hI
    · exact ⟨I, hI, hm1, hm2, rfl⟩
    · refine ⟨.icc t0 tf, le_rfl, Itv.mem_icc.mpr ⟨h1, ht.le.trans h2⟩, Itv.mem_icc.mpr ⟨h1.trans ht.le, h2⟩, ?_⟩
      simp [initBox, hI, hicc]
  have h' : (Paving.leaf [J, J] SetValue.UNKNOWN).detections bis fuel (D :: Ds) = some P := by
    rw [Paving.detections] at h ⊢
    unfold Paving.computeDetections at h ⊢
    rw [hdom] at h ⊢
    rw [← hinit]; exact h
  have hJu : J.isUnbounded = false := (Itv.width_mono hJ hicc).2
  obtain ⟨hw, hl⟩ := detections_live hb hD hx hf ht hloop (P := Paving.leaf [J, J] SetValue.UNKNOWN) rfl
    (by simp [Paving.box, hJu]) (.cons hJ (.cons hJ .nil)) ⟨.cons m1 (.cons m2 .nil), .inl rfl⟩ h'
  obtain ⟨q, hq, hv, hk⟩ := hl.leaf 0 []
  refine ⟨⟨q, hq, hv, hk.ne_out⟩, ?_⟩
  obtain ⟨R, hR, hperm, _⟩ := C33_connected_subsets_partial (val := 5) (by norm_num) hw []
  refine ⟨R, hR, ?_⟩
  have hsel : q ∈ selected P 5 := by
    refine List.mem_filter.mpr ⟨hq, ?_⟩
    rcases hk with e | e <;> rw [e] <;> decide
  obtain ⟨s, hs, hqs⟩ := List.mem_flatten.mp (hperm.symm.subset hsel)
  exact ⟨s, hs, q, hqs, hv⟩

variable {K : Type*} [Field K] [LinearOrder K] [IsStrictOrderedRing K]

/-- C46: `compute_detections` terminates on a bounded plane, for every precision -/
theorem C46_terminates [Archimedean K] {bis : Box K → Box K × Box K} {c : K} (hb : IsBis bis) (hl : IsLargestFirst c bis) (hc0 : 0 ≤ c)
    (hc1 : c < 1) {D : TPlaneArgs K} (hp : 0 < D.precision) {P : Paving K} (hw : P.WF 2) (hbd : ∀ I ∈ P.box, I.isUnbounded = false) :
    ∃ n P', ∀ m, n ≤ m → P.computeDetections bis m D = some P' := by
  obtain ⟨n, P', h⟩ := detect_total (cl := D.classify) hb hl hc0 hc1 hp (by norm_num) (fun X _ h => D.classify_none h) hw hbd
  refine ⟨n, P', fun m hm => ?_⟩
  unfold Paving.computeDetections
  rw [initBox_of_bounded hbd]
  exact detect_mono hm h

/-- C46: after a call, a leaf labelled `IN` only contains pairs of times `t1 < t2` at which the two values of each position tube have a
common point (for the tubes of this call); the leaves labelled `UNKNOWN` are smaller than the precision -/
theorem C46_in {bis : Box K → Box K × Box K} (hb : IsBis bis) {fuel : Nat} {D : TPlaneArgs K} (hs : SignSub D.sub)
    {P P' : Paving K} (hk : P.NodesKept) (hw : P.WF 2) (hp : ∀ i, (D.p i).WF ∧ (D.p i).Bounded)
    (hbox : ∀ i, BoxLe P.box [.icc (D.p i).t0 (D.p i).tf, .icc (D.p i).t0 (D.p i).tf]) (h : P.detect bis D.classify fuel = some P')
    {q : Leaf K} (hq : q ∈ P'.leaves 0 []) :
    (q.value = SetValue.IN → ∀ t1 t2, InBox [t1, t2] q.box → t1 ≤ t2 ∧
      ∀ i, (D.p i).evalAt t1 ≠ ⊥ → (D.p i).evalAt t2 ≠ ⊥ → ∃ y, y ∈ (D.p i).evalAt t1 ∧ y ∈ (D.p i).evalAt t2) ∧
    (q.value = SetValue.UNKNOWN → ∀ a1 b1 a2 b2, a1 ≤ b1 → a2 ≤ b2 → q.box = [.icc a1 b1, .icc a2 b2] →
      b1 - a1 < D.precision ∧ b2 - a2 < D.precision) := by
  obtain ⟨hk', hval⟩ := detect_value (fun X u hu => D.classify_values hu) hk h
  obtain ⟨hw', hbx⟩ := detect_wf hb (by norm_num) hw h
  have hle := hw'.leaf_le q hq
  rw [hbx] at hle
  have hcl := hval 0 [] q hq
  constructor
  · intro hin t1 t2 hv
    rw [hin] at hcl
    have hcl := hcl.resolve_left (by decide)
    -- the box
    rcases hqb : q.box with _ | ⟨I, X⟩
    · rw [hqb] at hv; cases hv
    rcases X with _ | ⟨J, X⟩
    · rw [hqb] at hv; cases hv with | cons _ h => cases h
    rcases X with _ | ⟨L, X⟩
    swap
    · rw [hqb] at hv; cases hv with | cons _ h => cases h with | cons _ h => cases h
    rw [hqb] at hv hcl hle
    have hv1 : t1 ∈ I := (List.forall₂_cons.mp hv).1
    have hv2 : t2 ∈ J := (List.forall₂_cons.mp (List.forall₂_cons.mp hv).2).1
    have hIi : ∀ i, I ≤ .icc (D.p i).t0 (D.p i).tf := fun i => (List.forall₂_cons.mp (hle.trans (hbox i))).1
    have hJi : ∀ i, J ≤ .icc (D.p i).t0 (D.p i).tf := fun i => (List.forall₂_cons.mp (List.forall₂_cons.mp (hle.trans (hbox i))).2).1
    have hicc : (Itv.icc (D.p 0).t0 (D.p 0).tf).isUnbounded = false := by
      have := Itv.mem_icc.mp (Itv.mem_of_le (hIi 0) hv1)
      rw [Itv.icc_eq_mk (this.1.trans this.2)]; rfl
    obtain ⟨a1, b1, q1, rfl⟩ := Itv.bounds_of_bounded (Itv.isEmpty_false_iff.mpr (Itv.ne_bot_of_mem hv1)) (Itv.width_mono (hIi 0) hicc).2
    obtain ⟨a2, b2, q2, rfl⟩ := Itv.bounds_of_bounded (Itv.isEmpty_false_iff.mpr (Itv.ne_bot_of_mem hv2)) (Itv.width_mono (hJi 0) hicc).2
    unfold TPlaneArgs.classify at hcl
    dsimp only at hcl
    have hpin : D.derivativeIn a1 b1 a2 b2 = true ∧ D.primitiveIn a1 b1 a2 b2 = true := by
      split_ifs at hcl with c1 c2 c3
      · exact absurd (Option.some.inj hcl) (by decide)
      · simpa using c2
      · exact absurd (Option.some.inj hcl) (by decide)
    constructor
    · have h0 := hpin.2
      unfold TPlaneArgs.primitiveIn at h0
      simp only [Bool.and_eq_true] at h0
      by_contra hc
      have := Itv.not_strictSub_negR (D.A.sub_mem (Itv.mem_icc.mpr ⟨hv1.1, hv1.2⟩) (Itv.mem_icc.mpr ⟨hv2.1, hv2.2⟩)) (sub_pos.mpr (not_le.mp hc))
      rw [this] at h0
      simp at h0
    · intro i n1 n2
      have ka1 := Itv.mem_icc.mp (Itv.mem_of_le (hIi i) (x := a1) ⟨le_refl a1, q1⟩)
      have kb1 := Itv.mem_icc.mp (Itv.mem_of_le (hIi i) (x := b1) ⟨q1, le_refl b1⟩)
      have ka2 := Itv.mem_icc.mp (Itv.mem_of_le (hJi i) (x := a2) ⟨le_refl a2, q2⟩)
      have kb2 := Itv.mem_icc.mp (Itv.mem_of_le (hJi i) (x := b2) ⟨q2, le_refl b2⟩)
      have hbd : ∀ t, (D.p i).t0 ≤ t → t ≤ (D.p i).tf → ((D.p i).evalAt t).isUnbounded = false := by
        intro t e1 e2
        obtain ⟨s, ss, k1, k4, k2, k3, -⟩ := seek_spec (g := (D.p i).g0) (hp i).1.tiles (hp i).1.ne e1 e2
        have hs : s ∈ (D.p i).slices := k4
        obtain ⟨c1, c2, c3⟩ := (hp i).2 s hs
        rw [evalAt_of_slice (hp i).1 hs k2 k3]
        split_ifs <;> assumption
      obtain ⟨l1, u1, p1, e1⟩ := Itv.bounds_of_bounded (Itv.isEmpty_false_iff.mpr n1) (hbd t1 (ka1.1.trans hv1.1) (hv1.2.trans kb1.2))
      obtain ⟨l2, u2, p2, e2⟩ := Itv.bounds_of_bounded (Itv.isEmpty_false_iff.mpr n2) (hbd t2 (ka2.1.trans hv2.1) (hv2.2.trans kb2.2))
      obtain ⟨m1, m2⟩ := primitiveIn_meets hs (hp i).1 ka1.1 kb1.2 ka2.1 kb2.2 hv1.1 hv1.2 hv2.1 hv2.2 hpin.2 e1 e2
      have p1' : l1 ≤ u1 := p1
      have p2' : l2 ≤ u2 := p2
      rw [e1, e2]
      exact ⟨max l1 l2, ⟨le_max_left _ _, max_le p1' m2⟩, ⟨le_max_right _ _, max_le m1 p2'⟩⟩
  · intro hu a1 b1 a2 b2 r1 r2 hqb
    rw [hu, hqb, Itv.icc_eq_mk r1, Itv.icc_eq_mk r2] at hcl
    have hcl := hcl.resolve_left (by decide)
    unfold TPlaneArgs.classify at hcl
    dsimp only at hcl
    split_ifs at hcl with c1 c2 c3
    · exact absurd (Option.some.inj hcl) (by decide)
    · exact absurd (Option.some.inj hcl) (by decide)
    · exact ⟨lt_of_le_of_lt (le_max_left _ _) c3, lt_of_le_of_lt (le_max_right _ _) c3⟩

/-! ### Examples -/

/-- a tube of one slice, the gates being equal to the envelope -/
def oneSlice (t0 tf : K) (I : Itv K) : Tube K := ⟨t0, tf, I, [⟨t0, tf, I, I⟩]⟩

theorem oneSlice_slices (t0 tf : K) (I : Itv K) : (oneSlice t0 tf I).slices = [⟨t0, tf, I, I, I⟩] := rfl

theorem oneSlice_wf {t0 tf : K} (h : t0 < tf) (I : Itv K) : (oneSlice t0 tf I).WF := ⟨by simp [oneSlice], by simp [oneSlice, Codac.Tiles, h]⟩

theorem oneSlice_bounded {t0 tf : K} {I : Itv K} (h : I.isUnbounded = false) : (oneSlice t0 tf I).Bounded := by
  intro s hs
  rw [oneSlice_slices, List.mem_singleton] at hs
  subst hs; exact ⟨h, h, h⟩

theorem oneSlice_gates {t0 tf : K} {I : Itv K} : (oneSlice t0 tf I).GatesInEnvelopes := by
  intro s hs
  rw [oneSlice_slices, List.mem_singleton] at hs
  subst hs; exact ⟨le_rfl, le_rfl⟩

theorem oneSlice_encloses {t0 tf : K} (h0 : t0 ≤ tf) {I : Itv K} {f : K → K} (h : ∀ t, t0 ≤ t → t ≤ tf → f t ∈ I) :
    (oneSlice t0 tf I).Encloses f := by
  intro s hs
  rw [oneSlice_slices, List.mem_singleton] at hs
  subst hs; exact ⟨h _ le_rfl h0, h _ h0 le_rfl, fun t h1 h2 => h t h1.le h2.le⟩

/-- positions and velocities in `[-10,10]`, time domain `[0,2]` -/
noncomputable def planeEx : TPlaneArgs ℝ where
  A := IArith.exact ℝ
  sub := fun a b => a - b
  precision := 1
  p := fun _ => oneSlice 0 2 (.icc (-10) 10)
  v := some fun _ => oneSlice 0 2 (.icc (-10) 10)

/-- the arguments are suitable for the trajectory `((t-1)², (t-1)²)`, whose loops are the pairs `(1-d,1+d)` -/
example : DetectsFor (fun _ t => (t - 1) ^ 2) (fun _ t => 2 * (t - 1)) 0 2 planeEx where
  sign := ⟨fun a b h => sub_neg.mpr h, fun a b h => sub_pos.mpr h⟩
  finite := exact_noOverflow
  p_ok := fun _ => ⟨oneSlice_wf (by norm_num) _, oneSlice_bounded (Itv.icc_bounded _ _), rfl, rfl⟩
  v_ok := by
    rintro v hv i
    cases hv
    exact ⟨oneSlice_wf (by norm_num) _, oneSlice_bounded (Itv.icc_bounded _ _), oneSlice_gates, rfl, rfl⟩
  margin := by
    refine ⟨1, one_pos, fun i => ⟨?_, ?_⟩, ?_⟩
    · exact oneSlice_encloses (by norm_num) fun t h1 h2 => Itv.mem_icc.mpr ⟨by nlinarith, by nlinarith⟩
    · exact oneSlice_encloses (by norm_num) fun t h1 h2 => Itv.mem_icc.mpr ⟨by nlinarith, by nlinarith⟩
    · rintro v hv i
      cases hv
      exact ⟨oneSlice_encloses (by norm_num) fun t h1 h2 => Itv.mem_icc.mpr ⟨by linarith, by linarith⟩,
        oneSlice_encloses (by norm_num) fun t h1 h2 => Itv.mem_icc.mpr ⟨by linarith, by linarith⟩⟩

example : (∀ i : Fin 2, ContinuousOn ((fun _ t => (t - 1) ^ 2 : Fin 2 → ℝ → ℝ) i) (Set.Icc 0 2)) ∧
    (∀ i : Fin 2, ∀ t, 0 < t → t < 2 → HasDerivAt ((fun _ t => (t - 1) ^ 2 : Fin 2 → ℝ → ℝ) i) (2 * (t - 1)) t) ∧
    (1/2 - 1 : ℝ) ^ 2 = (3/2 - 1) ^ 2 := by
  refine ⟨fun i => Continuous.continuousOn (by fun_prop), fun i t _ _ => ?_, by norm_num⟩
  have h := ((hasDerivAt_id t).sub_const 1).pow 2
  simp only [id, Nat.cast_ofNat, Nat.add_one_sub_one, pow_one, mul_one] at h
  exact h

/-- the same plane over the rationals -/
def planeQ (p v : Itv ℚ) (prec : ℚ) : TPlaneArgs ℚ where
  A := IArith.exact ℚ
  sub := fun a b => a - b
  precision := prec
  p := fun _ => oneSlice 0 4 p
  v := some fun _ => oneSlice 0 4 v

/-- a call: leaves `OUT` on the other side of the diagonal, `UNKNOWN` around it and `IN` above -/
example : ((Paving.leaf [⊤, ⊤] SetValue.UNKNOWN).computeDetections (largestFirst (1/2)) 10 (planeQ (.icc (-1) 1) (.icc (-1) 1) 3)).map
    (fun P => (P.leaves 0 []).map fun q => (q.box, q.value)) =
    some [([.icc 0 2, .icc 0 2], SetValue.UNKNOWN), ([.icc 0 2, .icc 2 4], SetValue.IN), ([.icc 2 4, .icc 0 2], SetValue.OUT),
      ([.icc 2 4, .icc 2 4], SetValue.UNKNOWN)] := by decide +kernel

/-- C46 without margin, positions known exactly: a robot at rest, position `(0,0)` in the tube `[0,0]²`, velocities in `[-1,1]²`: the
pair of times `(0,4)`, as the whole plane, is labelled `OUT` although `x(0) = x(4)` -/
theorem C46_thin_fails :
    (∀ t : ℚ, (0 : ℚ) ∈ (oneSlice 0 4 (.icc 0 0)).evalAt t ∧ (0 : ℚ) ∈ (oneSlice 0 4 (.icc (-1) 1)).evalAt t) ∧
    ((Paving.leaf [.icc 0 4, .icc 0 4] SetValue.UNKNOWN).computeDetections (largestFirst (1/2)) 10 (planeQ (.icc 0 0) (.icc (-1) 1) 1)).map
      (fun P => (P.leaves 0 []).map fun q => (q.box, q.value)) = some [([.icc 0 4, .icc 0 4], SetValue.OUT)] := by
  refine ⟨fun t => ⟨?_, ?_⟩, ?_⟩
  · exact evalAt_mem (oneSlice_wf (by norm_num) _) (oneSlice_encloses (f := fun _ => 0) (by norm_num)
      fun _ _ _ => Itv.mem_icc.mpr ⟨le_rfl, le_rfl⟩) t
  · exact evalAt_mem (oneSlice_wf (by norm_num) _) (oneSlice_encloses (f := fun _ => 0) (by norm_num)
      fun _ _ _ => Itv.mem_icc.mpr ⟨by norm_num, by norm_num⟩) t
  · decide +kernel

/-- C46 without margin, velocities: a robot at rest, positions in `[-1,1]²`, velocities in `[0,1]²` (the robot never goes backwards): the
whole plane is labelled `OUT` -/
theorem C46_rest_fails :
    (∀ t : ℚ, (0 : ℚ) ∈ (oneSlice 0 4 (.icc (-1) 1)).evalAt t ∧ (0 : ℚ) ∈ (oneSlice 0 4 (.icc 0 1)).evalAt t) ∧
    ((Paving.leaf [.icc 0 4, .icc 0 4] SetValue.UNKNOWN).computeDetections (largestFirst (1/2)) 10 (planeQ (.icc (-1) 1) (.icc 0 1) 1)).map
      (fun P => (P.leaves 0 []).map fun q => (q.box, q.value)) = some [([.icc 0 4, .icc 0 4], SetValue.OUT)] := by
  refine ⟨fun t => ⟨?_, ?_⟩, ?_⟩
  · exact evalAt_mem (oneSlice_wf (by norm_num) _) (oneSlice_encloses (f := fun _ => 0) (by norm_num)
      fun _ _ _ => Itv.mem_icc.mpr ⟨by norm_num, by norm_num⟩) t
  · exact evalAt_mem (oneSlice_wf (by norm_num) _) (oneSlice_encloses (f := fun _ => 0) (by norm_num)
      fun _ _ _ => Itv.mem_icc.mpr ⟨by norm_num, by norm_num⟩) t
  · decide +kernel

end Codac.Props
