import Verif.Paving.TPlaneProof
import Verif.Paving.TPlaneMap
import Verif.Props.TPlane
import Verif.Props.Degree
import Mathlib.Topology.Order.IntermediateValue
import Mathlib.Tactic.FinCases

/-!
# C115: proofs of loops (`TPlane::compute_proofs`, `TPlane::compute_loops`)
-/

set_option linter.unusedSectionVars false

namespace Codac.Props
open Codac Codac.Paving Codac.Deg

/-! ### The plane -/

section
variable {K : Type*} [Field K] [LinearOrder K] [IsStrictOrderedRing K]

/-- the plane stays a paving of its box -/
theorem detect_cut {ratio : K} (h0 : 0 < ratio) (h1 : ratio < 1) {cl : Box K → Option SetValue} {n : Nat} {P Q : Paving K} (hP : P.Cut)
    (h : P.detect (largestFirst ratio) cl n = some Q) : Q.Cut ∧ Q.box = P.box := by
  induction n generalizing P Q with
  | zero => simp [detect] at h
  | succ n ih =>
    cases P with
    | leaf b w =>
      rcases detect_leaf h with ⟨e, rfl⟩ | ⟨_, u, hu, rfl⟩ | ⟨hw, _, l, r, k1, k2, rfl⟩
      · exact ⟨hP, rfl⟩
      · exact ⟨hP, rfl⟩
      · obtain ⟨x0, x1, y0, y1, hx, hy, rfl⟩ := hP
        obtain ⟨m, hm⟩ := largestFirst_cuts h0 h1 hx hy
        rcases hm with ⟨m1, m2, e⟩ | ⟨m1, m2, e⟩
        · rw [e] at k1 k2
          obtain ⟨i1, i2⟩ := ih (P := leaf _ w) ⟨x0, m, y0, y1, m1, hy, rfl⟩ k1
          obtain ⟨j1, j2⟩ := ih (P := leaf _ w) ⟨m, x1, y0, y1, m2, hy, rfl⟩ k2
          exact ⟨⟨i1, j1, x0, x1, y0, y1, m, rfl, Or.inl ⟨m1, m2, hy, i2, j2⟩⟩, rfl⟩
        · rw [e] at k1 k2
          obtain ⟨i1, i2⟩ := ih (P := leaf _ w) ⟨x0, x1, y0, m, hx, m1, rfl⟩ k1
          obtain ⟨j1, j2⟩ := ih (P := leaf _ w) ⟨x0, x1, m, y1, hx, m2, rfl⟩ k2
          exact ⟨⟨i1, j1, x0, x1, y0, y1, m, rfl, Or.inr ⟨m1, m2, hx, i2, j2⟩⟩, rfl⟩
    | node b w l r =>
      rw [detect] at h
      split_ifs at h with hw
      · cases h; exact ⟨hP, rfl⟩
      · obtain ⟨hl, hr, x0, x1, y0, y1, m, e, hm⟩ := hP
        cases k1 : l.detect (largestFirst ratio) cl n with
        | none => rw [k1] at h; cases h
        | some l' =>
          cases k2 : r.detect (largestFirst ratio) cl n with
          | none => rw [k1, k2] at h; cases h
          | some r' =>
            rw [k1, k2] at h
            cases h
            obtain ⟨i1, i2⟩ := ih hl k1
            obtain ⟨j1, j2⟩ := ih hr k2
            refine ⟨⟨i1, j1, x0, x1, y0, y1, m, e, ?_⟩, rfl⟩
            rw [i2, j2]
            exact hm

/-- the values and the shape of the plane, after any calls -/
theorem detections_cut {ratio : K} (h0 : 0 < ratio) (h1 : ratio < 1) {fuel : Nat} {Ds : List (TPlaneArgs K)} {P Q : Paving K} (hP : P.Cut)
    (hb : ∀ I ∈ P.box, I.isUnbounded = false) (hk : P.NodesKept) (h : P.detections (largestFirst ratio) fuel Ds = some Q) :
    Q.Cut ∧ Q.box = P.box ∧ Q.NodesKept := by
  induction Ds generalizing P with
  | nil => cases h; exact ⟨hP, rfl, hk⟩
  | cons D Ds ih =>
    rw [Paving.detections] at h
    unfold Paving.computeDetections at h
    rw [initBox_of_bounded hb] at h
    cases hc : P.detect (largestFirst ratio) D.classify fuel with
    | none => rw [hc] at h; cases h
    | some Q' =>
      rw [hc] at h
      obtain ⟨c1, c2⟩ := detect_cut h0 h1 hP hc
      obtain ⟨k1, _⟩ := detect_value (fun X u hu => D.classify_values hu) hk hc
      obtain ⟨i1, i2, i3⟩ := ih c1 (by rw [c2]; exact hb) k1 h
      exact ⟨i1, i2.trans c2, i3⟩

theorem mem_computeProofs {D : TPlaneArgs K} {P : Paving K} {R S : List (List (Leaf K))} (h : D.computeProofs P R = some S) {s : List (Leaf K)}
    (hs : s ∈ S) : s ∈ R ∧ Subset.zeroProven D.incl ⟨s, P⟩ = some true := by
  induction R generalizing S with
  | nil => cases h; cases hs
  | cons u R ih =>
    rw [TPlaneArgs.computeProofs] at h
    cases hz : Subset.zeroProven D.incl ⟨u, P⟩ with
    | none => rw [hz] at h; cases h
    | some z =>
      cases hr : D.computeProofs P R with
      | none => rw [hz, hr] at h; cases h
      | some S' =>
        rw [hz, hr] at h
        obtain rfl := Option.some.inj h
        cases z with
        | false =>
          obtain ⟨i1, i2⟩ := ih hr hs
          exact ⟨List.mem_cons_of_mem _ i1, i2⟩
        | true =>
          rcases List.mem_cons.1 hs with rfl | hs
          · exact ⟨by simp, hz⟩
          · obtain ⟨i1, i2⟩ := ih hr hs
            exact ⟨List.mem_cons_of_mem _ i1, i2⟩

end

/-! ### The diagonal -/

/-- a subset that is strictly inside the plane and touches no `OUT` leaf of the diagonal (other than by its corner) does not meet the diagonal -/
theorem off_diagonal {P : Paving ℝ} {s : List (Leaf ℝ)} (hg : Subset.Good ⟨s, P⟩) {a b : ℝ} (hab : a < b) (hbox : P.box = [.icc a b, .icc a b])
    (hin : Subset.strictlyIncluded ⟨s, P⟩ = true)
    (hout : ∀ c ∈ P.leaves 0 [], c.value.meets .OUT = true → (rect c).x0 < (rect c).y1 → (∃ u ∈ s, ∃ v, InBox v u.box ∧ InBox v c.box) →
      ∀ τ, ¬ InBox [τ, τ] c.box)
    {u : Leaf ℝ} (hu : u ∈ s) (τ : ℝ) : ¬ InBox [τ, τ] u.box := by
  intro hτ
  have hR : (RR.mk a b a b).Pos := ⟨hab, hab⟩
  obtain ⟨k1, k2⟩ := cut_leaves hg.cut 0 [] hR (show P.box = (RR.mk a b a b).box from hbox)
  have inside := fun u (hu : u ∈ s) => Subset.inside (S := ⟨s, P⟩) hR hbox (fun u hu => ⟨(k1 u (hg.sub u hu)).1, (k1 u (hg.sub u hu)).2.1⟩) hin hu
  have mem : ∀ q ∈ P.leaves 0 [], ∀ t, InBox [t, t] q.box ↔ (rect q).Mem (t, t) := fun q hq t => by rw [(k1 q hq).2.1]; exact inBox_box
  have closed : ∀ l : List (Leaf ℝ), IsClosed {t : ℝ | ∃ q ∈ l, (rect q).Mem (t, t)} := by
    intro l
    have e : {t : ℝ | ∃ q ∈ l, (rect q).Mem (t, t)} = ⋃ q ∈ l.toFinset, {t | (rect q).Mem (t, t)} := by ext t; simp
    rw [e]
    refine Set.Finite.isClosed_biUnion (Finset.finite_toSet _) fun q _ => ?_
    have : {t : ℝ | (rect q).Mem (t, t)} = Set.Icc (rect q).x0 (rect q).x1 ∩ Set.Icc (rect q).y0 (rect q).y1 := by
      ext t
      simp only [RR.Mem, Set.mem_ofPred_eq, Set.mem_inter_iff, Set.mem_Icc]
      tauto
    rw [this]
    exact isClosed_Icc.inter isClosed_Icc
  have hpre : IsPreconnected (Set.Ico a b) := isPreconnected_Ico
  rw [isPreconnected_closed_iff] at hpre
  have hτ' := (mem u (hg.sub u hu) τ).1 hτ
  have hi := inside u hu
  obtain ⟨t, ht, ⟨u', hu', m1⟩, ⟨c, hc, m2⟩⟩ := hpre {t | ∃ q ∈ s, (rect q).Mem (t, t)} {t | ∃ q ∈ (P.leaves 0 []).filter (fun q => decide (q ∉ s ∧ (rect q).x0 < (rect q).y1)), (rect q).Mem (t, t)}
    (closed _) (closed _) (by
      intro t ht
      obtain ⟨q, hq, hqt, _⟩ := k2 t t ⟨ht.1, ht.2, ht.1, ht.2⟩
      have hqm : (rect q).Mem (t, t) := ⟨hqt.1, hqt.2.1.le, hqt.2.2.1, hqt.2.2.2.le⟩
      by_cases hqs : q ∈ s
      · exact Or.inl ⟨q, hqs, hqm⟩
      · exact Or.inr ⟨q, List.mem_filter.2 ⟨hq, decide_eq_true ⟨hqs, hqt.1.trans_lt hqt.2.2.2⟩⟩, hqm⟩)
    ⟨τ, ⟨(hi.1.trans_le hτ'.1).le, hτ'.2.1.trans_lt hi.2.1⟩, u, hu, hτ'⟩
    (by
      obtain ⟨q, hq, hqt, _⟩ := k2 a a ⟨le_rfl, hab, le_rfl, hab⟩
      refine ⟨a, ⟨le_rfl, hab⟩, q, List.mem_filter.2 ⟨hq, ?_⟩, ⟨hqt.1, hqt.2.1.le, hqt.2.2.1, hqt.2.2.2.le⟩⟩
      refine decide_eq_true ⟨fun hqs => ?_, hqt.1.trans_lt hqt.2.2.2⟩
      have := (inside q hqs).1
      exact absurd hqt.1 (not_le.2 this))
  obtain ⟨hc1, hc2⟩ := List.mem_filter.1 hc
  obtain ⟨hc2, hc3⟩ := of_decide_eq_true hc2
  have htouch : ∃ v, InBox v u'.box ∧ InBox v c.box := ⟨[t, t], (mem u' (hg.sub u' hu') t).2 m1, (mem c hc1 t).2 m2⟩
  rcases hg.touch u' hu' c hc1 htouch with h | h
  · exact hc2 h
  · exact hout c hc1 h hc3 ⟨u', hu', htouch⟩ t ((mem c hc1 t).2 m2)

/-! ### The loops -/

/-- the arguments of `compute_loops` (or of `compute_detections` then `compute_proofs`), for the trajectory `x` of velocity `f` on `[t0,tf]`: well-formed
tubes that contain the positions and, if they are given, the velocities. On intervals, the difference of times in order has no negative value, and
is bounded. -/
structure ProvesFor (x f : Fin 2 → ℝ → ℝ) (t0 tf : ℝ) (D : TPlaneArgs ℝ) : Prop where
  ordered : ∀ a1 b1 a2 b2 : ℝ, b2 < a1 → D.A.sub (.icc a1 b1) (.icc a2 b2) ≤ .posR
  finite : D.A.NoOverflow
  p_ok : ∀ i, (D.p i).WF ∧ (D.p i).GatesInEnvelopes ∧ (D.p i).t0 = t0 ∧ (D.p i).tf = tf ∧ (D.p i).Encloses (x i)
  v_ok : ∀ v, D.v = some v → ∀ i, (v i).WF ∧ (v i).t0 = t0 ∧ (v i).tf = tf ∧ (v i).Encloses (f i)

variable {x f : Fin 2 → ℝ → ℝ} {t0 tf : ℝ}

/-- the inclusion functions contain the move of the trajectory between two times in order -/
theorem incl_mem {D : TPlaneArgs ℝ} (hD : ProvesFor x f t0 tf D) (hx : ∀ i, ContinuousOn (x i) (Set.Icc t0 tf))
    (hf : D.v ≠ none → ∀ i, ∀ t, t0 < t → t < tf → HasDerivAt (x i) (f i t) t) {R : RR} (h1 : t0 ≤ R.x0) (h2 : R.x1 ≤ tf) (h3 : t0 ≤ R.y0) (h4 : R.y1 ≤ tf)
    {t1 t2 : ℝ} (hm : R.Mem (t1, t2)) (ht : t1 ≤ t2) : x 0 t2 - x 0 t1 ∈ (D.incl R.box).1 ∧ x 1 t2 - x 1 t1 ∈ (D.incl R.box).2 := by
  obtain ⟨m1, m2, m3, m4⟩ := hm
  have q1 : R.x0 ≤ R.x1 := m1.trans m2
  have q2 : R.y0 ≤ R.y1 := m3.trans m4
  have key : ∀ i, x i t2 - x i t1 ∈ D.inclBounds R.x0 R.x1 R.y0 R.y1 i := by
    intro i
    obtain ⟨w, g, e0, ef, he⟩ := hD.p_ok i
    have hmove : x i t2 - x i t1 ∈ D.move (.icc R.x0 R.x1) (.icc R.y0 R.y1) i :=
      D.A.sub_mem (evalItv_mem w g he (Itv.mem_icc.2 ⟨m3, m4⟩)) (evalItv_mem w g he (Itv.mem_icc.2 ⟨m1, m2⟩))
    unfold TPlaneArgs.inclBounds
    cases hv : D.v with
    | none => exact hmove
    | some v =>
      obtain ⟨w', e0', ef', he'⟩ := hD.v_ok v hv i
      refine Itv.mem_inf.2 ⟨?_, hmove⟩
      refine integral2_mem w' ?_ (e0' ▸ h1) q1 (ef' ▸ h2) (e0' ▸ h3) q2 (ef' ▸ h4) m1 m2 m3 m4 ht
      refine C13_primitive_slope w' he' (by rw [e0', ef']; exact hx i) fun s hs t s1 s2 => ?_
      have hb := w'.tiles.mem_bounds hs
      exact hf (by rw [hv]; simp) i t (e0' ▸ lt_of_le_of_lt hb.1 s1) (ef' ▸ lt_of_lt_of_le s2 hb.2.2)
  unfold RR.box
  rw [Itv.icc_eq_mk q1, Itv.icc_eq_mk q2]
  exact ⟨key 0, key 1⟩

/-- a leaf under the diagonal is labelled `OUT` -/
theorem classify_below {D : TPlaneArgs ℝ} (hD : ProvesFor x f t0 tf D) {R : RR} (hR : R.Pos) (h : R.y1 < R.x0) : D.classify R.box = some .OUT := by
  have hb : (D.A.sub (.icc R.x0 R.x1) (.icc R.y0 R.y1)).isUnbounded = false := (hD.finite _ _ (Itv.icc_bounded _ _) (Itv.icc_bounded _ _)).2.1
  have hs : (D.A.sub (.icc R.x0 R.x1) (.icc R.y0 R.y1)).strictSub .posR = true := by
    unfold Itv.strictSub
    rw [Bool.and_eq_true, decide_eq_true_eq, decide_eq_true_eq]
    refine ⟨hD.ordered _ _ _ _ h, fun e => ?_⟩
    rw [e] at hb
    cases hb
  have ho : D.primitiveOut R.x0 R.x1 R.y0 R.y1 = true := by
    unfold TPlaneArgs.primitiveOut
    rw [hs]
    simp only [Bool.true_or]
  unfold RR.box
  rw [Itv.icc_eq_mk hR.1.le, Itv.icc_eq_mk hR.2.le]
  unfold TPlaneArgs.classify
  dsimp only
  rw [ho, Bool.or_true, if_pos rfl]

/-- what is known of the plane and of a proven loop -/
structure LoopFacts (D : TPlaneArgs ℝ) (P : Paving ℝ) (s : List (Leaf ℝ)) (a b : ℝ) : Prop where
  cut : P.Cut
  box : P.box = [.icc a b, .icc a b]
  labelled : Labelled P
  good : Subset.Good ⟨s, P⟩
  inside : Subset.strictlyIncluded ⟨s, P⟩ = true
  values : ∀ q ∈ P.leaves 0 [], q.value = .OUT ∨ D.classify q.box = some q.value
  isOut : ∀ c ∈ P.leaves 0 [], c.value.meets .OUT = true → c.value = SetValue.OUT
  leaf : ∀ q ∈ P.leaves 0 [], (rect q).Pos ∧ q.box = (rect q).box ∧ a ≤ (rect q).x0 ∧ (rect q).x1 ≤ b ∧ a ≤ (rect q).y0 ∧ (rect q).y1 ≤ b

theorem loopFacts {D : TPlaneArgs ℝ} {ratio : ℝ} (h0 : 0 < ratio) (h1 : ratio < 1) {fuel fuel' : Nat} {a b : ℝ} (hab : a < b) {P₀ P : Paving ℝ}
    (c1 : P₀.Cut) (c2 : P₀.box = [.icc a b, .icc a b]) (c3 : P₀.NodesKept) (hd : P₀.detect (largestFirst ratio) D.classify fuel = some P)
    {R : List (List (Leaf ℝ))} (hr : connectedSubsets fuel' 5 0 [] P 0 P [] = some R) (hfuel : (selected P 5).length + 1 ≤ fuel') {s : List (Leaf ℝ)}
    (e1 : s ∈ R) (e2 : Subset.zeroProven D.incl ⟨s, P⟩ = some true)
    (hinn : ∀ q ∈ P.leaves 0 [], ∀ c ∈ P.leaves 0 [], q.value = SetValue.IN → c.value = SetValue.OUT → ¬ Touch q c) : LoopFacts D P s a b := by
  obtain ⟨d1, d2⟩ := detect_cut h0 h1 c1 hd
  obtain ⟨d3, d4⟩ := detect_value (fun X u hu => D.classify_values hu) c3 hd
  have hbox : P.box = [.icc a b, .icc a b] := d2.trans c2
  have hL : Labelled P := by
    refine ⟨fun q hq => ?_, hinn⟩
    rcases d4 0 [] q hq with h | h
    · exact .inr (.inl h)
    · rcases D.classify_values h with (h | h) | h
      · exact .inl h
      · exact .inr (.inr h)
      · exact .inr (.inl h)
  obtain ⟨k1, _⟩ := cut_leaves d1 0 [] (show (RR.mk a b a b).Pos from ⟨hab, hab⟩) (show P.box = (RR.mk a b a b).box from hbox)
  refine ⟨d1, hbox, hL, good_of d1 hL hfuel hr e1, ?_, d4 0 [], ?_, k1⟩
  · by_contra hc
    unfold Subset.zeroProven Subset.degree at e2
    rw [if_pos (by simpa using hc)] at e2
    cases e2
  · intro c hc h
    rcases hL.1 c hc with h' | h' | h'
    · rw [h'] at h; exact absurd h (by decide)
    · exact h'
    · rw [h'] at h; exact absurd h (by decide)

/-- a loop that does not meet the diagonal is above it -/
theorem above_diagonal {D : TPlaneArgs ℝ} (hD : ProvesFor x f t0 tf D) {P : Paving ℝ} {s : List (Leaf ℝ)} {a b : ℝ} (h : LoopFacts D P s a b)
    (hoff : ∀ u ∈ s, ∀ τ, ¬ InBox [τ, τ] u.box) {u : Leaf ℝ} (hu : u ∈ s) {t1 t2 : ℝ} (hm : InBox [t1, t2] u.box) : t1 < t2 := by
  have hul := h.good.sub u hu
  obtain ⟨hpos, j1, _⟩ := h.leaf u hul
  have hno : ¬ (rect u).y1 < (rect u).x0 := by
    intro hlt
    have hcl := classify_below hD hpos hlt
    rw [← j1] at hcl
    have hv := h.good.notOut u hu
    rcases h.values u hul with h' | h'
    · rw [h'] at hv; exact absurd hv (by decide)
    · rw [hcl] at h'
      rw [← Option.some.inj h'] at hv
      exact absurd hv (by decide)
  have hyes : (rect u).x1 < (rect u).y0 := by
    by_contra hc
    push Not at hc hno
    refine hoff u hu (max (rect u).x0 (rect u).y0) ?_
    rw [j1]
    exact inBox_box.2 ⟨le_max_left _ _, max_le hpos.1.le hc, le_max_right _ _, max_le hno hpos.2.le⟩
  rw [j1] at hm
  obtain ⟨m1, m2, m3, m4⟩ := inBox_box.1 hm
  exact lt_of_le_of_lt m2 (lt_of_lt_of_le hyes m3)

/-- C115: a plane on `[a,b]×[a,b]`, after any calls of `compute_detections`, then `compute_loops` (or `compute_detections` and `compute_proofs`) with
tubes that contain the positions, and the velocities if they are given, of a trajectory: each loop of the proven list exists. There are times `t1 < t2`, in a leaf of
the loop, where the trajectory is at the same point. This holds for each trajectory of the tubes. Two conditions on the final plane: the inclusion
function excludes a zero on each `OUT` leaf that touches the loop; no `IN` leaf touches an `OUT` leaf. Missing: the code does not test the first
condition, and without it a loop can be proven for a trajectory without loop (`C115_fails`). `fuel'` only bounds the number of loops. -/
theorem C115_partial {ratio : ℝ} (h0 : 0 < ratio) (h1 : ratio < 1) {fuel fuel' : Nat} {Ds : List (TPlaneArgs ℝ)} {D : TPlaneArgs ℝ}
    (hD : ProvesFor x f t0 tf D) (hx : ∀ i, ContinuousOn (x i) (Set.Icc t0 tf))
    (hf : D.v ≠ none → ∀ i, ∀ t, t0 < t → t < tf → HasDerivAt (x i) (f i t) t) {a b : ℝ} (ha : t0 ≤ a) (hab : a < b) (hb : b ≤ tf) {P₀ P : Paving ℝ}
    (hP₀ : (Paving.leaf [.icc a b, .icc a b] SetValue.UNKNOWN).detections (largestFirst ratio) fuel Ds = some P₀)
    {R S : List (List (Leaf ℝ))} (hP : P₀.computeLoops (largestFirst ratio) fuel fuel' D = some (P, R, S))
    (hfuel : (selected P 5).length + 1 ≤ fuel') {s : List (Leaf ℝ)} (hs : s ∈ S)
    (hzero : ∀ c ∈ P.leaves 0 [], c.value = SetValue.OUT → (∃ u ∈ s, Touch u c) → ¬ ((0 : ℝ) ∈ (D.incl c.box).1 ∧ (0 : ℝ) ∈ (D.incl c.box).2))
    (hinn : ∀ q ∈ P.leaves 0 [], ∀ c ∈ P.leaves 0 [], q.value = SetValue.IN → c.value = SetValue.OUT → ¬ Touch q c) :
    ∃ u ∈ s, ∃ t1 t2, t1 < t2 ∧ InBox [t1, t2] u.box ∧ ∀ i, x i t1 = x i t2 := by
  have hicc : ∀ I ∈ (Paving.leaf [Itv.icc a b, .icc a b] SetValue.UNKNOWN).box, I.isUnbounded = false := by
    intro I hI
    simp only [Paving.box, List.mem_cons, List.not_mem_nil, or_false, or_self] at hI
    subst hI
    exact Itv.icc_bounded a b
  obtain ⟨c1, c2, c3⟩ := detections_cut h0 h1 (P := Paving.leaf [.icc a b, .icc a b] SetValue.UNKNOWN) ⟨a, b, a, b, hab, hab, rfl⟩ hicc (.inl (.inl rfl)) hP₀
  -- the three steps
  unfold Paving.computeLoops Paving.computeDetections at hP
  rw [initBox_of_bounded (by rw [c2]; exact hicc)] at hP
  cases hd : P₀.detect (largestFirst ratio) D.classify fuel with
  | none => rw [hd] at hP; cases hP
  | some Q =>
  rw [hd, Option.bind_some] at hP
  cases hr : connectedSubsets fuel' 5 0 [] Q 0 Q [] with
  | none => rw [hr] at hP; cases hP
  | some R' =>
  rw [hr, Option.bind_some] at hP
  cases hp : D.computeProofs Q R' with
  | none => rw [hp] at hP; cases hP
  | some S' =>
  rw [hp] at hP
  cases hP
  obtain ⟨e1, e2⟩ := mem_computeProofs hp hs
  have hF := loopFacts h0 h1 hab c1 c2 c3 hd hr hfuel e1 e2 hinn
  -- the inclusion function on a leaf
  have encl : ∀ c ∈ P.leaves 0 [], ∀ t1 t2, t1 ≤ t2 → InBox [t1, t2] c.box →
      x 0 t2 - x 0 t1 ∈ (D.incl c.box).1 ∧ x 1 t2 - x 1 t1 ∈ (D.incl c.box).2 := by
    intro c hc t1 t2 ht hm
    obtain ⟨_, j1, j2, j3, j4, j5⟩ := hF.leaf c hc
    rw [j1] at hm ⊢
    exact incl_mem hD hx hf (ha.trans j2) (j3.trans hb) (ha.trans j4) (j5.trans hb) (inBox_box.1 hm) ht
  have hoff : ∀ u ∈ s, ∀ τ, ¬ InBox [τ, τ] u.box := fun u hu τ => off_diagonal hF.good hab hF.box hF.inside (fun c hc ho _ ⟨u, hu, ht⟩ τ hτ => by
    refine hzero c hc (hF.isOut c hc ho) ⟨u, hu, ht⟩ ?_
    have := encl c hc τ τ le_rfl hτ
    rwa [sub_self, sub_self] at this) hu τ
  have above : ∀ u ∈ s, ∀ t1 t2, InBox [t1, t2] u.box → t1 < t2 := fun u hu t1 t2 hm => above_diagonal hD hF hoff hu hm
  have inDom : ∀ u ∈ s, ∀ t1 t2, InBox [t1, t2] u.box → t1 ∈ Set.Icc t0 tf ∧ t2 ∈ Set.Icc t0 tf := by
    intro u hu t1 t2 hm
    obtain ⟨_, j1, j2, j3, j4, j5⟩ := hF.leaf u (hF.good.sub u hu)
    rw [j1] at hm
    obtain ⟨m1, m2, m3, m4⟩ := inBox_box.1 hm
    exact ⟨⟨ha.trans (j2.trans m1), m2.trans (j3.trans hb)⟩, ⟨ha.trans (j4.trans m3), m4.trans (j5.trans hb)⟩⟩
  have hcont : ∀ i, ContinuousOn (fun z : ℝ × ℝ => x i z.2 - x i z.1) {z | ∃ u ∈ s, PlaneIn z u.box} := fun i =>
    ((hx i).comp continuousOn_snd (by rintro z ⟨u, hu, hz⟩; exact (inDom u hu z.1 z.2 hz).2)).sub
      ((hx i).comp continuousOn_fst (by rintro z ⟨u, hu, hz⟩; exact (inDom u hu z.1 z.2 hz).1))
  obtain ⟨u, hu, z, hz, hfz⟩ := C97_zero_proven_partial hF.cut hF.labelled hfuel hr e1 (F := D.incl) (f := fun z => (x 0 z.2 - x 0 z.1, x 1 z.2 - x 1 z.1))
    ((hcont 0).prodMk (hcont 1)) (fun c hc _ u hu z h1 h2 => encl c hc z.1 z.2 (above u hu z.1 z.2 h1).le h2) hzero e2
  refine ⟨u, hu, z.1, z.2, above u hu z.1 z.2 hz, hz, fun i => ?_⟩
  have g1 := (Prod.mk.inj hfz).1
  have g2 := (Prod.mk.inj hfz).2
  fin_cases i
  · exact (sub_eq_zero.1 g1).symm
  · exact (sub_eq_zero.1 g2).symm

/-! ### Positions only -/

/-- the values of a tube are between the bounds computed by `eval` -/
theorem evalItv_bounds {T : Tube ℝ} (hT : T.WF) (hb : T.Bounded) {a b : ℝ} (hab : a < b) (h1 : T.t0 ≤ a) (h2 : b ≤ T.tf) {y : ℝ}
    (hy : y ∈ T.evalItv (.icc a b)) : HasBelow (T.evalBound Itv.lb? a b) y ∧ HasAbove (T.evalBound Itv.ub? a b) y := by
  have hsl : ∀ (bnd : Itv ℝ → Option ℝ), ∀ s ∈ T.slices, s.lb < b → a < s.ub → ptOpt (bnd s.cod) ≤ T.evalBound bnd a b := by
    intro bnd s hs k1 k2
    obtain ⟨a', g', cs', e, hne, ht, _, h5, _, _, h8, hsub, _⟩ := seek_suffix (g := T.g0) hT.tiles hT.ne h1
    have hs' : s ∈ slicesFrom g' cs' := h8 s hs k2
    unfold Tube.evalBound
    rw [show seek a T.slices = slicesFrom g' cs' from e]
    refine le_trans ?_ (evalBoundLoop_slice ht hs' k1.le)
    unfold Slice.evalBound
    have hlt : max a s.lb < min b s.ub := max_lt (lt_min hab k2) (lt_min k1 (hT.tiles.mem_bounds hs).2.1)
    rw [if_pos (c := ¬ (max a s.lb = min b s.ub ∧ _)) (fun h => absurd h.1 hlt.ne)]
    exact le_sup_right
  constructor
  · by_contra hc
    have hle : T.evalItv (.icc a b) ≤ (⊥ : Itv ℝ) ∨ ∃ l u h, T.evalBound Itv.lb? a b = .mk (some l) (some u) h := by
      rcases hE : T.evalBound Itv.lb? a b with _ | ⟨l, u, h⟩
      · left
        rw [evalItv_le_iff hT hab h1 h2]
        intro s hs k1 k2
        refine Itv.le_iff.2 fun z hz => ?_
        obtain ⟨v, hv, _⟩ := ptOpt_lb hz (hb s hs).1
        have := Itv.mem_of_le (hsl Itv.lb? s hs k1 k2) hv
        rw [hE] at this
        exact this
      · have := Tube.evalBound_bounded (bnd := Itv.lb?) (T := T) (a := a) (b := b)
        obtain ⟨l, u, h, e⟩ := Itv.bounds_of_bounded (by rw [hE]; rfl) this
        exact Or.inr ⟨l, u, h, hE.symm.trans e⟩
    rcases hle with hle | ⟨l, u, h, hE⟩
    · exact absurd (Itv.mem_of_le hle hy) (Itv.not_mem_empty y)
    · have : T.evalItv (.icc a b) ≤ Itv.ofBounds (some l) none := by
        rw [evalItv_le_iff hT hab h1 h2]
        intro s hs k1 k2
        refine Itv.le_iff.2 fun z hz => ?_
        obtain ⟨v, hv, hvz⟩ := ptOpt_lb hz (hb s hs).1
        have hv' := Itv.mem_of_le (hsl Itv.lb? s hs k1 k2) hv
        rw [hE] at hv'
        exact mem_ofBounds_above.2 (hv'.1.trans hvz)
      refine hc ⟨l, ?_, mem_ofBounds_above.1 (Itv.mem_of_le this hy)⟩
      rw [hE]
      exact ⟨le_rfl, h⟩
  · by_contra hc
    have hle : T.evalItv (.icc a b) ≤ (⊥ : Itv ℝ) ∨ ∃ l u h, T.evalBound Itv.ub? a b = .mk (some l) (some u) h := by
      rcases hE : T.evalBound Itv.ub? a b with _ | ⟨l, u, h⟩
      · left
        rw [evalItv_le_iff hT hab h1 h2]
        intro s hs k1 k2
        refine Itv.le_iff.2 fun z hz => ?_
        obtain ⟨v, hv, _⟩ := ptOpt_ub hz (hb s hs).1
        have := Itv.mem_of_le (hsl Itv.ub? s hs k1 k2) hv
        rw [hE] at this
        exact this
      · have := Tube.evalBound_bounded (bnd := Itv.ub?) (T := T) (a := a) (b := b)
        obtain ⟨l, u, h, e⟩ := Itv.bounds_of_bounded (by rw [hE]; rfl) this
        exact Or.inr ⟨l, u, h, hE.symm.trans e⟩
    rcases hle with hle | ⟨l, u, h, hE⟩
    · exact absurd (Itv.mem_of_le hle hy) (Itv.not_mem_empty y)
    · have : T.evalItv (.icc a b) ≤ Itv.ofBounds none (some u) := by
        rw [evalItv_le_iff hT hab h1 h2]
        intro s hs k1 k2
        refine Itv.le_iff.2 fun z hz => ?_
        obtain ⟨v, hv, hvz⟩ := ptOpt_ub hz (hb s hs).1
        have hv' := Itv.mem_of_le (hsl Itv.ub? s hs k1 k2) hv
        rw [hE] at hv'
        exact mem_ofBounds_below.2 (hvz.trans hv'.2)
      refine hc ⟨u, ?_, mem_ofBounds_below.1 (Itv.mem_of_le this hy)⟩
      rw [hE]
      exact ⟨h, le_rfl⟩

/-- what a positive test on the positions means, for a leaf not under the diagonal: for a component, the values on `[t2]` are all on one side of the values
on `[t1]` -/
theorem primitiveOut_side {D : TPlaneArgs ℝ} (hs : SignSub D.sub) (hp : ∀ i, (D.p i).WF ∧ (D.p i).Bounded ∧ (D.p i).t0 = t0 ∧ (D.p i).tf = tf) {R : RR}
    (hR : R.Pos) (h1 : t0 ≤ R.x0) (h2 : R.x1 ≤ tf) (h3 : t0 ≤ R.y0) (h4 : R.y1 ≤ tf) (hlt : R.x0 < R.y1) (h : D.primitiveOut R.x0 R.x1 R.y0 R.y1 = true) :
    ∃ i, (∀ y1 ∈ (D.p i).evalItv (.icc R.x0 R.x1), ∀ y2 ∈ (D.p i).evalItv (.icc R.y0 R.y1), y2 ≤ y1) ∨
      (∀ y1 ∈ (D.p i).evalItv (.icc R.x0 R.x1), ∀ y2 ∈ (D.p i).evalItv (.icc R.y0 R.y1), y1 ≤ y2) := by
  have k0 : (D.A.sub (.icc R.x0 R.x1) (.icc R.y0 R.y1)).strictSub .posR = false :=
    Itv.not_strictSub_posR (D.A.sub_mem (Itv.mem_icc.mpr ⟨le_rfl, hR.1.le⟩) (Itv.mem_icc.mpr ⟨hR.2.le, le_rfl⟩)) (sub_neg.mpr hlt)
  have first : ∀ i, (D.encFirst R.x0 R.x1 R.y0 R.y1 i).strictSub .posR = true →
      ∀ y1 ∈ (D.p i).evalItv (.icc R.x0 R.x1), ∀ y2 ∈ (D.p i).evalItv (.icc R.y0 R.y1), y2 ≤ y1 := by
    intro i hi y1 m1 y2 m2
    obtain ⟨w, bd, e0, ef⟩ := hp i
    by_contra hc
    obtain ⟨d, hd, hd'⟩ := encBound_neg hs Tube.evalBound_bounded Tube.evalBound_bounded (evalItv_bounds w bd hR.1 (e0 ▸ h1) (ef ▸ h2) m1).1
      (evalItv_bounds w bd hR.2 (e0 ▸ h3) (ef ▸ h4) m2).2 (not_le.1 hc)
    have := Itv.not_strictSub_posR hd hd'
    unfold TPlaneArgs.encFirst at hi
    rw [this] at hi
    cases hi
  have second : ∀ i, (D.encSecond R.x0 R.x1 R.y0 R.y1 i).strictSub .negR = true →
      ∀ y1 ∈ (D.p i).evalItv (.icc R.x0 R.x1), ∀ y2 ∈ (D.p i).evalItv (.icc R.y0 R.y1), y1 ≤ y2 := by
    intro i hi y1 m1 y2 m2
    obtain ⟨w, bd, e0, ef⟩ := hp i
    by_contra hc
    obtain ⟨d, hd, hd'⟩ := encBound_pos hs Tube.evalBound_bounded Tube.evalBound_bounded (evalItv_bounds w bd hR.1 (e0 ▸ h1) (ef ▸ h2) m1).2
      (evalItv_bounds w bd hR.2 (e0 ▸ h3) (ef ▸ h4) m2).1 (not_le.1 hc)
    have := Itv.not_strictSub_negR hd hd'
    unfold TPlaneArgs.encSecond at hi
    rw [this] at hi
    cases hi
  unfold TPlaneArgs.primitiveOut at h
  rw [k0, Bool.false_or] at h
  simp only [Bool.or_eq_true] at h
  rcases h with ((h | h) | h) | h
  · exact ⟨0, .inl (first 0 h)⟩
  · exact ⟨1, .inl (first 1 h)⟩
  · exact ⟨0, .inr (second 0 h)⟩
  · exact ⟨1, .inr (second 1 h)⟩

/-- the leaves of a new plane have the value of the last test -/
theorem detect_fresh {bis : Box ℝ → Box ℝ × Box ℝ} {cl : Box ℝ → Option SetValue} {n : Nat} {X : Box ℝ} {w : SetValue} (hw : w ≠ .OUT) {P : Paving ℝ}
    (h : (Paving.leaf X w).detect bis cl n = some P) (t : Nat) (path : List Bool) : ∀ q ∈ P.leaves t path, cl q.box = some q.value := by
  induction n generalizing X P path with
  | zero => simp [detect] at h
  | succ n ih =>
    rcases detect_leaf h with ⟨e, rfl⟩ | ⟨_, u, hu, rfl⟩ | ⟨_, _, l, r, k1, k2, rfl⟩
    · exact absurd e hw
    · intro q hq
      simp only [leaves, List.mem_singleton] at hq
      subst hq
      exact hu
    · intro q hq
      simp only [leaves, List.mem_append] at hq
      rcases hq with hq | hq
      · exact ih k1 _ q hq
      · exact ih k2 _ q hq

/-- C115: the proofs with the positions only. A new plane on `[a,b]×[a,b]`, `compute_detections` then `compute_proofs` with position tubes that contain
the trajectory with a margin. Each loop of the proven list exists: the condition on the inclusion function of `C115_partial` holds, provided that on
the `OUT` leaves around the loop no bound of the positions on `[t1]` is equal to a bound of the positions on `[t2]`. On intervals, the difference of two
disjoint intervals has no zero. -/
theorem C115_positions {ratio : ℝ} (h0 : 0 < ratio) (h1 : ratio < 1) {fuel fuel' : Nat} {D : TPlaneArgs ℝ} (hDet : DetectsFor x f t0 tf D)
    (hD : ProvesFor x f t0 tf D) (hv : D.v = none) (hsep : ∀ X Y : Itv ℝ, (∀ y1 ∈ X, ∀ y2 ∈ Y, y2 < y1) → (0 : ℝ) ∉ D.A.sub X Y ∧ (0 : ℝ) ∉ D.A.sub Y X)
    (hx : ∀ i, ContinuousOn (x i) (Set.Icc t0 tf)) {a b : ℝ} (ha : t0 ≤ a) (hab : a < b)
    (hb : b ≤ tf) {P : Paving ℝ} {R S : List (List (Leaf ℝ))}
    (hP : (Paving.leaf [.icc a b, .icc a b] SetValue.UNKNOWN).computeLoops (largestFirst ratio) fuel fuel' D = some (P, R, S))
    (hfuel : (selected P 5).length + 1 ≤ fuel') {s : List (Leaf ℝ)} (hs : s ∈ S)
    (htie : ∀ c ∈ P.leaves 0 [], c.value = SetValue.OUT → (∃ u ∈ s, Touch u c) → ∀ i I J, c.box = [I, J] →
      ((D.p i).evalItv I).ub? ≠ ((D.p i).evalItv J).lb? ∧ ((D.p i).evalItv I).lb? ≠ ((D.p i).evalItv J).ub?) :
    ∃ u ∈ s, ∃ t1 t2, t1 < t2 ∧ InBox [t1, t2] u.box ∧ ∀ i, x i t1 = x i t2 := by
  have hicc : ∀ I ∈ (Paving.leaf [Itv.icc a b, .icc a b] SetValue.UNKNOWN).box, I.isUnbounded = false := by
    intro I hI
    simp only [Paving.box, List.mem_cons, List.not_mem_nil, or_false, or_self] at hI
    subst hI
    exact Itv.icc_bounded a b
  have hP' := hP
  unfold Paving.computeLoops Paving.computeDetections at hP
  rw [initBox_of_bounded hicc] at hP
  cases hd : (Paving.leaf [Itv.icc a b, .icc a b] SetValue.UNKNOWN).detect (largestFirst ratio) D.classify fuel with
  | none => rw [hd] at hP; cases hP
  | some Q =>
  rw [hd, Option.bind_some] at hP
  cases hr : connectedSubsets fuel' 5 0 [] Q 0 Q [] with
  | none => rw [hr] at hP; cases hP
  | some R' =>
  rw [hr, Option.bind_some] at hP
  cases hp : D.computeProofs Q R' with
  | none => rw [hp] at hP; cases hP
  | some S' =>
  rw [hp] at hP
  cases hP
  obtain ⟨e1, e2⟩ := mem_computeProofs hp hs
  have hcl := detect_fresh (by decide) hd 0 []
  have dOut : ∀ a1 b1 a2 b2, D.derivativeOut a1 b1 a2 b2 = false := fun _ _ _ _ => by unfold TPlaneArgs.derivativeOut; rw [hv]
  have dIn : ∀ a1 b1 a2 b2, D.derivativeIn a1 b1 a2 b2 = false := fun _ _ _ _ => by unfold TPlaneArgs.derivativeIn; rw [hv]
  have hcl' : ∀ r : RR, r.Pos → ∀ u, D.classify r.box = some u → (u = .OUT ∧ D.primitiveOut r.x0 r.x1 r.y0 r.y1 = true) ∨ u = .UNKNOWN := by
    intro r hr u hu
    unfold RR.box at hu
    rw [Itv.icc_eq_mk hr.1.le, Itv.icc_eq_mk hr.2.le] at hu
    unfold TPlaneArgs.classify at hu
    dsimp only at hu
    rw [dOut, dIn, Bool.false_or, Bool.false_and] at hu
    split_ifs at hu with c1 c2 c3
    · exact .inl ⟨(Option.some.inj hu).symm, c1⟩
    · cases c2
    · exact .inr (Option.some.inj hu).symm
  obtain ⟨kc, _⟩ := detect_cut h0 h1 (P := Paving.leaf [Itv.icc a b, .icc a b] SetValue.UNKNOWN) ⟨a, b, a, b, hab, hab, rfl⟩ hd
  have hbx := (detect_cut h0 h1 (P := Paving.leaf [Itv.icc a b, .icc a b] SetValue.UNKNOWN) ⟨a, b, a, b, hab, hab, rfl⟩ hd).2
  obtain ⟨k1, _⟩ := cut_leaves kc 0 [] (show (RR.mk a b a b).Pos from ⟨hab, hab⟩) (show P.box = (RR.mk a b a b).box from hbx)
  have hinn : ∀ q ∈ P.leaves 0 [], ∀ c ∈ P.leaves 0 [], q.value = SetValue.IN → c.value = SetValue.OUT → ¬ Touch q c := by
    intro q hq c _ hin _
    obtain ⟨hpos, j1, _⟩ := k1 q hq
    have := hcl q hq
    rw [j1, hin] at this
    rcases hcl' _ hpos _ this with h | h
    · exact absurd h.1 (by decide)
    · exact absurd h (by decide)
  have hF := loopFacts h0 h1 hab (P₀ := Paving.leaf [Itv.icc a b, .icc a b] SetValue.UNKNOWN) ⟨a, b, a, b, hab, hab, rfl⟩ rfl (.inl (.inl rfl)) hd hr hfuel
    e1 e2 hinn
  have side := fun c (hc : c ∈ P.leaves 0 []) (ho : c.value = SetValue.OUT) (hlt : (rect c).x0 < (rect c).y1) => by
    obtain ⟨hpos, j1, j2, j3, j4, j5⟩ := k1 c hc
    have := hcl c hc
    rw [j1, ho] at this
    exact primitiveOut_side hDet.sign (fun i => hDet.p_ok i) hpos (ha.trans j2) (j3.trans hb) (ha.trans j4) (j5.trans hb) hlt
      (((hcl' _ hpos _ this).resolve_right (by decide)).2)
  obtain ⟨ε, hε, hmar, _⟩ := hDet.margin
  have hoff : ∀ u ∈ s, ∀ τ, ¬ InBox [τ, τ] u.box := fun u hu τ => off_diagonal hF.good hab hF.box hF.inside (fun c hc ho hlt _ τ hτ => by
    obtain ⟨i, hi⟩ := side c hc (hF.isOut c hc ho) hlt
    obtain ⟨_, j1, _⟩ := k1 c hc
    rw [j1] at hτ
    obtain ⟨m1, m2, m3, m4⟩ := inBox_box.1 hτ
    obtain ⟨w, g, _⟩ := hD.p_ok i
    obtain ⟨g1, g2⟩ := hmar i
    have l1 := evalItv_mem w g g1 (Itv.mem_icc.2 ⟨m1, m2⟩)
    have l2 := evalItv_mem w g g2 (Itv.mem_icc.2 ⟨m1, m2⟩)
    have l3 := evalItv_mem w g g1 (Itv.mem_icc.2 ⟨m3, m4⟩)
    have l4 := evalItv_mem w g g2 (Itv.mem_icc.2 ⟨m3, m4⟩)
    dsimp only at l1 l2 l3 l4
    rcases hi with hi | hi
    · have := hi _ l1 _ l4; linarith
    · have := hi _ l2 _ l3; linarith) hu τ
  refine C115_partial h0 h1 hD hx (fun h => absurd hv h) ha hab hb (Ds := []) rfl hP' hfuel hs (fun c hc ho htouch => ?_) hinn
  -- the inclusion function on an `OUT` leaf around the loop
  have hlt : (rect c).x0 < (rect c).y1 := by
    obtain ⟨u, hu, z, z1, z2⟩ := htouch
    obtain ⟨_, j1, _⟩ := k1 c hc
    rw [j1] at z2
    obtain ⟨t1, t2, rfl, m1, _, _, m4⟩ := inBox_two z2
    exact m1.trans_lt ((above_diagonal hD hF hoff hu z1).trans_le m4)
  obtain ⟨i, hi⟩ := side c hc ho hlt
  obtain ⟨hpos, j1, j2, j3, j4, j5⟩ := k1 c hc
  have tie := htie c hc ho htouch i _ _ j1
  have hincl : ∀ i : Fin 2, D.inclBounds (rect c).x0 (rect c).x1 (rect c).y0 (rect c).y1 i = D.A.sub ((D.p i).evalItv (.icc (rect c).y0 (rect c).y1))
      ((D.p i).evalItv (.icc (rect c).x0 (rect c).x1)) := by
    intro i
    unfold TPlaneArgs.inclBounds
    rw [hv]
    rfl
  have hex : (0 : ℝ) ∉ D.inclBounds (rect c).x0 (rect c).x1 (rect c).y0 (rect c).y1 i := by
    rw [hincl]
    obtain ⟨w, g, e0, ef, he⟩ := hD.p_ok i
    have bd := (hDet.p_ok i).2.1
    have lb1 : ∀ {p q : ℝ}, p < q → (D.p i).t0 ≤ p → q ≤ (D.p i).tf → ∃ l u h, (D.p i).evalItv (.icc p q) = .mk (some l) (some u) h := by
      intro p q hpq hp hq
      have hne := evalItv_mem w g he (Itv.mem_icc.2 ⟨le_rfl, hpq.le⟩ : p ∈ Itv.icc p q)
      obtain ⟨⟨l, hl, _⟩, ⟨u, hu, _⟩⟩ := evalItv_bounds w bd hpq hp hq hne
      refine Itv.bounds_of_bounded (Itv.isEmpty_false_iff.2 (Itv.ne_bot_of_mem hne)) ?_
      obtain ⟨l1, l2, l3, hl'⟩ := Itv.bounds_of_bounded (Itv.isEmpty_false_iff.2 (Itv.ne_bot_of_mem hl)) Tube.evalBound_bounded
      obtain ⟨u1, u2, u3, hu'⟩ := Itv.bounds_of_bounded (Itv.isEmpty_false_iff.2 (Itv.ne_bot_of_mem hu)) Tube.evalBound_bounded
      have : (D.p i).evalItv (.icc p q) ≤ .icc l1 u2 := by
        refine Itv.le_iff.2 fun y hy => ?_
        obtain ⟨⟨l, hl, hl2⟩, ⟨u, hu, hu2⟩⟩ := evalItv_bounds w bd hpq hp hq hy
        rw [hl'] at hl
        rw [hu'] at hu
        exact Itv.mem_icc.2 ⟨hl.1.trans hl2, hu2.trans hu.2⟩
      exact (Itv.width_mono this (Itv.icc_bounded _ _)).2
    obtain ⟨l1, u1, q1, E1⟩ := lb1 hpos.1 (e0 ▸ ha.trans j2) (ef ▸ j3.trans hb)
    obtain ⟨l2, u2, q2, E2⟩ := lb1 hpos.2 (e0 ▸ ha.trans j4) (ef ▸ j5.trans hb)
    rw [E1, E2] at hi tie ⊢
    rcases hi with hi | hi
    · have hle := hi l1 ⟨le_rfl, q1⟩ u2 ⟨q2, le_rfl⟩
      have hne : u2 < l1 := lt_of_le_of_ne hle fun e => tie.2 (congrArg some e.symm)
      exact (hsep (.mk (some l1) (some u1) q1) (.mk (some l2) (some u2) q2) fun y1 m1 y2 m2 => lt_of_le_of_lt m2.2 (lt_of_lt_of_le hne m1.1)).2
    · have hle := hi u1 ⟨q1, le_rfl⟩ l2 ⟨le_rfl, q2⟩
      have hne : u1 < l2 := lt_of_le_of_ne hle fun e => tie.1 (congrArg some e)
      exact (hsep (.mk (some l2) (some u2) q2) (.mk (some l1) (some u1) q1) fun y1 m1 y2 m2 => lt_of_le_of_lt m2.2 (lt_of_lt_of_le hne m1.1)).1
  have hbx' : D.incl c.box = (D.inclBounds (rect c).x0 (rect c).x1 (rect c).y0 (rect c).y1 0, D.inclBounds (rect c).x0 (rect c).x1 (rect c).y0 (rect c).y1 1) := by
    rw [j1]
    unfold RR.box
    rw [Itv.icc_eq_mk hpos.1.le, Itv.icc_eq_mk hpos.2.le]
    rfl
  rw [hbx']
  fin_cases i
  · exact fun h => hex h.1
  · exact fun h => hex h.2

/-! ### A proven loop that does not exist -/

/-- a tube of three slices on `[0,8]`, the gates being the intersections of the envelopes -/
def threeSlices (X Y Z : Itv ℚ) : Tube ℚ := ⟨0, 8, X, [⟨0, 3, X, X ⊓ Y⟩, ⟨3, 4, Y, Y ⊓ Z⟩, ⟨4, 8, Z, Z⟩]⟩

theorem threeSlices_wf (X Y Z : Itv ℚ) : (threeSlices X Y Z).WF := ⟨by simp [threeSlices], rfl, by norm_num, rfl, by norm_num, rfl, by norm_num, rfl⟩

theorem threeSlices_encloses {X Y Z : Itv ℚ} {c : ℚ} (h1 : c ∈ X) (h2 : c ∈ Y) (h3 : c ∈ Z) : (threeSlices X Y Z).Encloses fun _ => c := by
  intro s hs
  simp only [threeSlices, Tube.slices, slicesFrom_cons, slicesFrom, List.mem_cons, List.not_mem_nil, or_false] at hs
  rcases hs with rfl | rfl | rfl
  · exact ⟨h1, Itv.mem_inf.2 ⟨h1, h2⟩, fun _ _ _ => h1⟩
  · exact ⟨Itv.mem_inf.2 ⟨h1, h2⟩, Itv.mem_inf.2 ⟨h2, h3⟩, fun _ _ _ => h2⟩
  · exact ⟨Itv.mem_inf.2 ⟨h2, h3⟩, h3, fun _ _ _ => h3⟩

/-- the velocities: between `1/2` and `2` at the beginning for the first component, at the end for the second component, otherwise between `-1/8` and `2` -/
def aheadV (i : Fin 2) : Tube ℚ :=
  if i = 0 then threeSlices (.icc (1/2) 2) (.icc (-1/8) 2) (.icc (-1/8) 2) else threeSlices (.icc (-1/8) 2) (.icc (-1/8) 2) (.icc (1/2) 2)

/-- positions in `[-10,10]` -/
def aheadPlane : TPlaneArgs ℚ where
  A := IArith.exact ℚ
  sub := fun a b => a - b
  precision := 3/2
  p := fun _ => oneSlice 0 8 (.icc (-10) 10)
  v := some aheadV

set_option maxRecDepth 100000 in
/-- C115 is false for `compute_loops` with velocities: a robot in translation at constant speed, at `(t,t)` at time `t`. The tubes are well formed and contain
its positions and its velocity `(1,1)` with a margin of `1/4`. It is never twice at the same point. One loop is in the list of proven loops: some `OUT`
leaves around it are excluded by the velocities, and the inclusion function given to `zero_proven` still contains zero there -/
theorem C115_fails :
    ((∀ i, (aheadPlane.p i).WF ∧ (aheadV i).WF) ∧
      (∀ i, ∀ e : ℚ, -1/4 ≤ e → e ≤ 1/4 → (aheadPlane.p i).Encloses (fun t => t + e) ∧ (aheadV i).Encloses (fun _ => 1 + e))) ∧
    ((Paving.leaf [.icc 0 8, .icc 0 8] SetValue.UNKNOWN).computeLoops (largestFirst (1/2)) 20 100 aheadPlane).map (fun r => r.2.2.length) = some 1 := by
  refine ⟨⟨fun i => ⟨oneSlice_wf (by norm_num) _, ?_⟩, fun i e h1 h2 => ⟨?_, ?_⟩⟩, by decide +kernel⟩
  · unfold aheadV
    split_ifs <;> exact threeSlices_wf _ _ _
  · exact oneSlice_encloses (by norm_num) fun t k1 k2 => Itv.mem_icc.2 ⟨by linarith, by linarith⟩
  · have k1 : 1 + e ∈ Itv.icc (1/2 : ℚ) 2 := Itv.mem_icc.2 ⟨by linarith, by linarith⟩
    have k2 : 1 + e ∈ Itv.icc (-1/8 : ℚ) 2 := Itv.mem_icc.2 ⟨by linarith, by linarith⟩
    unfold aheadV
    split_ifs
    · exact threeSlices_encloses k1 k2 k2
    · exact threeSlices_encloses k2 k2 k1

/-! ### Example: a path with one crossing -/

/-- `castMono` for the morphism -/
theorem castHomMono : StrictMono (Rat.castHom ℝ) := fun _ _ h => Rat.cast_lt.2 h

/-- slices of length one -/
def pathCells : List (Itv ℚ) → ℚ → List (Cell ℚ)
  | [], _ => []
  | [a], k => [⟨k, k + 1, a, a⟩]
  | a :: b :: l, k => ⟨k, k + 1, a, a ⊓ b⟩ :: pathCells (b :: l) (k + 1)

/-- values of the eight segments of the path `(0,20) (0,0) (10,0) (10,10) (8,10) (6,10) (6,-10) (0,-10) (0,-20)`, with a margin -/
def pathItv (i : Fin 2) : List (Itv ℚ) :=
  if i = 0 then [.icc (-1/2) (1/2), .icc (-1/2) (21/2), .icc (19/2) (21/2), .icc (15/2) (21/2), .icc (11/2) (17/2), .icc (11/2) (13/2), .icc (-1/2) (13/2), .icc (-1/2) (1/2)]
  else [.icc (-1/2) (41/2), .icc (-1/2) (1/2), .icc (-1/2) (21/2), .icc (19/2) (21/2), .icc (19/2) (21/2), .icc (-21/2) (21/2), .icc (-21/2) (-19/2), .icc (-41/2) (-19/2)]

/-- the tubes -/
def pathTube (i : Fin 2) : Tube ℚ := ⟨0, 8, if i = 0 then .icc (-1/2) (1/2) else .icc (-1/2) (41/2), pathCells (pathItv i) 0⟩

/-- one step of the path -/
def pathStep (k t : ℝ) : ℝ := max 0 (min 1 (t - k))

/-- the path -/
def pathPos (i : Fin 2) (t : ℝ) : ℝ :=
  if i = 0 then 10 * pathStep 1 t - 2 * pathStep 3 t - 2 * pathStep 4 t - 6 * pathStep 6 t
  else 20 - 20 * pathStep 0 t + 10 * pathStep 2 t - 20 * pathStep 5 t - 10 * pathStep 7 t

/-- the plane for the path -/
noncomputable def pathPlane : TPlaneArgs ℝ := exactPlaneB (Rat.castHom ℝ) castHomMono (3/2) pathTube

theorem pathStep_before {k t : ℝ} (h : t ≤ k) : pathStep k t = 0 := by
  unfold pathStep
  exact max_eq_left ((min_le_right _ _).trans (by linarith))

theorem pathStep_after {k t : ℝ} (h : k + 1 ≤ t) : pathStep k t = 1 := by
  unfold pathStep
  rw [min_eq_left (by linarith), max_eq_right zero_le_one]

theorem pathStep_mem (k t : ℝ) : 0 ≤ pathStep k t ∧ pathStep k t ≤ 1 := ⟨le_max_left _ _, max_le zero_le_one (min_le_left _ _)⟩

theorem pathPos_cont (i : Fin 2) : Continuous (pathPos i) := by
  unfold pathPos pathStep
  split_ifs <;> fun_prop

/-- the slices contain a function which is in each interval during its unit of time -/
theorem pathCells_encloses {f : ℝ → ℝ} : ∀ (l : List (Itv ℚ)) (n : Nat) (g : Itv ℝ), f n ∈ g →
    (∀ (j : Nat) (I : Itv ℚ), l[j]? = some I → ∀ t : ℝ, (n + j : Nat) ≤ t → t ≤ (n + j : Nat) + 1 → f t ∈ I.mapB (Rat.castHom ℝ) castHomMono) →
    ∀ s ∈ slicesFrom g ((pathCells l n).map (Cell.mapB (Rat.castHom ℝ) castHomMono)), f s.lb ∈ s.inG ∧ f s.ub ∈ s.outG ∧ ∀ t, s.lb < t → t < s.ub → f t ∈ s.cod
  | [], _, _, _, _ => by intro s hs; cases hs
  | [a], n, g, hg, h => by
    intro s hs
    simp only [pathCells, List.map_cons, List.map_nil, slicesFrom_cons, slicesFrom, List.mem_singleton] at hs
    subst hs
    have h0 := h 0 a rfl
    simp only [Cell.mapB, map_natCast, map_add, map_one, Nat.add_zero] at h0 ⊢
    exact ⟨hg, h0 _ (by linarith) le_rfl, fun t h1 h2 => h0 t h1.le h2.le⟩
  | a :: b :: l, n, g, hg, h => by
    intro s hs
    rw [pathCells, List.map_cons, slicesFrom_cons, List.mem_cons] at hs
    have h0 := h 0 a rfl
    have h1 := h 1 b rfl
    simp only [Nat.add_zero] at h0
    have hj : f ((n + 1 : Nat) : ℝ) ∈ (a ⊓ b).mapB (Rat.castHom ℝ) castHomMono := by
      rw [Itv.mapB_inf]
      exact Itv.mem_inf.2 ⟨h0 _ (by push_cast; linarith) (by push_cast; linarith), h1 _ le_rfl (by linarith)⟩
    rcases hs with rfl | hs
    · simp only [Cell.mapB, map_natCast, map_add, map_one]
      refine ⟨hg, ?_, fun t h1 h2 => h0 t h1.le h2.le⟩
      push_cast at hj
      exact hj
    · refine pathCells_encloses (b :: l) (n + 1) _ hj (fun j I hI t k1 k2 => h (j + 1) I hI t ?_ ?_) s ?_
      · convert k1 using 2; omega
      · convert k2 using 3; omega
      · push_cast; exact hs

theorem path_encloses (i : Fin 2) {e : ℝ} (h1 : -1/2 ≤ e) (h2 : e ≤ 1/2) : (pathPlane.p i).Encloses fun t => pathPos i t + e := by
  have key : ∀ (j : Nat) (I : Itv ℚ), (pathItv i)[j]? = some I → ∀ t : ℝ, (j : ℝ) ≤ t → t ≤ (j : ℝ) + 1 → pathPos i t + e ∈ I.mapB (Rat.castHom ℝ) castHomMono := by
    intro j I hI t k1 k2
    have b := pathStep_mem
    have before : ∀ m : Nat, j < m → pathStep m t = 0 := fun m hm => pathStep_before (k2.trans (by exact_mod_cast hm))
    have after : ∀ m : Nat, m < j → pathStep m t = 1 := fun m hm => pathStep_after (le_trans (by exact_mod_cast hm) k1)
    have B0 := b 0 t; have B1 := b 1 t; have B2 := b 2 t; have B3 := b 3 t; have B4 := b 4 t; have B5 := b 5 t; have B6 := b 6 t; have B7 := b 7 t
    have F := fun m hm => before m hm
    have G := fun m hm => after m hm
    have F1 := F 1; have F2 := F 2; have F3 := F 3; have F4 := F 4; have F5 := F 5; have F6 := F 6; have F7 := F 7
    have G0 := G 0; have G1 := G 1; have G2 := G 2; have G3 := G 3; have G4 := G 4; have G5 := G 5; have G6 := G 6
    clear F G before after b
    simp only [Nat.cast_one, Nat.cast_ofNat, Nat.cast_zero] at F1 F2 F3 F4 F5 F6 F7 G0 G1 G2 G3 G4 G5 G6
    unfold pathItv at hI
    unfold pathPos
    have hj : j < 8 := by
      have := (List.getElem?_eq_some_iff.1 hI).1
      split_ifs at this <;> exact this
    split_ifs at hI ⊢
    all_goals
      interval_cases j <;>
      · simp only [List.getElem?_cons_zero, List.getElem?_cons_succ, Option.some.injEq] at hI
        subst hI
        rw [Itv.mapB_icc, Itv.mem_icc]
        norm_num at F1 F2 F3 F4 F5 F6 F7 G0 G1 G2 G3 G4 G5 G6
        norm_num
        constructor <;> linarith
  intro s hs
  refine pathCells_encloses (f := fun t => pathPos i t + e) (pathItv i) 0 ((pathTube i).g0.mapB (Rat.castHom ℝ) castHomMono) ?_ (fun j I hI t k1 k2 => key j I hI t (by simpa using k1) (by simpa using k2)) s hs
  have : (pathItv i)[0]? = some (pathTube i).g0 := by
    unfold pathItv pathTube
    dsimp only
    split_ifs <;> rfl
  exact key 0 _ this _ (by simp) (by simp)

/-- the exact sum and difference have no other values than the sums and the differences -/
theorem mem_add_split {X Y : Itv ℝ} {d : ℝ} (h : d ∈ X.add Y) : ∃ p ∈ X, ∃ q ∈ Y, d = p + q := by
  rcases X with _ | ⟨l, u, p⟩
  · exact absurd h (Itv.not_mem_empty d)
  rcases Y with _ | ⟨l', u', p'⟩
  · exact absurd h (Itv.not_mem_empty d)
  have h' := Itv.mem_ofBounds.1 (show d ∈ Itv.ofBounds (Itv.addB l l') (Itv.addB u u') from h)
  obtain ⟨h1, h2⟩ := h'
  rcases l with _ | l
  · rcases u' with _ | u'
    · -- `p` is as small as needed
      rcases u with _ | u <;> rcases l' with _ | l'
      · exact ⟨0, ⟨trivial, trivial⟩, d, ⟨trivial, trivial⟩, by ring⟩
      · exact ⟨d - l', ⟨trivial, trivial⟩, l', ⟨le_refl l', trivial⟩, by ring⟩
      · exact ⟨u, ⟨trivial, le_refl u⟩, d - u, ⟨trivial, trivial⟩, by ring⟩
      · rcases le_total u (d - l') with h | h
        · exact ⟨u, ⟨trivial, le_refl u⟩, d - u, ⟨show l' ≤ d - u by linarith, trivial⟩, by ring⟩
        · exact ⟨d - l', ⟨trivial, h⟩, l', ⟨le_refl l', trivial⟩, by ring⟩
    · refine ⟨d - u', ⟨trivial, ?_⟩, u', ⟨?_, le_refl u'⟩, by ring⟩
      · rcases u with _ | u
        · trivial
        · have : d ≤ u + u' := h2
          exact (show d - u' ≤ u by linarith)
      · rcases l' with _ | l'
        · trivial
        · exact p'
  · have hl : ∀ u0, u = some u0 → l ≤ u0 := by rintro u0 rfl; exact p
    have hl' : ∀ a, l' = some a → a ≤ d - l := by rintro a rfl; have : l + a ≤ d := h1; linarith
    have low : ∀ x, l ≤ x → leHi x u → (∀ a, l' = some a → a ≤ d - x) → (∀ a, u' = some a → d - x ≤ a) →
        ∃ p1 ∈ Itv.mk (some l) u p, ∃ q ∈ Itv.mk l' u' p', d = p1 + q := by
      intro x k1 k2 k3 k4
      refine ⟨x, ⟨k1, k2⟩, d - x, ⟨?_, ?_⟩, by ring⟩
      · rcases l' with _ | l'
        · trivial
        · exact k3 _ rfl
      · rcases u' with _ | u'
        · trivial
        · exact k4 _ rfl
    have hlu : leHi l u := by
      rcases u with _ | u
      · trivial
      · exact p
    rcases u' with _ | u'
    · exact low l le_rfl hlu hl' (by rintro a h; cases h)
    · rcases le_total (d - l) u' with h | h
      · exact low l le_rfl hlu hl' (by rintro a k; cases k; exact h)
      · refine low (d - u') (by linarith) ?_ ?_ (by rintro a k; cases k; linarith)
        · rcases u with _ | u
          · trivial
          · have : d ≤ u + u' := h2
            exact (show d - u' ≤ u by linarith)
        · rintro a rfl
          have : a ≤ u' := p'
          linarith

theorem mem_sub_split {X Y : Itv ℝ} {d : ℝ} (h : d ∈ X.sub Y) : ∃ p ∈ X, ∃ q ∈ Y, d = p - q := by
  obtain ⟨p, hp, q, hq, rfl⟩ := mem_add_split h
  refine ⟨p, hp, -q, ?_, by ring⟩
  rcases Y with _ | ⟨l, u, p'⟩
  · exact absurd hq (Itv.not_mem_empty q)
  · obtain ⟨h1, h2⟩ := Itv.mem_ofBounds.1 (show q ∈ Itv.ofBounds (Itv.negB u) (Itv.negB l) from hq)
    constructor
    · rcases l with _ | l
      · trivial
      · exact neg_le_neg_iff.1 (by simpa using (show q ≤ -l from h2))
    · rcases u with _ | u
      · trivial
      · exact neg_le_neg_iff.1 (by simpa using (show -u ≤ q from h1))

/-- well-formed tubes after the change of numbers -/
theorem wf_mapB {T : Tube ℚ} (h : T.WF) : (T.mapB (Rat.castHom ℝ) castHomMono).WF := by
  refine ⟨fun e => h.ne (List.map_eq_nil_iff.1 e), ?_⟩
  have key : ∀ (cs : List (Cell ℚ)) (a b : ℚ), Codac.Tiles a cs b →
      Codac.Tiles (Rat.castHom ℝ a) (cs.map (Cell.mapB (Rat.castHom ℝ) castHomMono)) (Rat.castHom ℝ b) := by
    intro cs
    induction cs with
    | nil => intro a b h; exact congrArg _ h
    | cons c cs ih => intro a b h; exact ⟨congrArg (Rat.castHom ℝ) h.1, castHomMono h.2.1, ih _ _ h.2.2⟩
  exact key _ _ _ h.tiles

theorem path_wf (i : Fin 2) : (pathTube i).WF := by
  fin_cases i
  all_goals exact ⟨by decide +kernel, rfl, by decide +kernel, rfl, by decide +kernel, rfl, by decide +kernel, rfl, by decide +kernel, rfl, by decide +kernel, rfl,
    by decide +kernel, rfl, by decide +kernel, rfl, by decide +kernel, show (_ : ℚ) = _ by decide +kernel⟩

theorem unbounded_mapB (I : Itv ℚ) : (I.mapB (Rat.castHom ℝ) castHomMono).isUnbounded = I.isUnbounded := by
  rcases I with _ | ⟨_ | a, _ | b, p⟩ <;> rfl

theorem path_bounded (i : Fin 2) : (pathPlane.p i).Bounded := by
  have h : ∀ i, ∀ s ∈ (pathTube i).slices, s.cod.isUnbounded = false ∧ s.inG.isUnbounded = false ∧ s.outG.isUnbounded = false := by decide +kernel
  intro s hs
  rw [show (pathPlane.p i).slices = (pathTube i).slices.map (Slice.mapB (Rat.castHom ℝ) castHomMono) from Tube.mapB_slices _ _ _] at hs
  obtain ⟨s', hs', rfl⟩ := List.mem_map.1 hs
  obtain ⟨h1, h2, h3⟩ := h i s' hs'
  exact ⟨(unbounded_mapB _).trans h1, (unbounded_mapB _).trans h2, (unbounded_mapB _).trans h3⟩

theorem path_gates (i : Fin 2) : (pathPlane.p i).GatesInEnvelopes := by
  have h : ∀ i, ∀ s ∈ (pathTube i).slices, s.inG ≤ s.cod ∧ s.outG ≤ s.cod := by decide +kernel
  intro s hs
  rw [show (pathPlane.p i).slices = (pathTube i).slices.map (Slice.mapB (Rat.castHom ℝ) castHomMono) from Tube.mapB_slices _ _ _] at hs
  obtain ⟨s', hs', rfl⟩ := List.mem_map.1 hs
  obtain ⟨h1, h2⟩ := h i s' hs'
  exact ⟨(Itv.mapB_le _ castHomMono).2 h1, (Itv.mapB_le _ castHomMono).2 h2⟩

theorem path_proves : ProvesFor pathPos (fun _ _ => 0) 0 8 pathPlane where
  ordered := by
    intro a1 b1 a2 b2 h
    refine Itv.le_iff.2 fun d hd => ?_
    obtain ⟨p, hp, q, hq, rfl⟩ := mem_sub_split hd
    have := (Itv.mem_icc.1 hp).1
    have := (Itv.mem_icc.1 hq).2
    exact ⟨show (0 : ℝ) ≤ p - q by linarith, trivial⟩
  finite := exact_noOverflow
  p_ok := fun i => ⟨wf_mapB (path_wf i), path_gates i, by simp [pathPlane, exactPlaneB, exactPlane, Tube.mapB, pathTube],
    by simp [pathPlane, exactPlaneB, exactPlane, Tube.mapB, pathTube], by simpa using path_encloses i (e := 0) (by norm_num) (by norm_num)⟩
  v_ok := by intro v hv; cases hv

theorem path_detects : DetectsFor pathPos (fun _ _ => 0) 0 8 pathPlane where
  sign := ⟨fun a b h => sub_neg.mpr h, fun a b h => sub_pos.mpr h⟩
  finite := exact_noOverflow
  p_ok := fun i => ⟨wf_mapB (path_wf i), path_bounded i, (path_proves.p_ok i).2.2.1, (path_proves.p_ok i).2.2.2.1⟩
  v_ok := by intro v hv; cases hv
  margin := ⟨1/2, by norm_num, fun i => ⟨path_encloses i (e := -(1/2)) (by norm_num) (by norm_num), path_encloses i (by norm_num) le_rfl⟩,
    by intro v hv; cases hv⟩

/-- the plane computed with rational numbers: one proven loop, the leaf `[1,2]×[5,6]`; on no `OUT` leaf two bounds are equal -/
theorem path_loops : ∃ P R S, (Paving.leaf [.icc 0 8, .icc 0 8] SetValue.UNKNOWN).computeLoops (largestFirst (1/2)) 20 100 (exactPlane (3/2) pathTube) = some (P, R, S) ∧
    S.map (List.map Leaf.box) = [[[.icc 1 2, .icc 5 6]]] ∧ (selected P 5).length + 1 ≤ 100 ∧
    ∀ c ∈ P.leaves 0 [], c.value = SetValue.OUT → ∀ i : Fin 2, ((pathTube i).evalItv (c.box.getD 0 ⊥)).ub? ≠ ((pathTube i).evalItv (c.box.getD 1 ⊥)).lb? ∧
      ((pathTube i).evalItv (c.box.getD 0 ⊥)).lb? ≠ ((pathTube i).evalItv (c.box.getD 1 ⊥)).ub? := by
  have h : ((Paving.leaf [.icc 0 8, .icc 0 8] SetValue.UNKNOWN).computeLoops (largestFirst (1/2)) 20 100 (exactPlane (3/2) pathTube)).any (fun r =>
      decide (r.2.2.map (List.map Leaf.box) = [[[.icc 1 2, .icc 5 6]]]) && decide ((selected r.1 5).length + 1 ≤ 100) &&
      (r.1.leaves 0 []).all fun c => decide (c.value = SetValue.OUT → ∀ i : Fin 2, ((pathTube i).evalItv (c.box.getD 0 ⊥)).ub? ≠ ((pathTube i).evalItv (c.box.getD 1 ⊥)).lb? ∧
      ((pathTube i).evalItv (c.box.getD 0 ⊥)).lb? ≠ ((pathTube i).evalItv (c.box.getD 1 ⊥)).ub?)) = true := by decide +kernel
  cases hl : (Paving.leaf [.icc 0 8, .icc 0 8] SetValue.UNKNOWN).computeLoops (largestFirst (1/2)) 20 100 (exactPlane (3/2) pathTube) with
  | none => rw [hl] at h; cases h
  | some r =>
    rw [hl, Option.any_some, Bool.and_eq_true, Bool.and_eq_true, decide_eq_true_eq, decide_eq_true_eq, List.all_eq_true] at h
    exact ⟨r.1, r.2.1, r.2.2, rfl, h.1.1, h.1.2, fun c hc => of_decide_eq_true (h.2 c hc)⟩

/-- `compute_loops` on the tubes of the path proves a loop, and this theorem says that the path goes through the same point at a time of `[1,2]` and
at a time of `[5,6]` -/
example : ∃ t1 t2, t1 < t2 ∧ InBox [t1, t2] [.icc 1 2, .icc 5 6] ∧ ∀ i, pathPos i t1 = pathPos i t2 := by
  obtain ⟨P, R, S, hl, hS, hfuel, htie⟩ := path_loops
  have hm := mapB_computeLoops (Rat.castHom ℝ) castHomMono (3/2) pathTube (1/2) 20 100 (Paving.leaf [.icc 0 8, .icc 0 8] SetValue.UNKNOWN) (by
    intro I hI
    simp only [Paving.box, List.mem_cons, List.not_mem_nil, or_false, or_self] at hI
    subst hI
    exact Itv.icc_bounded _ _)
  rw [hl, Option.map_some] at hm
  dsimp only at hm
  rw [show Paving.mapB (Rat.castHom ℝ) castHomMono (.leaf [.icc 0 8, .icc 0 8] SetValue.UNKNOWN) = .leaf [.icc 0 8, .icc 0 8] SetValue.UNKNOWN by
    simp only [Paving.mapB, Box.mapB, List.map_cons, List.map_nil, Itv.mapB_icc]; norm_num, show Rat.castHom ℝ (1/2) = 1/2 by norm_num] at hm
  obtain ⟨s, rfl⟩ : ∃ s, S = [s] := by
    match S, hS with
    | [s], _ => exact ⟨s, rfl⟩
    | [], h => cases h
    | _ :: _ :: _, h => simp at h
  have hsel : selected (P.mapB (Rat.castHom ℝ) castHomMono) 5 = (selected P 5).map (Leaf.mapB (Rat.castHom ℝ) castHomMono) := by
    unfold selected
    rw [mapB_leaves, List.filter_map]
    rfl
  obtain ⟨u, hu, t1, t2, h12, hin, hx⟩ := C115_positions (f := fun _ _ => 0) (by norm_num) (by norm_num) path_detects path_proves rfl (by
      intro X Y h
      constructor <;> intro hz
      · obtain ⟨p, hp, q, hq, e⟩ := mem_sub_split hz
        have := h p hp q hq
        linarith
      · obtain ⟨p, hp, q, hq, e⟩ := mem_sub_split hz
        have := h q hq p hp
        linarith) (fun i => (pathPos_cont i).continuousOn) le_rfl (by norm_num) le_rfl hm (by rw [hsel, List.length_map]; exact hfuel) (List.mem_singleton.2 rfl) (by
      intro c hc ho _ i I J hb
      rw [mapB_leaves] at hc
      obtain ⟨c', hc', rfl⟩ := List.mem_map.1 hc
      have := htie c' hc' ho i
      have e : ∀ K : Itv ℚ, (pathPlane.p i).evalItv (K.mapB (Rat.castHom ℝ) castHomMono) = ((pathTube i).evalItv K).mapB (Rat.castHom ℝ) castHomMono := fun K =>
        Tube.mapB_evalItv _ _ _ _
      have hb' : Box.mapB (Rat.castHom ℝ) castHomMono c'.box = [I, J] := hb
      have g0 := mapB_getD (Rat.castHom ℝ) castHomMono c'.box 0
      have g1 := mapB_getD (Rat.castHom ℝ) castHomMono c'.box 1
      rw [hb'] at g0 g1
      simp only [List.getD_cons_zero, List.getD_cons_succ] at g0 g1
      rw [g0, g1, e, e, Itv.mapB_lb?, Itv.mapB_lb?, Itv.mapB_ub?, Itv.mapB_ub?]
      have inj := Option.map_injective castHomMono.injective
      exact ⟨fun h => this.1 (inj h), fun h => this.2 (inj h)⟩)
  obtain ⟨u', hu', rfl⟩ := List.mem_map.1 hu
  refine ⟨t1, t2, h12, ?_, hx⟩
  have hb : u'.box = [.icc 1 2, .icc 5 6] := by
    simp only [List.map_cons, List.map_nil, List.cons.injEq, and_true] at hS
    have := List.mem_map_of_mem (f := Leaf.box) hu'
    rw [hS, List.mem_singleton] at this
    exact this
  rw [show (Leaf.mapB (Rat.castHom ℝ) castHomMono u').box = Box.mapB (Rat.castHom ℝ) castHomMono u'.box from rfl, hb] at hin
  simp only [Box.mapB, List.map_cons, List.map_nil, Itv.mapB_icc, map_one, map_ofNat] at hin
  exact hin

end Codac.Props
