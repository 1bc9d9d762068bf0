import Verif.Ctc.EvalVec
import Verif.Props.EvalItv

/-!
# C113: `CtcEval` and `CtcDeriv` on vectors of tubes
-/

set_option linter.unusedSectionVars false

namespace Codac.Props
open Codac Codac.Ex

section
variable {K : Type*} [LinearOrder K]

theorem meetAll_mem {y : List (Tube K)} {L : List (Itv K)} {z : Box K} {v : List K} (hl : y.length = z.length) (hz : InBox v z)
    (h : ∀ I ∈ L, InBox v (EvVec.eval y I)) : InBox v (EvVec.meetAll y L z) ∧ (EvVec.meetAll y L z).length = z.length := by
  unfold EvVec.meetAll
  induction L generalizing z with
  | nil => exact ⟨hz, rfl⟩
  | cons I L ih =>
    rw [List.foldl_cons]
    have hl' : z.length = (EvVec.eval y I).length := by unfold EvVec.eval; rw [List.length_map]; exact hl.symm
    have h1 : InBox v (z.inter (EvVec.eval y I)) := (inBox_inter hl').mpr ⟨hz, h I (by simp)⟩
    have h2 : (z.inter (EvVec.eval y I)).length = z.length := by rw [← h1.length, ← hz.length]
    obtain ⟨a1, a2⟩ := ih (hl.trans h2.symm) h1 fun J hJ => h J (by simp [hJ])
    exact ⟨a1, a2.trans h2⟩

theorem meetAll_le {y : List (Tube K)} (L : List (Itv K)) {z : Box K} (hl : y.length = z.length) : BoxLe (EvVec.meetAll y L z) z := by
  unfold EvVec.meetAll
  induction L generalizing z with
  | nil => exact BoxLe.refl z
  | cons I L ih =>
    rw [List.foldl_cons]
    have hl' : z.length = (EvVec.eval y I).length := by unfold EvVec.eval; rw [List.length_map]; exact hl.symm
    have h1 := inter_le_left hl'
    exact (ih (hl.trans h1.length.symm)).trans h1

theorem eval_inBox {y : List (Tube K)} (hy : ∀ X ∈ y, X.WF) (hg : ∀ X ∈ y, X.GatesInEnvelopes) {fs : List (K → K)} (hf : VEncloses y fs)
    {I : Itv K} {t : K} (ht : t ∈ I) : InBox (fs.map (· t)) (EvVec.eval y I) := by
  induction hf with
  | nil => exact .nil
  | cons h _ ih =>
    exact .cons (evalItv_mem (hy _ (by simp)) (hg _ (by simp)) h ht) (ih (fun X hX => hy X (by simp [hX])) fun X hX => hg X (by simp [hX]))

theorem vec_not_isEmpty {y : List (Tube K)} (hy : ∀ X ∈ y, X.WF) (hg : ∀ X ∈ y, X.GatesInEnvelopes) {fs : List (K → K)} (hf : VEncloses y fs) :
    EvVec.isEmpty y = false := by
  induction hf with
  | nil => rfl
  | cons h _ ih =>
    have h1 := not_isEmpty_of_encloses (hy _ (by simp)) h (hg _ (by simp))
    have h2 := ih (fun X hX => hy X (by simp [hX])) fun X hX => hg X (by simp [hX])
    unfold EvVec.isEmpty at h2 ⊢
    rw [List.any_cons, h1, h2]; rfl

/-- the inversion at one instant gives at most one interval -/
theorem vInvertList_point {T : Tube K} {x : List (Tube K)} (h : VecOk T x) {z : Box K} {t : K} {L : List (Itv K)}
    (hL : vInvertList x z (.point t) = some L) : L.length ≤ 1 := by
  unfold vInvertList at hL
  split at hL
  swap
  · cases hL
  rw [h.dom] at hL
  simp only [Option.some.injEq] at hL
  rw [show Itv.point t = Itv.mk (some t) (some t) le_rfl from rfl] at hL
  simp only at hL
  split_ifs at hL with h0
  · subst hL; simp
  push Not at h0
  have hT := h.wf T h.mem
  rw [h.index] at hL
  obtain ⟨s, h1, h2, h3⟩ := hT.tiles.timeToIndex_spec (g := T.g0) hT.ne h0.1
  have hend : ∀ (rs : List ((K × K) × List (Slice K))) (acc : Itv K), (∀ r ∈ rs, t < r.1.1) → (vInvertListLoop z t t acc rs).length ≤ 1 := by
    intro rs acc hr
    cases rs with
    | nil => unfold vInvertListLoop; split_ifs <;> simp
    | cons r rs =>
      unfold vInvertListLoop
      rw [if_neg (not_le.mpr (hr r (by simp)))]
      split_ifs <;> simp
  have hget : (vRows x)[timeToIndex t T.slices]? = some ((s.lb, s.ub), vSlices x (timeToIndex t T.slices)) := by
    rw [h.rows_get, show T.slices[timeToIndex t T.slices]? = some s from h1]; rfl
  have hlt : timeToIndex t T.slices < (vRows x).length := (List.getElem?_eq_some_iff.mp hget).1
  rw [List.drop_eq_getElem_cons hlt] at hL
  have he : (vRows x)[timeToIndex t T.slices] = ((s.lb, s.ub), vSlices x (timeToIndex t T.slices)) := (List.getElem?_eq_some_iff.mp hget).2
  rw [he] at hL
  have hnext : ∀ r ∈ (vRows x).drop (timeToIndex t T.slices + 1), t < r.1.1 := by
    intro r hr
    obtain ⟨i, hi⟩ := List.mem_iff_getElem?.mp hr
    rw [List.getElem?_drop, h.rows_get] at hi
    cases hs : T.slices[timeToIndex t T.slices + 1 + i]? with
    | none => simp [hs] at hi
    | some s' =>
      simp only [hs, Option.map_some, Option.some.injEq] at hi
      subst hi
      rcases h3 with h3 | ⟨-, h3⟩
      · exact lt_of_lt_of_le h3 (hT.tiles.idx_lt (i := timeToIndex t T.slices) (j := timeToIndex t T.slices + 1 + i) h1 hs (by omega))
      · have := (List.getElem?_eq_some_iff.mp hs).1
        have hl : T.slices.length = T.cells.length := length_slicesFrom _ _
        have h3 : timeToIndex t T.slices + 1 = T.cells.length := h3
        omega
  subst hL
  unfold vInvertListLoop
  rw [if_pos h2]
  dsimp only
  rw [if_neg, bot_sup_eq]
  · exact hend _ _ hnext
  · rw [bot_sup_eq]; simp

/-- **C113** (part): for `contract(Interval& t, IntervalVector& z, const TubeVector& y)`, the instant is always kept, and the value is kept when
the inversion is made of at most one interval (always so when `t` is one instant, `C113_const_instant`); see `C113_const_fails` -/
theorem C113_const_partial {y : List (Tube K)} (hy : ∀ X ∈ y, X.WF) (hg : ∀ X ∈ y, X.GatesInEnvelopes) {fs : List (K → K)} (hf : VEncloses y fs)
    {t t' : Itv K} {z z' : Box K} (h : EvVec.const y t z = some (t', z')) {τ : K} (ht : τ ∈ t) (hz : InBox (fs.map (· τ)) z) :
    τ ∈ t' ∧ ((∀ L, vInvertList y z t = some L → L.length ≤ 1) → InBox (fs.map (· τ)) z') := by
  unfold EvVec.const at h
  split_ifs at h with hl he
  · rw [Itv.isEmpty_false_iff.mpr (Itv.ne_bot_of_mem ht), hz.not_isEmpty, vec_not_isEmpty hy hg hf] at he
    cases he
  rw [Option.map_eq_some_iff] at h
  obtain ⟨L, hL, h⟩ := h
  cases h
  have hs : vSameSlicing y = true := by
    by_contra hc
    unfold vInvertList at hL
    rw [if_neg hc] at hL; cases hL
  obtain ⟨T, hT⟩ := vecOk_of hs hy
  obtain ⟨I, hI, hm⟩ := vInvertList_sound hT hg hf ht hz hL
  refine ⟨Itv.mem_inf.mpr ⟨ht, mem_foldl_sup (Or.inr ⟨I, hI, hm⟩)⟩, fun h1 => (meetAll_mem hl hz fun J hJ => ?_).1⟩
  have : J = I := by
    match L, h1 L hL, hI, hJ with
    | [x], _, hI, hJ => simp at hI hJ; rw [hI, hJ]
  subst this
  exact eval_inBox hy hg hf hm

/-- **C113**: the same contraction when `t` is one instant: every value is kept -/
theorem C113_const_instant {y : List (Tube K)} (hy : ∀ X ∈ y, X.WF) (hg : ∀ X ∈ y, X.GatesInEnvelopes) {fs : List (K → K)} (hf : VEncloses y fs)
    {t' : Itv K} {z z' : Box K} {τ : K} (h : EvVec.const y (.point τ) z = some (t', z')) (hz : InBox (fs.map (· τ)) z) :
    τ ∈ t' ∧ InBox (fs.map (· τ)) z' := by
  obtain ⟨h1, h2⟩ := C113_const_partial hy hg hf h (Itv.mem_point.mpr rfl) hz
  refine ⟨h1, h2 fun L hL => ?_⟩
  have hs : vSameSlicing y = true := by
    by_contra hc
    unfold vInvertList at hL
    rw [if_neg hc] at hL; cases hL
  obtain ⟨T, hT⟩ := vecOk_of hs hy
  exact vInvertList_point hT hL

/-- **C113**: this contraction only contracts, and it returns when the components have the same slicing -/
theorem C113_const_contracts {y : List (Tube K)} {t : Itv K} {z : Box K} (hl : y.length = z.length) (hs : vSameSlicing y = true) :
    ∃ t' z', EvVec.const y t z = some (t', z') ∧ t' ≤ t ∧ BoxLe z' z := by
  unfold EvVec.const
  rw [if_pos hl]
  split_ifs
  · exact ⟨_, _, rfl, bot_le, setEmpty_le z⟩
  · unfold vInvertList
    rw [if_pos hs]
    exact ⟨_, _, rfl, inf_le_left, meetAll_le _ hl⟩

/-- two components: `evalY`, and the constants of [0,5] -/
def evecY2 : Tube ℚ := ⟨0, 3, I 0 5, [⟨0, 1, I 0 5, I 0 5⟩, ⟨1, 2, I 0 5, I 0 5⟩, ⟨2, 3, I 0 5, I 0 5⟩]⟩

/-- **C113 is false in the code** for several intervals in the inversion: as in dimension one, `z` is intersected with the values on each of
them (codac_CtcEval.cpp:412-416) -/
theorem C113_const_fails : ∃ (y : List (Tube ℚ)) (fs : List (ℚ → ℚ)) (t t' : Itv ℚ) (z z' : Box ℚ) (τ : ℚ), (∀ X ∈ y, X.WF) ∧ (∀ X ∈ y, X.GatesInEnvelopes) ∧
    VEncloses y fs ∧ τ ∈ t ∧ InBox (fs.map (· τ)) z ∧ EvVec.const y t z = some (t', z') ∧ ¬ InBox (fs.map (· τ)) z' := by
  refine ⟨[evalY, evecY2], [evalF, fun _ => 1], I 0 3, I 0 3, [I 0 1, I 0 2], [I (9/10) 1, I 0 2], 1/2, ?_, ?_, ?_, by decide +kernel, ?_, by decide +kernel, ?_⟩
  · intro X hX
    simp only [List.mem_cons, List.not_mem_nil, or_false] at hX
    rcases hX with rfl | rfl
    · exact evalY_wf
    · exact ⟨by decide +kernel, ⟨rfl, by decide +kernel, rfl, by decide +kernel, rfl, by decide +kernel, rfl⟩⟩
  · intro X hX
    simp only [List.mem_cons, List.not_mem_nil, or_false] at hX
    rcases hX with rfl | rfl
    · exact evalY_gc
    · intro s hs
      simp only [evecY2, Tube.slices, slicesFrom, List.mem_cons, List.not_mem_nil, or_false] at hs
      rcases hs with rfl | rfl | rfl <;> decide +kernel
  · refine .cons evalF_encl (.cons ?_ .nil)
    intro s hs
    simp only [evecY2, Tube.slices, slicesFrom, List.mem_cons, List.not_mem_nil, or_false] at hs
    rcases hs with rfl | rfl | rfl <;> exact ⟨by decide +kernel, by decide +kernel, fun _ _ _ => by beta_reduce; decide +kernel⟩
  · exact .cons (by decide +kernel) (.cons (by decide +kernel) .nil)
  · intro h
    cases h with
    | cons h _ => exact absurd h (by decide +kernel)

end

section
variable {K : Type*} [Field K] [LinearOrder K] [IsStrictOrderedRing K]

/-- a solution for vectors: each component is a solution (`EvalSolution`), at the same instant -/
inductive VecSolution (B : K) (t : Itv K) (τ : K) : Box K → List (Tube K) → List (Tube K) → List (K → K) → List (K → K) → Prop
  | nil : VecSolution B t τ [] [] [] [] []
  | cons {z : Itv K} {y w : Tube K} {f d : K → K} {zs : Box K} {ys ws : List (Tube K)} {fs ds : List (K → K)} :
    EvalSolution B t z y w f d τ → VecSolution B t τ zs ys ws fs ds → VecSolution B t τ (z :: zs) (y :: ys) (w :: ws) (f :: fs) (d :: ds)

namespace VecSolution
variable {B τ : K} {t : Itv K} {z : Box K} {y w : List (Tube K)} {fs ds : List (K → K)}

theorem encl (h : VecSolution B t τ z y w fs ds) : VEncloses y fs ∧ VEncloses w ds ∧ InBox (fs.map (· τ)) z := by
  induction h with
  | nil => exact ⟨.nil, .nil, .nil⟩
  | cons h _ ih => exact ⟨.cons h.traj ih.1, .cons h.deriv ih.2.1, .cons h.val ih.2.2⟩

theorem lengths (h : VecSolution B t τ z y w fs ds) : y.length = z.length ∧ y.length = w.length := by
  induction h with
  | nil => exact ⟨rfl, rfl⟩
  | cons _ _ ih => exact ⟨by simp [ih.1], by simp [ih.2]⟩

/-- the same trajectories for other `t` and `z` -/
theorem narrow (h : VecSolution B t τ z y w fs ds) {t' : Itv K} {z' : Box K} (ht : τ ∈ t') (hz : InBox (fs.map (· τ)) z') :
    VecSolution B t' τ z' y w fs ds := by
  induction h generalizing z' with
  | nil => cases hz; exact .nil
  | cons h _ ih =>
    cases hz with
    | cons hz hzs =>
      exact .cons ⟨h.traj, h.deriv, h.slopes, ht, h.dom, hz, h.boundF, h.boundD, h.boundS⟩ (ih hzs)

theorem inst (h : VecSolution B t τ z y w fs ds) (hn : y ≠ []) : τ ∈ t := by
  cases h with
  | nil => exact absurd rfl hn
  | cons h _ => exact h.inst

end VecSolution

/-- the loop over the components keeps the solutions, over an interval of time -/
theorem evalVec_loop {A : IArith K} {B : K} {R : Itv K} {prop pres : Bool} {t t' : Itv K} {z z' : Box K} {y w y' w' : List (Tube K)}
    (hy : ∀ X ∈ y, X.WF ∧ X.GatesInEnvelopes) (hw : ∀ X ∈ w, X.WF ∧ X.GatesInEnvelopes)
    (h : EvVec.loop A B R prop pres t z y w = some (t', z', y', w')) (P : List (K → K) → List (K → K) → K → Prop)
    (hP : ∀ fs ds τ, P fs ds τ → τ ∈ t ∧ VecSolution B t τ z y w fs ds)
    (htwo : ∃ fs ds τ fs' ds' τ', P fs ds τ ∧ P fs' ds' τ' ∧ τ < τ')
    (hsep : ∀ X ∈ y, ∀ s ∈ X.slices, ∀ u ∈ t, ∀ v ∈ t, u < s.lb → s.lb < v → (∃ fs ds τ, P fs ds τ ∧ τ ≤ s.lb) ∧ ∃ fs ds τ, P fs ds τ ∧ s.lb ≤ τ)
    {fs ds : List (K → K)} {τ : K} (hs : P fs ds τ) : τ ∈ t' ∧ InBox (fs.map (· τ)) z' ∧ VEncloses y' fs ∧ VEncloses w' ds := by
  induction y generalizing t z w t' z' y' w' P fs ds τ with
  | nil =>
    obtain ⟨m, k⟩ := hP _ _ _ hs
    cases k
    unfold EvVec.loop at h
    cases h
    exact ⟨m, .nil, .nil, .nil⟩
  | cons Y ys ih =>
    obtain ⟨m, k⟩ := hP _ _ _ hs
    cases k with
    | @cons Z _ W f d zs _ ws fs' ds' k1 k2 =>
    unfold EvVec.loop at h
    rw [Option.bind_eq_some_iff] at h
    obtain ⟨⟨t1, z1, y1, w1⟩, h1, h⟩ := h
    rw [Option.map_eq_some_iff] at h
    obtain ⟨⟨t2, z2, y2, w2⟩, h2, h⟩ := h
    cases h
    have head : ∀ gs es σ, P gs es σ → ∃ g gs' e es', gs = g :: gs' ∧ es = e :: es' ∧ EvalSolution B t Z Y W g e σ ∧ VecSolution B t σ zs ys ws gs' es' := by
      intro gs es σ hσ
      obtain ⟨-, k⟩ := hP _ _ _ hσ
      cases k with
      | cons k1 k2 => exact ⟨_, _, _, _, rfl, rfl, k1, k2⟩
    have key : ∀ g e σ, EvalSolution B t Z Y W g e σ → σ ∈ t1 ∧ g σ ∈ z1 ∧ y1.Encloses g ∧ w1.Encloses e := by
      intro g e σ hσ
      refine C19_eval_interval_partial (hy Y (by simp)).1 (hy Y (by simp)).2 (hw W (by simp)).1 (hw W (by simp)).2 h1 ?_ ?_ hσ
      · obtain ⟨gs, es, σ1, gs', es', σ2, p1, p2, hlt⟩ := htwo
        obtain ⟨g1, -, e1, -, -, -, q1, -⟩ := head _ _ _ p1
        obtain ⟨g2, -, e2, -, -, -, q2, -⟩ := head _ _ _ p2
        exact ⟨g1, e1, σ1, g2, e2, σ2, q1, q2, hlt⟩
      · intro I _ s hs' u hu v hv h3 h4
        obtain ⟨⟨gs, es, σ1, p1, p2⟩, gs', es', σ2, p3, p4⟩ := hsep Y (by simp) s hs' u (Itv.mem_inf.mp (Itv.mem_inf.mp hu).1).1 v (Itv.mem_inf.mp (Itv.mem_inf.mp hv).1).1 h3 h4
        obtain ⟨g1, -, e1, -, -, -, q1, -⟩ := head _ _ _ p1
        obtain ⟨g2, -, e2, -, -, -, q2, -⟩ := head _ _ _ p3
        exact ⟨⟨g1, e1, σ1, q1, p2⟩, g2, e2, σ2, q2, p4⟩
    have tail := ih (t := t1) (z := zs) (w := ws) (fun X hX => hy X (by simp [hX])) (fun X hX => hw X (by simp [hX])) h2
      (fun gs es σ => ∃ g e, P (g :: gs) (e :: es) σ) (by
        rintro gs es σ ⟨g, e, p⟩
        obtain ⟨g', gs', e', es', q1, q2, q3, q4⟩ := head _ _ _ p
        cases q1; cases q2
        have := (key _ _ _ q3).1
        exact ⟨this, q4.narrow this q4.encl.2.2⟩)
      (by
        obtain ⟨gs, es, σ1, gs', es', σ2, p1, p2, hlt⟩ := htwo
        obtain ⟨g1, gs1, e1, es1, rfl, rfl, -, -⟩ := head _ _ _ p1
        obtain ⟨g2, gs2, e2, es2, rfl, rfl, -, -⟩ := head _ _ _ p2
        exact ⟨gs1, es1, σ1, gs2, es2, σ2, ⟨g1, e1, p1⟩, ⟨g2, e2, p2⟩, hlt⟩)
      (by
        intro X hX s hs' u hu v hv h3 h4
        have hle := (C19_eval_interval_contracts h1).1
        obtain ⟨⟨gs, es, σ1, p1, p2⟩, gs', es', σ2, p3, p4⟩ := hsep X (by simp [hX]) s hs' u (Itv.mem_of_le hle hu) v (Itv.mem_of_le hle hv) h3 h4
        obtain ⟨g1, gs1, e1, es1, rfl, rfl, -, -⟩ := head _ _ _ p1
        obtain ⟨g2, gs2, e2, es2, rfl, rfl, -, -⟩ := head _ _ _ p3
        exact ⟨⟨gs1, es1, σ1, ⟨g1, e1, p1⟩, p2⟩, gs2, es2, σ2, ⟨g2, e2, p3⟩, p4⟩)
      ⟨f, d, hs⟩
    obtain ⟨a1, a2, a3, a4⟩ := tail
    obtain ⟨b1, b2, b3, b4⟩ := key f d τ k1
    exact ⟨a1, .cons b2 a2, .cons b3 a3, .cons b4 a4⟩

/-- what precedes the loop over the components -/
theorem evalVec_first {A : IArith K} {B : K} {R : Itv K} {prop pres : Bool} {t : Itv K} {z : Box K} {y w : List (Tube K)} {r : Itv K × Box K × List (Tube K) × List (Tube K)}
    (hy : ∀ X ∈ y, X.WF ∧ X.GatesInEnvelopes) (hw : ∀ X ∈ w, X.WF ∧ X.GatesInEnvelopes) (h : EvVec.interval A B R prop pres t z y w = some r)
    {fs ds : List (K → K)} {τ : K} (ht : τ ∈ t) (hs : VecSolution B t τ z y w fs ds) :
    (∃ T, VecOk T y) ∧ ∃ L, vInvertList y z t = some L ∧ EvVec.loop A B R prop pres (t ⊓ EvVec.joinAll L) (EvVec.meetAll y L z) y w = some r := by
  obtain ⟨e1, e2, e3⟩ := hs.encl
  unfold EvVec.interval at h
  split_ifs at h with hc he
  · rw [Itv.isEmpty_false_iff.mpr (Itv.ne_bot_of_mem ht), e3.not_isEmpty, vec_not_isEmpty (fun X hX => (hy X hX).1) (fun X hX => (hy X hX).2) e1,
      vec_not_isEmpty (fun X hX => (hw X hX).1) (fun X hX => (hw X hX).2) e2] at he
    cases he
  rw [Option.bind_eq_some_iff] at h
  obtain ⟨L, hL, h⟩ := h
  refine ⟨?_, L, hL, h⟩
  refine vecOk_of ?_ fun X hX => (hy X hX).1
  by_contra hc
  unfold vInvertList at hL
  rw [if_neg hc] at hL; cases hL

theorem evalVec_narrow {B : K} {t : Itv K} {z : Box K} {y w : List (Tube K)} (hy : ∀ X ∈ y, X.WF ∧ X.GatesInEnvelopes) {T : Tube K} (hT : VecOk T y)
    {L : List (Itv K)} (hL : vInvertList y z t = some L) (hl : L.length ≤ 1)
    {fs ds : List (K → K)} {τ : K} (ht : τ ∈ t) (hs : VecSolution B t τ z y w fs ds) :
    τ ∈ t ⊓ EvVec.joinAll L ∧ VecSolution B (t ⊓ EvVec.joinAll L) τ (EvVec.meetAll y L z) y w fs ds := by
  obtain ⟨e1, e2, e3⟩ := hs.encl
  obtain ⟨I, hI, hm⟩ := vInvertList_sound hT (fun X hX => (hy X hX).2) e1 ht e3 hL
  have h1 : τ ∈ t ⊓ EvVec.joinAll L := Itv.mem_inf.mpr ⟨ht, mem_foldl_sup (Or.inr ⟨I, hI, hm⟩)⟩
  refine ⟨h1, hs.narrow h1 (meetAll_mem hs.lengths.1 e3 fun J hJ => ?_).1⟩
  have : J = I := by
    match L, hl, hI, hJ with
    | [x], _, hI, hJ => simp at hI hJ; rw [hI, hJ]
  subst this
  exact eval_inBox (fun X hX => (hy X hX).1) (fun X hX => (hy X hX).2) e1 hm

/-- **C113** (part), for `contract(Interval& t, IntervalVector& z, TubeVector& y, TubeVector& w)`: every solution is kept (its instant in `t`,
its values in `z`, its trajectories in `y`, their derivatives in `w`), when the inversion of `y` has at most one interval, when there are
solutions at two different instants, and when each bound of a slice strictly inside `t` has a solution before (or at) it and one after (or
at) it. As for one tube, these conditions are needed: `C113_interval_fails`, `C19_eval_interval_fails`, `C19_eval_interval_point_fails`. -/
theorem C113_interval_partial {A : IArith K} {B : K} {R : Itv K} {prop pres : Bool} {t t' : Itv K} {z z' : Box K} {y w y' w' : List (Tube K)}
    (hy : ∀ X ∈ y, X.WF ∧ X.GatesInEnvelopes) (hw : ∀ X ∈ w, X.WF ∧ X.GatesInEnvelopes)
    (h : EvVec.interval A B R prop pres t z y w = some (t', z', y', w')) (hone : ∀ L, vInvertList y z t = some L → L.length ≤ 1)
    (htwo : ∃ fs ds τ fs' ds' τ', VecSolution B t τ z y w fs ds ∧ VecSolution B t τ' z y w fs' ds' ∧ τ < τ')
    (hsep : ∀ X ∈ y, ∀ s ∈ X.slices, ∀ u ∈ t, ∀ v ∈ t, u < s.lb → s.lb < v →
      (∃ fs ds τ, VecSolution B t τ z y w fs ds ∧ τ ≤ s.lb) ∧ ∃ fs ds τ, VecSolution B t τ z y w fs ds ∧ s.lb ≤ τ)
    (hne : y ≠ []) {fs ds : List (K → K)} {τ : K} (hs : VecSolution B t τ z y w fs ds) :
    τ ∈ t' ∧ InBox (fs.map (· τ)) z' ∧ VEncloses y' fs ∧ VEncloses w' ds := by
  obtain ⟨⟨T, hT⟩, L, hL, hr⟩ := evalVec_first hy hw h (hs.inst hne) hs
  have hn := fun gs es σ (hσ : VecSolution B t σ z y w gs es) => evalVec_narrow hy hT hL (hone L hL) (hσ.inst hne) hσ
  refine evalVec_loop hy hw hr (fun gs es σ => VecSolution B t σ z y w gs es) hn htwo ?_ hs
  intro X hX s hs' u hu v hv h1 h2
  exact hsep X hX s hs' u (Itv.mem_inf.mp hu).1 v (Itv.mem_inf.mp hv).1 h1 h2

/-- over one instant, the interval version for one tube is the version for one instant -/
theorem evalInterval_point {A : IArith K} {B : K} {R : Itv K} {prop pres : Bool} {τ : K} {z : Itv K} {y w : Tube K} {r : Itv K × Itv K × Tube K × Tube K}
    (hz : z.isEmpty = false) (hy : y.isEmpty = false) (h : evalInterval A B R prop pres (.point τ) z y w = some r) :
    ∃ q, evalInstant A B R prop pres τ z y w = some q ∧ r = (.point τ, q) := by
  unfold evalInterval at h
  split_ifs at h with h1 h2
  · rw [hz, hy, Itv.isEmpty_false_iff.mpr (Itv.ne_bot_of_mem (Itv.mem_point.mpr rfl : τ ∈ Itv.point τ))] at h2; cases h2
  have hb : (Itv.point τ).bounds? = some (τ, τ) := rfl
  rw [hb] at h
  dsimp only at h
  rw [if_pos rfl, Option.map_eq_some_iff] at h
  obtain ⟨q, h3, rfl⟩ := h
  exact ⟨q, h3, rfl⟩

theorem evalVec_loop_point {A : IArith K} {B : K} {R : Itv K} {prop pres : Bool} {t' : Itv K} {z z' : Box K} {y w y' w' : List (Tube K)} {τ : K}
    (hy : ∀ X ∈ y, X.WF ∧ X.GatesInEnvelopes) (hw : ∀ X ∈ w, X.WF ∧ X.GatesInEnvelopes)
    (h : EvVec.loop A B R prop pres (.point τ) z y w = some (t', z', y', w'))
    {fs ds : List (K → K)} (hs : VecSolution B (.point τ) τ z y w fs ds) : t' = .point τ ∧ InBox (fs.map (· τ)) z' ∧ VEncloses y' fs ∧ VEncloses w' ds := by
  generalize hp : Itv.point τ = t0 at hs
  induction hs generalizing t' z' y' w' with
  | nil =>
    unfold EvVec.loop at h
    cases h
    exact ⟨hp, .nil, .nil, .nil⟩
  | @cons Z Y W f d zs ys ws fs ds k1 k2 ih =>
    unfold EvVec.loop at h
    rw [Option.bind_eq_some_iff] at h
    obtain ⟨⟨t1, z1, y1, w1⟩, h1, h⟩ := h
    rw [Option.map_eq_some_iff] at h
    obtain ⟨⟨t2, z2, y2, w2⟩, h2, h⟩ := h
    cases h
    obtain ⟨⟨q1, q2, q3⟩, hq, e⟩ := evalInterval_point (Itv.isEmpty_false_iff.mpr (Itv.ne_bot_of_mem k1.val)) (not_isEmpty_of_encloses (hy Y (by simp)).1 k1.traj (hy Y (by simp)).2) h1
    cases e
    obtain ⟨b1, b2, b3⟩ := C19_eval_instant_partial (hy Y (by simp)).1 (hy Y (by simp)).2 (hw W (by simp)).1 (hw W (by simp)).2 hq k1.traj k1.deriv k1.slopes k1.val k1.boundF
    obtain ⟨a1, a2, a3, a4⟩ := ih (fun X hX => hy X (by simp [hX])) (fun X hX => hw X (by simp [hX])) h2
    exact ⟨a1, .cons b1 a2, .cons b2 a3, .cons b3 a4⟩

/-- **C113**, for `contract(double t, IntervalVector& z, TubeVector& y, TubeVector& w)`: every solution is kept, with or without propagation,
preserving or not the slicing -/
theorem C113_instant {A : IArith K} {B : K} {R : Itv K} {prop pres : Bool} {z z' : Box K} {y w y' w' : List (Tube K)} {τ : K}
    (hy : ∀ X ∈ y, X.WF ∧ X.GatesInEnvelopes) (hw : ∀ X ∈ w, X.WF ∧ X.GatesInEnvelopes)
    (h : EvVec.instant A B R prop pres τ z y w = some (z', y', w'))
    {fs ds : List (K → K)} (hs : VecSolution B (.point τ) τ z y w fs ds) : InBox (fs.map (· τ)) z' ∧ VEncloses y' fs ∧ VEncloses w' ds := by
  unfold EvVec.instant at h
  rw [Option.map_eq_some_iff] at h
  obtain ⟨⟨t', q⟩, h, e⟩ := h
  cases e
  obtain ⟨⟨T, hT⟩, L, hL, hr⟩ := evalVec_first hy hw h (Itv.mem_point.mpr rfl) hs
  obtain ⟨n1, n2⟩ := evalVec_narrow hy hT hL (vInvertList_point hT hL) (Itv.mem_point.mpr rfl) hs
  have hp : Itv.point τ ⊓ EvVec.joinAll L = Itv.point τ := by
    refine le_antisymm inf_le_left (Itv.le_iff.mpr fun x hx => ?_)
    rw [Itv.mem_point.mp hx]; exact n1
  rw [hp] at hr n2
  exact (evalVec_loop_point hy hw hr n2).2

/-- **C113**: `t` and `z` are contracted -/
theorem C113_contracts {A : IArith K} {B : K} {R : Itv K} {prop pres : Bool} {t t' : Itv K} {z z' : Box K} {y w y' w' : List (Tube K)}
    (h : EvVec.interval A B R prop pres t z y w = some (t', z', y', w')) : t' ≤ t ∧ BoxLe z' z := by
  have hloop : ∀ (y w : List (Tube K)) (z : Box K) (t t' : Itv K) (z' : Box K) (y' w' : List (Tube K)), y.length = z.length → y.length = w.length →
      EvVec.loop A B R prop pres t z y w = some (t', z', y', w') → t' ≤ t ∧ BoxLe z' z := by
    intro y
    induction y with
    | nil =>
      intro w z t t' z' y' w' h1 h2 h
      cases z with
      | cons => simp at h1
      | nil => unfold EvVec.loop at h; cases h; exact ⟨le_rfl, .nil⟩
    | cons Y y ih =>
      intro w z t t' z' y' w' h1 h2 h
      cases z with
      | nil => simp at h1
      | cons Z z =>
      cases w with
      | nil => simp at h2
      | cons W w =>
      unfold EvVec.loop at h
      rw [Option.bind_eq_some_iff] at h
      obtain ⟨⟨t1, z1, y1, w1⟩, h3, h⟩ := h
      rw [Option.map_eq_some_iff] at h
      obtain ⟨⟨t2, z2, y2, w2⟩, h4, h⟩ := h
      cases h
      obtain ⟨a1, a2⟩ := C19_eval_interval_contracts h3
      obtain ⟨b1, b2⟩ := ih _ _ _ _ _ _ _ (by simpa using h1) (by simpa using h2) h4
      exact ⟨b1.trans a1, .cons a2 b2⟩
  unfold EvVec.interval at h
  split_ifs at h with hc he
  · cases h; exact ⟨bot_le, setEmpty_le z⟩
  · rw [Option.bind_eq_some_iff] at h
    obtain ⟨L, -, h⟩ := h
    have hm := meetAll_le L hc.1
    obtain ⟨a1, a2⟩ := hloop _ _ _ _ _ _ _ _ (hc.1.trans hm.length.symm) hc.2.1 h
    exact ⟨a1.trans inf_le_left, a2.trans hm⟩

/-- **C113**, for `CtcDeriv::contract(TubeVector& x, const TubeVector& v)`: every vector of trajectories bounded by `B` whose derivatives are
in `v` is kept -/
theorem C113_deriv {A : IArith K} {B : K} {R : Itv K} {fw bw : Bool} {x v x' : List (Tube K)} (hx : ∀ X ∈ x, X.WF ∧ X.GatesInEnvelopes)
    (h : EvVec.deriv A B R fw bw x v = some x') {fs : List (K → K)} (hf : VEncloses x fs) (hv : List.Forall₂ Tube.SlopeIn v fs)
    (hB : ∀ X ∈ x, ∀ f ∈ fs, ∀ t, X.t0 ≤ t → t ≤ X.tf → -B ≤ f t ∧ f t ≤ B) : (∀ X ∈ x', X.WF ∧ X.GatesInEnvelopes) ∧ VEncloses x' fs := by
  induction hf generalizing v x' with
  | nil =>
    cases hv
    unfold EvVec.deriv at h
    cases h
    exact ⟨by simp, .nil⟩
  | @cons X f xs fs h1 _ ih =>
    cases hv with
    | @cons V _ vs _ h2 h3 =>
    unfold EvVec.deriv at h
    rw [Option.bind_eq_some_iff] at h
    obtain ⟨X', h4, h⟩ := h
    rw [Option.map_eq_some_iff] at h
    obtain ⟨l, h5, rfl⟩ := h
    obtain ⟨a1, a2, a3⟩ := C18_deriv_sound_partial (hx X (by simp)).1 (hx X (by simp)).2 h4 h1 h2 (hB X (by simp) f (by simp))
    obtain ⟨b1, b2⟩ := ih (fun X hX => hx X (by simp [hX])) h5 h3 (fun X hX f hf => hB X (by simp [hX]) f (by simp [hf]))
    refine ⟨fun Y hY => ?_, .cons a3 b2⟩
    rcases List.mem_cons.mp hY with rfl | hY
    · exact ⟨a1, a2⟩
    · exact b1 Y hY

end

/-! ### Cases that meet the hypotheses -/

theorem evItv_ok : (∀ X ∈ [evItvY, evItvY], X.WF ∧ X.GatesInEnvelopes) ∧ ∀ X ∈ [evItvW, evItvW], X.WF ∧ X.GatesInEnvelopes := by
  constructor
  all_goals
    intro X hX
    simp only [List.mem_cons, List.not_mem_nil, or_false, or_self] at hX
    subst hX
    refine ⟨⟨by decide +kernel, ⟨rfl, by decide +kernel, rfl, by decide +kernel, rfl⟩⟩, ?_⟩
    intro s hs
    simp only [evItvY, evItvW, Tube.slices, slicesFrom, List.mem_cons, List.not_mem_nil, or_false] at hs
    rcases hs with rfl | rfl <;> exact ⟨le_rfl, le_rfl⟩

theorem evecSol {τ : ℚ} (h0 : 1 ≤ τ) (h1 : τ ≤ 3) : VecSolution 1000 (.icc 1 3) τ [.icc 0 1, .icc 0 1] [evItvY, evItvY] [evItvW, evItvW] [fun _ => 1 / 2, fun _ => 1 / 2] [fun _ => 0, fun _ => 0] :=
  .cons (evItv_solution h0 h1) (.cons (evItv_solution h0 h1) .nil)

/-- the hypotheses of `C113_interval_partial` hold, and both tubes are contracted -/
example : (∃ fs ds τ fs' ds' τ', VecSolution 1000 (.icc 1 3) τ [.icc 0 1, .icc 0 1] [evItvY, evItvY] [evItvW, evItvW] fs ds ∧
      VecSolution 1000 (.icc 1 3) τ' [.icc 0 1, .icc 0 1] [evItvY, evItvY] [evItvW, evItvW] fs' ds' ∧ τ < τ') ∧
    (∀ X ∈ [evItvY, evItvY], ∀ s ∈ X.slices, ∀ u ∈ Itv.icc (1:ℚ) 3, ∀ v ∈ Itv.icc (1:ℚ) 3, u < s.lb → s.lb < v →
      (∃ fs ds τ, VecSolution 1000 (.icc 1 3) τ [.icc 0 1, .icc 0 1] [evItvY, evItvY] [evItvW, evItvW] fs ds ∧ τ ≤ s.lb) ∧
      ∃ fs ds τ, VecSolution 1000 (.icc 1 3) τ [.icc 0 1, .icc 0 1] [evItvY, evItvY] [evItvW, evItvW] fs ds ∧ s.lb ≤ τ) ∧
    (vInvertList [evItvY, evItvY] [.icc 0 1, .icc 0 1] (.icc 1 3)).map List.length = some 1 ∧
    (EvVec.interval (IArith.exact ℚ) 1000 ⊤ true true (.icc 1 3) [.icc 0 1, .icc 0 1] [evItvY, evItvY] [evItvW, evItvW]).map (fun r => (r.1, r.2.1, r.2.2.1.map Tube.codomain)) =
      some (.icc 1 3, [.icc 0 1, .icc 0 1], [.icc (-3) 4, .icc (-3) 4]) := by
  refine ⟨⟨_, _, 1, _, _, 3, evecSol (by norm_num) (by norm_num), evecSol (by norm_num) (by norm_num), by norm_num⟩, ?_, by decide +kernel, by decide +kernel⟩
  intro X _ s _ u hu v hv h1 h2
  have h3 := (Itv.mem_icc.mp hu).1
  have h4 := (Itv.mem_icc.mp hv).2
  have := evecSol (τ := s.lb) (by linarith) (by linarith)
  exact ⟨⟨_, _, _, this, le_rfl⟩, ⟨_, _, _, this, le_rfl⟩⟩

/-- `C113_instant`: one instant, both tubes and the box are contracted -/
example : VecSolution 1000 (.point 1) 1 [.icc 0 20, .icc 0 1] [evItvY, evItvY] [evItvW, evItvW] [fun _ => 1 / 2, fun _ => 1 / 2] [fun _ => 0, fun _ => 0] ∧
    (EvVec.instant (IArith.exact ℚ) 1000 ⊤ true true 1 [.icc 0 20, .icc 0 1] [evItvY, evItvY] [evItvW, evItvW]).map (fun r => (r.1, r.2.1.map Tube.codomain)) =
      some ([.icc 0 10, .icc 0 1], [.icc (-3) 10, .icc (-3) 4]) :=
  ⟨(evecSol (by norm_num) (by norm_num)).narrow (Itv.mem_point.mpr rfl) (.cons (by decide +kernel) (.cons (by decide +kernel) .nil)), by decide +kernel⟩

/-- `C113_deriv`: the first gate is known for the first component only -/
example : (EvVec.deriv (IArith.exact ℚ) 1000 ⊤ true true [⟨0, 4, .icc 0 1, evItvY.cells⟩, evItvY] [evItvW, evItvW]).map (fun l => l.map Tube.codomain) =
    some [.icc (-4) 5, .icc (-10) 10] := by decide +kernel

/-! ### Where it is false -/

/-- `t -> t` is in this tube; its values are in [0,1/2] at the beginning only, but the last slice meets [0,1/2] too -/
def evecLost : Tube ℚ := ⟨0, 3, .icc 0 0, [⟨0, 1, .icc 0 1, .icc 1 1⟩, ⟨1, 2, .icc 1 2, .icc 2 2⟩, ⟨2, 3, .icc (2/5) 3, .icc 3 3⟩]⟩

def evecLostW : Tube ℚ := ⟨0, 3, .icc 1 1, [⟨0, 1, .icc 1 1, .icc 1 1⟩, ⟨1, 2, .icc 1 1, .icc 1 1⟩, ⟨2, 3, .icc 1 1, .icc 1 1⟩]⟩

theorem evecLost_solution : EvalSolution 1000 (.icc 0 3) (.icc 0 (1/2)) evecLost evecLostW (fun t => t) (fun _ => 1) (1/4) := by
  refine ⟨?_, ?_, ?_, by decide +kernel, by decide +kernel, by decide +kernel, ?_, fun _ _ _ => by norm_num, ?_⟩
  · intro s hs
    simp only [evecLost, Tube.slices, slicesFrom, List.mem_cons, List.not_mem_nil, or_false] at hs
    rcases hs with rfl | rfl | rfl
    all_goals
      refine ⟨by decide +kernel, by decide +kernel, fun t h0 h1 => ?_⟩
      dsimp only at h0 h1 ⊢
      rw [Itv.mem_icc]
      constructor <;> linarith
  · intro s hs
    simp only [evecLostW, Tube.slices, slicesFrom, List.mem_cons, List.not_mem_nil, or_false] at hs
    rcases hs with rfl | rfl | rfl <;> exact ⟨by decide +kernel, by decide +kernel, fun _ _ _ => by beta_reduce; decide +kernel⟩
  · intro s hs m t _ _ _
    refine ⟨1, ?_, by ring⟩
    simp only [evecLostW, Tube.slices, slicesFrom, List.mem_cons, List.not_mem_nil, or_false] at hs
    rcases hs with rfl | rfl | rfl <;> decide +kernel
  · intro u (h0 : (0:ℚ) ≤ u) (h1 : u ≤ 3)
    constructor <;> linarith
  · intro m u _ h _
    constructor <;> linarith

/-- **C113 fails** when the inversion has several intervals: `z` is intersected with the values of `y` on each of them
(codac_CtcEval.cpp:364-368), and a solution is lost -/
theorem C113_interval_fails : ∃ (y w : List (Tube ℚ)) (t : Itv ℚ) (z : Box ℚ) (fs ds : List (ℚ → ℚ)) (τ : ℚ), VecSolution 1000 t τ z y w fs ds ∧
    ∀ prop, ∃ t' z' y' w', EvVec.interval (IArith.exact ℚ) 1000 ⊤ prop true t z y w = some (t', z', y', w') ∧ ¬ InBox (fs.map (· τ)) z' := by
  refine ⟨[evecLost], [evecLostW], .icc 0 3, [.icc 0 (1/2)], [fun t => t], [fun _ => 1], 1/4, .cons evecLost_solution .nil, ?_⟩
  have key : ∀ prop, (EvVec.interval (IArith.exact ℚ) 1000 ⊤ prop true (.icc 0 3) [.icc 0 (1/2)] [evecLost] [evecLostW]).map (fun r => r.2.1.any fun Z => decide ((1/4 : ℚ) ∉ Z)) = some true := by
    decide +kernel
  intro prop
  obtain ⟨⟨t', z', y', w'⟩, h1, h2⟩ := Option.map_eq_some_iff.mp (key prop)
  refine ⟨t', z', y', w', h1, fun hc => ?_⟩
  dsimp only at h2
  cases hc with
  | cons h h' =>
    cases h'
    rw [List.any_cons, List.any_nil, Bool.or_false, decide_eq_true_iff] at h2
    exact h2 h

/-- one slice, values in [-10,10] -/
def evecA : Tube ℚ := ⟨0, 4, .icc (-10) 10, [⟨0, 4, .icc (-10) 10, .icc (-10) 10⟩]⟩

def evecAw : Tube ℚ := ⟨0, 4, .icc (-1) 1, [⟨0, 4, .icc (-1) 1, .icc (-1) 1⟩]⟩

/-- from 0 to 4 with a slope 1 -/
def evecB : Tube ℚ := ⟨0, 4, .icc 0 0, [⟨0, 4, .icc 0 4, .icc 4 4⟩]⟩

def evecBw : Tube ℚ := ⟨0, 4, .icc 1 1, [⟨0, 4, .icc 1 1, .icc 1 1⟩]⟩

/-- **C113**: with the default options (propagation, slicing preserved), a call may leave the components with different slicings, as `t` is
reduced to one instant after the first component has been contracted, and the gates are then kept in the next components. The vector
cannot be given to the contractor again: for all `t` and `z` that are not empty the parallel inversion of codac_TubeVector.cpp:509-561 runs
over slices of different time domains. -/
theorem C113_slicing_fails : ∃ (y w : List (Tube ℚ)) (t t' : Itv ℚ) (z z' : Box ℚ) (y' w' : List (Tube ℚ)), vSameSlicing y = true ∧
    EvVec.interval (IArith.exact ℚ) 1000 ⊤ true true t z y w = some (t', z', y', w') ∧ t' ≠ ⊥ ∧ z'.isEmpty = false ∧ EvVec.isEmpty y' = false ∧
    y'.map (fun T => T.cells.length) = [1, 2] ∧ ∀ (t2 : Itv ℚ) (z2 : Box ℚ), t2.isEmpty = false → z2.isEmpty = false →
      EvVec.interval (IArith.exact ℚ) 1000 ⊤ true true t2 z2 y' w' = none ∧ EvVec.const y' t2 z2 = none := by
  have key : (EvVec.interval (IArith.exact ℚ) 1000 ⊤ true true (.icc 0 4) [.icc (-1) 1, .icc 2 2] [evecA, evecB] [evecAw, evecBw]).map
      (fun r => decide (r.1 ≠ ⊥) && !r.2.1.isEmpty && !EvVec.isEmpty r.2.2.1 && decide (r.2.2.1.map (fun T => T.cells.length) = [1, 2]) && !vSameSlicing r.2.2.1 && !EvVec.isEmpty r.2.2.2) = some true := by
    decide +kernel
  obtain ⟨⟨t', z', y', w'⟩, h1, h2⟩ := Option.map_eq_some_iff.mp key
  simp only [Bool.and_eq_true, Bool.not_eq_true', decide_eq_true_eq] at h2
  obtain ⟨⟨⟨⟨⟨k1, k2⟩, k3⟩, k4⟩, k5⟩, k6⟩ := h2
  refine ⟨[evecA, evecB], [evecAw, evecBw], _, t', _, z', y', w', by decide +kernel, h1, k1, k2, k3, k4, fun t2 z2 e1 e2 => ?_⟩
  have hv : vInvertList y' z2 t2 = none := by unfold vInvertList; rw [k5]; rfl
  constructor
  · unfold EvVec.interval
    rw [e1, e2, k3, k6, hv]
    split_ifs <;> simp_all
  · unfold EvVec.const
    rw [e1, e2, k3, hv]
    split_ifs <;> simp_all

end Codac.Props
