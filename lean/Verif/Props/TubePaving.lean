import Verif.Props.Paving
import Verif.Paving.TubePaving
import Verif.Tube.Examples

/-! # C34 (tube pavings), and the inversion of vectors of tubes (C06, C07) -/

set_option linter.unusedSectionVars false

namespace Codac.Props
open Codac Paving

section
variable {K : Type*} [Field K] [LinearOrder K] [IsStrictOrderedRing K]

/-- **C06**, vectors of tubes: if a trajectory vector of the tube vector takes its value in `y` at an instant `t` of the search interval, then `t` is in the
returned interval (also for a search interval reduced to one instant). -/
theorem C06_invert_vector {x : List (Tube K)} (hwf : ∀ X ∈ x, X.WF) (hgc : ∀ X ∈ x, X.GatesInEnvelopes) {fs : List (K → K)}
    (hf : VEncloses x fs) {y : Box K} {search : Itv K} {t : K} (ht : t ∈ search) (hy : InBox (fs.map (· t)) y) {I : Itv K}
    (hI : vInvert x y search = some I) : t ∈ I := by
  have hs : vSameSlicing x = true := by
    unfold vInvert at hI
    split at hI
    · assumption
    · cases hI
  obtain ⟨T, h⟩ := vecOk_of hs hwf
  exact vInvert_sound h hgc hf ht hy hI

/-- **C07**, vectors of tubes: such an instant is in one of the returned intervals. -/
theorem C07_invert_list_vector {x : List (Tube K)} (hwf : ∀ X ∈ x, X.WF) (hgc : ∀ X ∈ x, X.GatesInEnvelopes) {fs : List (K → K)}
    (hf : VEncloses x fs) {y : Box K} {search : Itv K} {t : K} (ht : t ∈ search) (hy : InBox (fs.map (· t)) y) {L : List (Itv K)}
    (hL : vInvertList x y search = some L) : ∃ I ∈ L, t ∈ I := by
  have hs : vSameSlicing x = true := by
    unfold vInvertList at hL
    split at hL
    · assumption
    · cases hL
  obtain ⟨T, h⟩ := vecOk_of hs hwf
  exact vInvertList_sound h hgc hf ht hy hL

/-- both inversions return something on components of the same slicing -/
theorem vInvert_defined {x : List (Tube K)} (hs : vSameSlicing x = true) (y : Box K) (search : Itv K) :
    (∃ I, vInvert x y search = some I) ∧ ∃ L, vInvertList x y search = some L := by
  simp only [vInvert, vInvertList, hs, if_true, Option.some.injEq, exists_eq', and_self]

/-! ### C34 -/

variable {bis : Box K → Box K × Box K} {x0 : Box K} {P : Paving K} {fuel : Nat} {p : K}

/-- **C34**, vector of tubes: the leaves of the paving tile the box; a leaf labelled `OUT` contains no value taken by a trajectory of the tube at an instant of
the time domain; for every value of a leaf labelled `IN` there is an instant at which the value belongs to the tube; the other leaves are
labelled `UNKNOWN` and are smaller than the precision -/
theorem C34_vector (hb : IsBis bis) (h0 : x0 ≠ []) {x : List (Tube K)} (hx : x.length = x0.length) (hwf : ∀ X ∈ x, X.WF) (hgc : ∀ X ∈ x, X.GatesInEnvelopes)
    (h : compute bis (tubeVectorTest x p) .UNKNOWN fuel x0 = some P) :
    Tiles P x0 ∧ ∀ q ∈ P.leaves 0 [],
      (q.value = .OUT ∧ ∀ fs t, VEncloses x fs → (∀ T ∈ x, T.t0 ≤ t ∧ t ≤ T.tf) → ¬ InBox (fs.map (· t)) q.box) ∨
      (q.value = .IN ∧ ∀ v, InBox v q.box → ∃ t, (∀ T ∈ x, T.t0 ≤ t ∧ t ≤ T.tf) ∧ List.Forall₂ (fun (T : Tube K) a => a ∈ T.evalAt t) x v) ∨
      (q.value = .UNKNOWN ∧ ShorterThan p q.box) := by
  obtain ⟨h1, h2⟩ := tiles_of hb h0 h
  refine ⟨h1, fun q hq => ?_⟩
  obtain ⟨h3, h4⟩ := h2 q hq
  unfold tubeVectorTest at h3
  cases hd : vDom x with
  | none => simp [hd] at h3
  | some d =>
    obtain ⟨t0, tf⟩ := d
    simp only [hd, Option.bind_eq_some_iff] at h3
    obtain ⟨L, hL, h3⟩ := h3
    have hs : vSameSlicing x = true := by
      unfold vInvertList at hL
      split at hL
      · assumption
      · cases hL
    obtain ⟨T, hT⟩ := vecOk_of hs hwf
    have hdom := hT.dom
    rw [hd, Option.some.injEq, Prod.mk.injEq] at hdom
    obtain ⟨rfl, rfl⟩ := hdom
    unfold classifyTubeVector at h3
    split_ifs at h3 with h5 h6 h7
    · left
      rw [Option.some.injEq] at h3
      refine ⟨h3.symm, fun fs t hf ht hv => ?_⟩
      obtain ⟨I, hI, _⟩ := C07_invert_list_vector hwf hgc hf (search := Itv.icc T.t0 T.tf) (Itv.mem_icc.mpr (ht T hT.mem)) hv hL
      rw [List.isEmpty_iff] at h5
      simp [h5] at hI
    · right; left
      rw [Option.some.injEq] at h3
      refine ⟨h3.symm, fun v hv => ?_⟩
      rw [List.any_eq_true] at h6
      obtain ⟨I, hI, h6⟩ := h6
      unfold tubeRowsIn at h6
      split at h6
      swap
      · cases h6
      rw [List.any_eq_true] at h6
      obtain ⟨r, hr, h6⟩ := h6
      have hr := List.mem_of_mem_drop ((List.takeWhile_sublist _).subset hr)
      obtain ⟨k, hk⟩ := List.mem_iff_getElem?.mp hr
      rw [hT.rows_get] at hk
      cases hsk : T.slices[k]? with
      | none => simp [hsk] at hk
      | some s =>
        simp only [hsk, Option.map_some, Option.some.injEq] at hk
        subst hk
        have hst := (hT.wf T hT.mem).tiles.mem_bounds (List.mem_of_getElem? hsk)
        obtain ⟨t, ht1, ht2⟩ := exists_between hst.2.1
        have hrow := hT.row hsk
        have key : ∀ (x : List (Tube K)) (r : List (Slice K)) (y : Box K) (v : List K), (∀ X ∈ x, X.WF) → x.length = y.length →
            List.Forall₂ (fun X s' => X.slices[k]? = some s' ∧ s'.lb = s.lb ∧ s'.ub = s.ub) x r →
            (List.zipWith (fun (I : Itv K) (s : Slice K) => decide (I ≤ s.cod)) y r).all id = true → InBox v y →
            (∀ T ∈ x, T.t0 ≤ t ∧ t ≤ T.tf) ∧ List.Forall₂ (fun (T : Tube K) a => a ∈ T.evalAt t) x v := by
          intro x r y v hwf hl hr ha hv
          induction hr generalizing y v with
          | nil =>
            cases y with
            | nil => cases hv; exact ⟨by simp, .nil⟩
            | cons _ _ => simp at hl
          | @cons X s' x r e hr ih =>
            cases y with
            | nil => simp at hl
            | cons Y y =>
              cases hv with
              | cons hv1 hv =>
                simp only [List.zipWith_cons_cons, List.all_cons, id, Bool.and_eq_true, decide_eq_true_eq] at ha
                obtain ⟨i1, i2⟩ := ih y _ (fun X hX => hwf X (by simp [hX])) (by simpa using hl) ha.2 hv
                have hX := hwf X (by simp)
                have hm := List.mem_of_getElem? e.1
                have hb := hX.tiles.mem_bounds hm
                have ht1' : s'.lb < t := e.2.1 ▸ ht1
                have ht2' : t < s'.ub := e.2.2 ▸ ht2
                refine ⟨?_, .cons ?_ i2⟩
                · intro Z hZ
                  rcases List.mem_cons.mp hZ with rfl | hZ
                  · exact ⟨le_trans hb.1 ht1'.le, le_trans ht2'.le hb.2.2⟩
                  · exact i1 Z hZ
                · rw [Tube.evalAt_interior hX hm ht1' ht2']
                  exact Itv.mem_of_le ha.1 hv1
        obtain ⟨k1, k2⟩ := key x _ q.box v hwf (by rw [hx, h4.length]) hrow h6 hv
        exact ⟨t, k1, k2⟩
    · rw [Option.some.injEq] at h3
      exact .inr (.inr ⟨h3.symm, shorterThan_of h7⟩)

theorem mem_codomain {T : Tube K} {s : Slice K} (hs : s ∈ T.slices) {a : K} (ha : a ∈ s.cod) : a ∈ T.codomain := by
  have : ∀ (l : List (Slice K)) (acc : Itv K), (a ∈ acc ∨ ∃ s ∈ l, a ∈ s.cod) → a ∈ l.foldl (fun acc s => acc ⊔ s.cod) acc := by
    intro l
    induction l with
    | nil => rintro acc (h | ⟨s, hs, _⟩); exact h; simp at hs
    | cons s l ih =>
      rintro acc (h | ⟨s', hs, h⟩)
      · exact ih _ (.inl (Itv.mem_sup_left h))
      · rcases List.mem_cons.mp hs with rfl | hs
        · exact ih _ (.inl (Itv.mem_sup_right h))
        · exact ih _ (.inr ⟨s', hs, h⟩)
  exact this _ _ (.inr ⟨s, hs, ha⟩)

theorem mem_takeWhile_lb {a b b' : K} {g : Itv K} {cs : List (Cell K)} (h : Codac.Tiles a cs b') {s : Slice K} (hs : s ∈ slicesFrom g cs)
    (hb : s.lb ≤ b) : s ∈ (slicesFrom g cs).takeWhile fun s => decide (s.lb ≤ b) := by
  induction cs generalizing a g with
  | nil => simp at hs
  | cons c cs ih =>
    obtain ⟨rfl, h3, h4⟩ := h
    rw [slicesFrom_cons, List.mem_cons] at hs
    rw [slicesFrom_cons, List.takeWhile_cons]
    rcases hs with rfl | hs
    · rw [if_pos (by simpa using hb)]; simp
    · have : c.lb ≤ b := le_trans (le_trans h3.le (h4.mem_bounds hs).1) hb
      rw [if_pos (by simpa using this)]
      exact List.mem_cons_of_mem _ (ih h4 hs)

/-- the gates are not narrower than the envelopes around them -/
def LooseGates (T : Tube K) : Prop :=
  ∀ s ∈ T.slices, ∀ s' ∈ T.slices, s.ub = s'.lb → s.outG = s.cod ⊓ s'.cod

/-- **C34**, tube of dimension one, box `[time] × [value]`: the leaves tile the box; a leaf labelled `OUT` contains no point `(t, f(t))` of a
trajectory `f` of the tube; a point `(t, a)` of a leaf labelled `IN` belongs to the tube if `t` is not the time of a gate, or if the gates are as wide as
the neighbouring envelopes and `t` is not the first instant of the leaf; the other leaves are labelled `UNKNOWN` and are smaller than the precision.
What is missing: the points of an `IN` leaf at the time of a gate (`C34_gate_fails`). -/
theorem C34_tube_partial (hb : IsBis bis) (h0 : x0.length = 2) {T : Tube K} (hwf : T.WF) (hgc : T.GatesInEnvelopes)
    (h : compute bis (classifyTube T p) .UNKNOWN fuel x0 = some P) :
    Tiles P x0 ∧ ∀ q ∈ P.leaves 0 [],
      (q.value = .OUT ∧ ∀ f t, T.Encloses f → T.t0 ≤ t → t ≤ T.tf → ¬ InBox [t, f t] q.box) ∨
      (q.value = .IN ∧ ∀ t a, InBox [t, a] q.box → T.t0 ≤ t ∧ t ≤ T.tf ∧
        ((∀ s ∈ T.slices, t ≠ s.lb ∧ t ≠ s.ub) → a ∈ T.evalAt t) ∧
        (LooseGates T → (∃ t', t' < t ∧ InBox [t', a] q.box) → t < T.tf → a ∈ T.evalAt t)) ∨
      (q.value = .UNKNOWN ∧ ShorterThan p q.box) := by
  obtain ⟨h1, h2⟩ := tiles_of hb (by rintro rfl; simp at h0) h
  refine ⟨h1, fun q hq => ?_⟩
  obtain ⟨h3, h4⟩ := h2 q hq
  have hl := h4.length.trans h0
  match hqb : q.box, hl with
  | [d, w], _ =>
    rw [hqb] at h3
    simp only [classifyTube] at h3
    by_cases hout : ((Itv.icc T.t0 T.tf ⊓ d).isEmpty || (T.codomain ⊓ w).isEmpty || (w ⊓ T.evalItv (Itv.icc T.t0 T.tf ⊓ d)).isEmpty) = true
    · rw [if_pos hout, Option.some.injEq] at h3
      left
      refine ⟨h3.symm, fun f t hf ht1 ht2 hv => ?_⟩
      simp only [InBox, List.forall₂_cons, List.forall₂_nil_left_iff, and_true] at hv
      simp only [Bool.or_eq_true, Itv.isEmpty_iff] at hout
      have hD : t ∈ Itv.icc T.t0 T.tf ⊓ d := Itv.mem_inf.mpr ⟨Itv.mem_icc.mpr ⟨ht1, ht2⟩, hv.1⟩
      rcases hout with (hout | hout) | hout
      · rw [hout] at hD; cases hD
      · have hm : f t ∈ T.codomain := by
          rcases lt_or_eq_of_le ht2 with hlt | heq
          · obtain ⟨s, hs, hs1, hs2⟩ := hwf.tiles.exists_slice (g := T.g0) ht1 hlt
            exact mem_codomain hs ((hf s hs).mem_cod (hgc s hs) hs1 hs2.le)
          · obtain ⟨s, hs, hs1, hs2⟩ := hwf.tiles.exists_slice' (g := T.g0) (t := t) (by rw [heq]; exact hwf.lt) ht2
            exact mem_codomain hs ((hf s hs).mem_cod (hgc s hs) hs1.le hs2)
        have : f t ∈ T.codomain ⊓ w := Itv.mem_inf.mpr ⟨hm, hv.2⟩
        rw [hout] at this; cases this
      · have : f t ∈ w ⊓ T.evalItv (Itv.icc T.t0 T.tf ⊓ d) := Itv.mem_inf.mpr ⟨hv.2, evalItv_mem hwf hgc hf hD⟩
        rw [hout] at this; cases this
    · rw [if_neg hout] at h3
      right
      split at h3
      · rename_i hin
        rw [Option.some.injEq] at h3
        left
        refine ⟨h3.symm, fun t a hv => ?_⟩
        match d, hin, hv with
        | .mk (some a0) (some b0) hab, hin, hv =>
          simp only [InBox, List.forall₂_cons, List.forall₂_nil_left_iff, and_true] at hv
          simp only [tubeIn, Bool.and_eq_true, decide_eq_true_eq] at hin
          obtain ⟨⟨i1, i2⟩, i3⟩ := hin
          have htd := Itv.mem_icc.mp (Itv.mem_of_le i1 hv.1)
          have ht' : a0 ≤ t ∧ t ≤ b0 := hv.1
          have ha0 := (Itv.mem_icc.mp (Itv.mem_of_le i1 (show a0 ∈ _ from ⟨le_refl _, hab⟩)))
          obtain ⟨a', g', cs', e1, e2, e3, e4, e5, e6, e7, e8, e9, e10⟩ := seek_suffix (g := T.g0) hwf.tiles hwf.ne ha0.1
          unfold slicesContain at i3
          rw [Tube.slices, e1, List.all_eq_true] at i3
          have hcod : ∀ s ∈ T.slices, a0 < s.ub → s.lb ≤ t → a ∈ s.cod := by
            intro s hs hs1 hs2
            have := i3 s (mem_takeWhile_lb e3 (e8 s hs hs1) (le_trans hs2 ht'.2))
            exact Itv.mem_of_le (by simpa using this) hv.2
          refine ⟨htd.1, htd.2, ?_, ?_⟩
          · intro hg
            have : ∃ s ∈ T.slices, s.lb < t ∧ t < s.ub := by
              rcases lt_or_eq_of_le htd.2 with hlt | heq
              · obtain ⟨s, hs, hs1, hs2⟩ := hwf.tiles.exists_slice (g := T.g0) htd.1 hlt
                exact ⟨s, hs, lt_of_le_of_ne hs1 (hg s hs).1.symm, hs2⟩
              · obtain ⟨s, hs, hs1, hs2⟩ := hwf.tiles.exists_slice' (g := T.g0) (t := t) (by rw [heq]; exact hwf.lt) htd.2
                exact ⟨s, hs, hs1, lt_of_le_of_ne hs2 (hg s hs).2⟩
            obtain ⟨s, hs, hs1, hs2⟩ := this
            rw [Tube.evalAt_interior hwf hs hs1 hs2]
            exact hcod s hs (lt_of_le_of_lt ht'.1 hs2) hs1.le
          · rintro hg ⟨t', ht1, hv'⟩ htf
            simp only [InBox, List.forall₂_cons, List.forall₂_nil_left_iff, and_true] at hv'
            have hat : a0 < t := lt_of_le_of_lt hv'.1.1 ht1
            obtain ⟨s, hs, hs1, hs2⟩ := hwf.tiles.exists_slice (g := T.g0) htd.1 htf
            rcases lt_or_eq_of_le hs1 with hs1 | rfl
            · rw [Tube.evalAt_interior hwf hs hs1 hs2]
              exact hcod s hs (lt_of_le_of_lt ht'.1 hs2) hs1.le
            · obtain ⟨s', hs', hs1', hs2'⟩ := hwf.tiles.exists_slice' (g := T.g0) (t := s.lb) (lt_of_le_of_lt ha0.1 hat) htd.2
              have hub : s'.ub = s.lb := by
                refine le_antisymm ?_ hs2'
                by_contra hc
                exact hwf.tiles.no_interior_lb hs' hs hs1' (not_le.mp hc)
              rw [← hub, Tube.evalAt_ub hwf hs', hg s' hs' s hs hub]
              exact Itv.mem_inf.mpr ⟨hcod s' hs' (lt_of_lt_of_le hat hs2') hs1'.le, hcod s hs (lt_trans hat hs2) (le_refl _)⟩
      · split at h3
        · rename_i hm
          rw [Option.some.injEq] at h3
          exact .inr ⟨h3.symm, shorterThan_of hm⟩
        · cases h3

/-- C34: for a bounded box and a positive precision the computation stops, in both cases -/
theorem C34_terminates [Archimedean K] {ρ : K} (hb : IsBis bis) (hl : IsLargestFirst ρ bis) (hρ0 : 0 ≤ ρ) (hρ1 : ρ < 1)
    (hx0 : ∀ I ∈ x0, I.isUnbounded = false) (hp : 0 < p) :
    (∀ x : List (Tube K), x0 ≠ [] → vSameSlicing x = true → ∃ N, ∀ fuel, N ≤ fuel → ∃ P, compute bis (tubeVectorTest x p) .UNKNOWN fuel x0 = some P) ∧
    (∀ T : Tube K, x0.length = 2 → ∃ N, ∀ fuel, N ≤ fuel → ∃ P, compute bis (classifyTube T p) .UNKNOWN fuel x0 = some P) := by
  constructor
  · intro x h0 hs
    refine ⟨Sivia.boxRank ρ p x0 + 1, fun fuel hf => compute_total hb hl hρ0 hρ1 hp (List.length_pos_iff.mpr h0) ?_ rfl hx0 (by omega)⟩
    intro X _ hn
    by_contra hm
    simp only [Bool.not_eq_false] at hm
    unfold tubeVectorTest at hn
    have hd : ∃ d, vDom x = some d := by
      cases x with
      | nil => simp [vSameSlicing] at hs
      | cons T l => exact ⟨_, rfl⟩
    obtain ⟨d, hd⟩ := hd
    obtain ⟨_, L, hL⟩ := vInvert_defined hs X (Itv.icc d.1 d.2)
    simp only [hd, hL, Option.bind_some, classifyTubeVector, hm] at hn
    split_ifs at hn
  · intro T h0
    refine ⟨Sivia.boxRank ρ p x0 + 1, fun fuel hf => compute_total hb hl hρ0 hρ1 hp (by omega) ?_ rfl hx0 (by omega)⟩
    intro X hX hn
    by_contra hm
    simp only [Bool.not_eq_false] at hm
    match X, hX.trans h0 with
    | [d, w], _ =>
      simp only [classifyTube, hm] at hn
      split_ifs at hn

end

/-! ### Witnesses -/

open Codac.Ex

/-- two slices `[0,1]`, `[1,2]` of envelope `[0,2]`, with the gate `[1,1]` at time 1 -/
def pavT : Tube ℚ := ⟨0, 2, I 0 2, [⟨0, 1, I 0 2, I 1 1⟩, ⟨1, 2, I 0 2, I 0 2⟩]⟩

theorem pavT_wf : pavT.WF := ⟨by simp [pavT], by simp [pavT, Codac.Tiles]⟩

theorem pavT_gc : pavT.GatesInEnvelopes := by
  intro s hs
  have : s = ⟨0, 1, I 0 2, I 0 2, I 1 1⟩ ∨ s = ⟨1, 2, I 0 2, I 1 1, I 0 2⟩ := by
    simpa [pavT, Tube.slices, slicesFrom] using hs
  rcases this with rfl | rfl <;> decide +kernel

/-- **C34** does not hold at the time of a gate: the box `[1/2,3/2] × [1/2,3/2]` is labelled `IN`, it contains `(1, 1/2)`, and the tube is `[1,1]`
at time 1. -/
theorem C34_gate_fails : pavT.WF ∧ pavT.GatesInEnvelopes ∧
    (compute (largestFirst (1/2 : ℚ)) (classifyTube pavT 1) .UNKNOWN 1 [I (1/2) (3/2), I (1/2) (3/2)]).map
      (fun P => (P.leaves 0 []).map fun q => (q.box, q.value)) = some [([I (1/2) (3/2), I (1/2) (3/2)], .IN)] ∧
    InBox [1, 1/2] [I (1/2) (3/2), I (1/2) (3/2)] ∧ ¬ (1/2 : ℚ) ∈ pavT.evalAt 1 := by
  refine ⟨pavT_wf, pavT_gc, by decide +kernel, ?_, by decide +kernel⟩
  simp only [InBox, List.forall₂_cons, List.forall₂_nil_left_iff, and_true, Itv.mem_icc]
  norm_num

/-- the leaves of a paving around the tube `T` of `Verif.Tube.Examples`, with the three labels -/
example : (compute (largestFirst (1/2 : ℚ)) (classifyTube T (5/2)) .UNKNOWN 10 [I 0 4, I 0 6]).map
    (fun P => (P.leaves 0 []).map fun q => (q.box, q.value)) =
    some [([I 0 2, I 0 (3/2)], 1), ([I 0 2, I (3/2) 3], 1), ([I 2 4, I 0 (3/2)], 2), ([I 2 4, I (3/2) 3], 1),
      ([I 0 2, I 3 (9/2)], 1), ([I 0 2, I (9/2) 6], 2), ([I 2 4, I 3 (9/2)], 4), ([I 2 4, I (9/2) 6], 1)] := by decide +kernel

/-- a second component with the slicing of `T` -/
def pavT2 : Tube ℚ := ⟨0, 4, I 5 6, [⟨0, 1, I 5 6, I 5 6⟩, ⟨1, 2, I 5 8, I 5 6⟩, ⟨2, 4, I 5 6, I 5 6⟩]⟩

example : pavT2.WF := ⟨by simp [pavT2], by simp [pavT2, Codac.Tiles]; norm_num⟩

/-- inversion of a vector of tubes: interval version (also at the instant of a gate), list version, and a paving with the three labels -/
example : vInvert [T, pavT2] [I 0 1, I 5 7] (I 0 4) = some (I 0 2) ∧ vInvert [T, pavT2] [I 0 1, I 5 7] (I 1 1) = some (I 1 1) ∧
    vInvertList [T, pavT2] [I 0 6, I 7 8] (I 0 4) = some [I 1 2] ∧
    (compute (largestFirst (1/2 : ℚ)) (tubeVectorTest [T, pavT2] 2) .UNKNOWN 10 [I 1 3, I 5 9]).map
      (fun P => (P.leaves 0 []).map fun q => (q.box, q.value)) =
      some [([I 1 3, I 5 7], 4), ([I 1 2, I 7 8], 4), ([I 1 2, I 8 9], 1), ([I 2 3, I 7 8], 4), ([I 2 3, I 8 9], 1)] := by
  decide +kernel

end Codac.Props
