import Verif.Paving.DegreeSound
import Verif.Paving.DegreeMap
import Verif.Props.Paving
import Verif.Arith
import Mathlib.Data.Rat.Cast.Order
import Mathlib.Algebra.Order.Archimedean.Real.Basic

/-!
# C97: existence of a zero by the topological degree (`ConnectedSubset::zero_proven`)
-/

set_option linter.unusedSectionVars false

namespace Codac.Props
open Codac Codac.Paving Codac.Deg

/-- the values given to the leaves by `SIVIAPaving::compute` or `TPlane::compute_detections`; no `IN` leaf touches an `OUT` leaf -/
def Labelled {K : Type*} [LinearOrder K] (P : Paving K) : Prop :=
  (∀ q ∈ P.leaves 0 [], q.value = SetValue.UNKNOWN ∨ q.value = SetValue.OUT ∨ q.value = SetValue.IN) ∧
    ∀ q ∈ P.leaves 0 [], ∀ c ∈ P.leaves 0 [], q.value = SetValue.IN → c.value = SetValue.OUT → ¬ ∃ v, InBox v q.box ∧ InBox v c.box

/-- a point of the plane in a box -/
def PlaneIn {K : Type*} [LinearOrder K] (z : K × K) (X : Box K) : Prop := InBox [z.1, z.2] X

/-- the value of a function at a point is in the evaluation of a box -/
def EnclAt {K : Type*} [LinearOrder K] (F : Box K → Itv K × Itv K) (f : K × K → K × K) (X : Box K) (z : K × K) : Prop :=
  (f z).1 ∈ (F X).1 ∧ (f z).2 ∈ (F X).2

theorem good_of {P : Paving ℝ} (hP : P.Cut) (hL : Labelled P) {flags : List (Leaf ℝ)} {fuel : Nat} {R : List (List (Leaf ℝ))}
    (hfuel : (selected P 5).length + 1 ≤ fuel) (hR : connectedSubsets fuel 5 0 [] P 0 P flags = some R) {s : List (Leaf ℝ)} (hs : s ∈ R) :
    Subset.Good ⟨s, P⟩ := by
  obtain ⟨R', h1, h2, h3, h4, h5⟩ := C33_connected_subsets_partial (val := 5) (by norm_num : 0 < 2) (cut_wf hP) flags
  obtain rfl := Option.some.inj (hR.symm.trans (h1 fuel hfuel))
  have hnd : R.flatten.Nodup := h2.nodup_iff.2 (leaves_nodup.filter _)
  have hsel : ∀ u ∈ s, u ∈ selected P 5 := fun u hu => h2.mem_iff.1 (List.mem_flatten.2 ⟨s, hs, hu⟩)
  have hval : ∀ u ∈ s, u.value = SetValue.UNKNOWN ∨ u.value = SetValue.IN := by
    intro u hu
    obtain ⟨k1, k2⟩ := List.mem_filter.1 (hsel u hu)
    rcases hL.1 u k1 with h | h | h
    · exact Or.inl h
    · rw [h] at k2; exact absurd k2 (by decide)
    · exact Or.inr h
  have hsym : Std.Symm fun s t : List (Leaf ℝ) => ∀ a ∈ s, ∀ b ∈ t, ¬ Touch a b := by
    refine ⟨?_⟩
    intro x y hxy a ha b hb hab
    obtain ⟨v, v1, v2⟩ := hab
    exact hxy b hb a ha ⟨v, v2, v1⟩
  refine ⟨hP, (List.nodup_flatten.1 hnd).1 s hs, fun u hu => (List.mem_filter.1 (hsel u hu)).1, ?_, ?_, ?_⟩
  · intro u hu
    rcases hval u hu with h | h <;> rw [h] <;> decide
  · intro u hu c hc ht
    rcases hL.1 c hc with h | h | h
    · left
      have : c ∈ R.flatten := h2.mem_iff.2 (List.mem_filter.2 ⟨hc, by rw [h]; decide⟩)
      obtain ⟨t, ht', hct⟩ := List.mem_flatten.1 this
      by_cases e : s = t
      · rw [e]; exact hct
      · exact absurd ht (h5.forall hs ht' e u hu c hct)
    · right; rw [h]; decide
    · left
      have : c ∈ R.flatten := h2.mem_iff.2 (List.mem_filter.2 ⟨hc, by rw [h]; decide⟩)
      obtain ⟨t, ht', hct⟩ := List.mem_flatten.1 this
      by_cases e : s = t
      · rw [e]; exact hct
      · exact absurd ht (h5.forall hs ht' e u hu c hct)
  · intro u hu c hc ho ht
    rcases hval u hu with h | h
    · rw [h]; decide
    · have hco : c.value = SetValue.OUT := by
        rcases hL.1 c hc with h' | h' | h'
        · rw [h'] at ho; exact absurd ho (by decide)
        · exact h'
        · rw [h'] at ho; exact absurd ho (by decide)
      exact absurd ht (hL.2 u (List.mem_filter.1 (hsel u hu)).1 c hc h hco)

theorem planeIn_iff {S : Subset ℝ} (h : S.Good) {A : Leaf ℝ} (hA : A ∈ S.root.leaves 0 []) {z : ℝ × ℝ} : PlaneIn z A.box ↔ (rect A).Mem z := by
  unfold PlaneIn
  rw [(h.facts.leaf A hA).2]
  exact inBox_box

/-- C97: when `zero_proven` returns `true` on a connected subset of a paving of the plane (obtained by cutting a bounded box), every function which is
continuous on the subset, and enclosed by the given interval function on the `OUT` boxes around it, has a zero on the subset; provided that the interval
function itself excludes a zero on each of these `OUT` boxes. Missing: this last condition is not checked by the code, and without it the answer can be
wrong (`C97_fails`). A run stopped by a failed assertion (`none`) is not concerned. -/
theorem C97_zero_proven_partial {P : Paving ℝ} (hP : P.Cut) (hL : Labelled P) {flags : List (Leaf ℝ)} {fuel : Nat} {R : List (List (Leaf ℝ))}
    (hfuel : (selected P 5).length + 1 ≤ fuel) (hR : connectedSubsets fuel 5 0 [] P 0 P flags = some R) {s : List (Leaf ℝ)} (hs : s ∈ R)
    {F : Box ℝ → Itv ℝ × Itv ℝ} {f : ℝ × ℝ → ℝ × ℝ} (hf : ContinuousOn f {z | ∃ u ∈ s, PlaneIn z u.box})
    (hF : ∀ c ∈ P.leaves 0 [], c.value = SetValue.OUT → ∀ u ∈ s, ∀ z, PlaneIn z u.box → PlaneIn z c.box → EnclAt F f c.box z)
    (h0 : ∀ c ∈ P.leaves 0 [], c.value = SetValue.OUT → (∃ u ∈ s, Touch u c) → ¬ ((0 : ℝ) ∈ (F c.box).1 ∧ (0 : ℝ) ∈ (F c.box).2))
    (h : Subset.zeroProven F ⟨s, P⟩ = some true) : ∃ u ∈ s, ∃ z, PlaneIn z u.box ∧ f z = (0, 0) := by
  have hg := good_of hP hL hfuel hR hs
  by_contra hc
  push Not at hc
  have hreg : region rect s = {z | ∃ u ∈ s, PlaneIn z u.box} := by
    ext z
    constructor
    · rintro ⟨u, hu, hz⟩; exact ⟨u, hu, (planeIn_iff hg (hg.sub u hu)).2 hz⟩
    · rintro ⟨u, hu, hz⟩; exact ⟨u, hu, (planeIn_iff hg (hg.sub u hu)).1 hz⟩
  have hout : ∀ c ∈ Subset.outs ⟨s, P⟩, c ∈ P.leaves 0 [] ∧ c.value = SetValue.OUT := by
    intro c hc
    obtain ⟨k1, k2⟩ := List.mem_filter.1 hc
    refine ⟨k1, ?_⟩
    rcases hL.1 c k1 with h' | h' | h'
    · rw [h'] at k2; exact absurd k2 (by decide)
    · exact h'
    · rw [h'] at k2; exact absurd k2 (by decide)
  have he : Encl F ⟨s, P⟩ (fun z => (f z).1) (fun z => (f z).2) := by
    constructor
    · rintro c hco z ⟨u, hu, hz⟩ hm
      exact hF c (hout c hco).1 (hout c hco).2 u hu z ((planeIn_iff hg (hg.sub u hu)).2 hz) ((planeIn_iff hg (hout c hco).1).2 hm)
    · rintro c hco ⟨z, ⟨u, hu, hz⟩, hm⟩
      exact h0 c (hout c hco).1 (hout c hco).2 ⟨u, hu, [z.1, z.2], (planeIn_iff hg (hg.sub u hu)).2 hz, (planeIn_iff hg (hout c hco).1).2 hm⟩
  unfold Subset.zeroProven at h
  cases hd : Subset.degree F ⟨s, P⟩ with
  | none => rw [hd] at h; cases h
  | some d =>
    have hz := degree_zero hg (f₁ := fun z => (f z).1) (f₂ := fun z => (f z).2) (by rw [hreg]; exact continuous_fst.comp_continuousOn hf)
      (by rw [hreg]; exact continuous_snd.comp_continuousOn hf) he (by
        rintro z ⟨u, hu, hz⟩ ⟨e1, e2⟩
        exact hc u hu z ((planeIn_iff hg (hg.sub u hu)).2 hz) (Prod.ext e1 e2)) hd
    rw [hd, hz] at h
    exact absurd (Option.some.inj h) (by decide)

/-! ### Pavings obtained by bisections -/

section
variable {K : Type*} [Field K] [LinearOrder K] [IsStrictOrderedRing K]

theorem inf_below {a b m : K} (h : m ≤ b) : Itv.icc a b ⊓ Itv.ofBounds none (some m) = Itv.icc a m := by
  have : Nonempty K := ⟨0⟩
  refine Itv.ext_mem fun x => ?_
  simp only [Itv.mem_inf, Itv.mem_icc, Itv.mem_ofBounds, loLe_none, leHi_some, true_and]
  exact ⟨fun hx => ⟨hx.1.1, hx.2⟩, fun hx => ⟨⟨hx.1, hx.2.trans h⟩, hx.2⟩⟩

theorem inf_above {a b m : K} (h : a ≤ m) : Itv.icc a b ⊓ Itv.ofBounds (some m) none = Itv.icc m b := by
  have : Nonempty K := ⟨0⟩
  refine Itv.ext_mem fun x => ?_
  simp only [Itv.mem_inf, Itv.mem_icc, Itv.mem_ofBounds, leHi_none, loLe_some, and_true]
  exact ⟨fun hx => ⟨hx.2, hx.1.2⟩, fun hx => ⟨⟨h.trans hx.1, hx.2⟩, hx.1⟩⟩

theorem largestFirst_cuts {ratio : K} (h0 : 0 < ratio) (h1 : ratio < 1) {x0 x1 y0 y1 : K} (hx : x0 < x1) (hy : y0 < y1) :
    ∃ m, (x0 < m ∧ m < x1 ∧ largestFirst ratio [Itv.icc x0 x1, Itv.icc y0 y1] = ([Itv.icc x0 m, Itv.icc y0 y1], [Itv.icc m x1, Itv.icc y0 y1])) ∨
      (y0 < m ∧ m < y1 ∧ largestFirst ratio [Itv.icc x0 x1, Itv.icc y0 y1] = ([Itv.icc x0 x1, Itv.icc y0 m], [Itv.icc x0 x1, Itv.icc m y1])) := by
  have mid : ∀ {a b : K}, a < b → (Itv.icc a b).cut ratio = a + ratio * (b - a) ∧ a < a + ratio * (b - a) ∧ a + ratio * (b - a) < b := by
    intro a b hab
    refine ⟨by rw [Itv.icc_eq_mk hab.le]; rfl, ?_, ?_⟩
    · have := mul_pos h0 (sub_pos.2 hab); linarith
    · have := mul_lt_mul_of_pos_right h1 (sub_pos.2 hab); linarith
  have hi : largestIdx [Itv.icc x0 x1, Itv.icc y0 y1] = 0 ∨ largestIdx [Itv.icc x0 x1, Itv.icc y0 y1] = 1 := by
    have := largestIdx_lt (X := [Itv.icc x0 x1, Itv.icc y0 y1]) (by simp)
    simp only [List.length_cons, List.length_nil] at this
    omega
  rcases hi with hi | hi
  · obtain ⟨e, k1, k2⟩ := mid hx
    refine ⟨_, Or.inl ⟨k1, k2, ?_⟩⟩
    unfold largestFirst
    simp only [hi, List.getD_cons_zero, List.set_cons_zero, Itv.below, Itv.above, e, inf_below k2.le, inf_above k1.le]
  · obtain ⟨e, k1, k2⟩ := mid hy
    refine ⟨_, Or.inr ⟨k1, k2, ?_⟩⟩
    unfold largestFirst
    simp only [hi, List.getD_cons_zero, List.getD_cons_succ, List.set_cons_zero, List.set_cons_succ, Itv.below, Itv.above, e, inf_below k2.le,
      inf_above k1.le]

/-- C97: the pavings of a bounded box of the plane built by bisections of the largest side satisfy the first condition of
`C97_zero_proven_partial` -/
theorem C97_bisections {ratio : K} (h0 : 0 < ratio) (h1 : ratio < 1) {cl : Box K → Option SetValue} {val : SetValue} {fuel : Nat} {x0 x1 y0 y1 : K}
    (hx : x0 < x1) (hy : y0 < y1) {P : Paving K} (h : compute (largestFirst ratio) cl val fuel [Itv.icc x0 x1, Itv.icc y0 y1] = some P) :
    P.Cut ∧ P.box = [Itv.icc x0 x1, Itv.icc y0 y1] := by
  refine ⟨?_, compute_box h⟩
  induction fuel generalizing x0 x1 y0 y1 P with
  | zero => cases h
  | succ n ih =>
    rw [compute] at h
    cases hc : cl [Itv.icc x0 x1, Itv.icc y0 y1] with
    | some v =>
      rw [hc] at h
      obtain rfl := Option.some.inj h
      exact ⟨x0, x1, y0, y1, hx, hy, rfl⟩
    | none =>
      rw [hc] at h
      simp only at h
      obtain ⟨m, hm⟩ := largestFirst_cuts h0 h1 hx hy
      cases hl : compute (largestFirst ratio) cl val n (largestFirst ratio [Itv.icc x0 x1, Itv.icc y0 y1]).1 with
      | none => rw [hl] at h; cases h
      | some l =>
        cases hr : compute (largestFirst ratio) cl val n (largestFirst ratio [Itv.icc x0 x1, Itv.icc y0 y1]).2 with
        | none => rw [hl, hr] at h; cases h
        | some r =>
          rw [hl, hr] at h
          obtain rfl := Option.some.inj h
          rcases hm with ⟨m1, m2, e⟩ | ⟨m1, m2, e⟩
          · rw [e] at hl hr
            exact ⟨ih m1 hy hl, ih m2 hy hr, x0, x1, y0, y1, m, rfl, Or.inl ⟨m1, m2, hy, compute_box hl, compute_box hr⟩⟩
          · rw [e] at hl hr
            exact ⟨ih hx m1 hl, ih hx m2 hr, x0, x1, y0, y1, m, rfl, Or.inr ⟨m1, m2, hx, compute_box hl, compute_box hr⟩⟩

end

/-! ### Two pavings: from the rational to the real numbers -/

/-- the rational numbers among the real numbers -/
theorem castMono : StrictMono (fun q : ℚ => (q : ℝ)) := fun _ _ h => Rat.cast_lt.2 h

theorem cut_mapB {P : Paving ℚ} (h : P.Cut) : (P.mapB (fun q : ℚ => (q : ℝ)) castMono).Cut := by
  have lt : ∀ {a b : ℚ}, a < b → (a : ℝ) < (b : ℝ) := fun h => Rat.cast_lt.2 h
  induction P with
  | leaf b v =>
    obtain ⟨x0, x1, y0, y1, h1, h2, rfl⟩ := h
    refine ⟨x0, x1, y0, y1, lt h1, lt h2, ?_⟩
    simp only [Box.mapB, List.map_cons, List.map_nil, Itv.mapB_icc]
  | node b v l r ihl ihr =>
    obtain ⟨hl, hr, x0, x1, y0, y1, m, rfl, h2⟩ := h
    refine ⟨ihl hl, ihr hr, x0, x1, y0, y1, m, ?_, ?_⟩
    · simp only [Box.mapB, List.map_cons, List.map_nil, Itv.mapB_icc]
    · rw [mapB_box, mapB_box]
      rcases h2 with ⟨m1, m2, m3, m4, m5⟩ | ⟨m1, m2, m3, m4, m5⟩
      · refine Or.inl ⟨lt m1, lt m2, lt m3, ?_, ?_⟩
        · rw [m4]; simp only [Box.mapB, List.map_cons, List.map_nil, Itv.mapB_icc]
        · rw [m5]; simp only [Box.mapB, List.map_cons, List.map_nil, Itv.mapB_icc]
      · refine Or.inr ⟨lt m1, lt m2, lt m3, ?_, ?_⟩
        · rw [m4]; simp only [Box.mapB, List.map_cons, List.map_nil, Itv.mapB_icc]
        · rw [m5]; simp only [Box.mapB, List.map_cons, List.map_nil, Itv.mapB_icc]

/-- a box `[a,b]×[-1,1]` without conclusion, surrounded by four `OUT` boxes: on the left from `l`, on the right up to `r`, below from `-3`, above up
to `3` -/
def crossQ (l a b r : ℚ) : Paving ℚ :=
  .node [.icc l r, .icc (-3) 3] 1 (.leaf [.icc l a, .icc (-3) 3] 2)
    (.node [.icc a r, .icc (-3) 3] 1
      (.node [.icc a b, .icc (-3) 3] 1 (.leaf [.icc a b, .icc (-3) (-1)] 2)
        (.node [.icc a b, .icc (-1) 3] 1 (.leaf [.icc a b, .icc (-1) 1] 1) (.leaf [.icc a b, .icc 1 3] 2)))
      (.leaf [.icc b r, .icc (-3) 3] 2))

theorem crossQ_cut {l a b r : ℚ} (h1 : l < a) (h2 : a < b) (h3 : b < r) : (crossQ l a b r).Cut := by
  have n1 : (-3 : ℚ) < 3 := by norm_num
  have n2 : (-3 : ℚ) < -1 := by norm_num
  have n3 : (-1 : ℚ) < 3 := by norm_num
  have n4 : (-1 : ℚ) < 1 := by norm_num
  have n5 : (1 : ℚ) < 3 := by norm_num
  refine ⟨⟨_, _, _, _, h1, n1, rfl⟩, ⟨⟨⟨_, _, _, _, h2, n2, rfl⟩, ⟨⟨_, _, _, _, h2, n4, rfl⟩, ⟨_, _, _, _, h2, n5, rfl⟩, a, b, -1, 3, 1, rfl, ?_⟩,
    a, b, -3, 3, -1, rfl, ?_⟩, ⟨_, _, _, _, h3, n1, rfl⟩, a, r, -3, 3, b, rfl, ?_⟩, l, r, -3, 3, a, rfl, ?_⟩
  · exact Or.inr ⟨n4, n5, h2, rfl, rfl⟩
  · exact Or.inr ⟨n2, n3, h2, rfl, rfl⟩
  · exact Or.inl ⟨h2, h3, n1, rfl, rfl⟩
  · exact Or.inl ⟨h1, h2.trans h3, n1, rfl, rfl⟩

/-- the same paving with real bounds -/
noncomputable def crossR (l a b r : ℚ) : Paving ℝ := (crossQ l a b r).mapB (fun q : ℚ => (q : ℝ)) castMono

/-- its box without conclusion -/
def crossItem (a b : ℚ) : Leaf ℚ := ⟨0, [true, false, true, false], [.icc a b, .icc (-1) 1], 1⟩

theorem cross_leaves (l a b r : ℚ) : (crossR l a b r).leaves 0 [] = List.map (Leaf.mapB (fun q : ℚ => (q : ℝ)) castMono)
    [⟨0, [false], [.icc l a, .icc (-3) 3], 2⟩, ⟨0, [true, false, false], [.icc a b, .icc (-3) (-1)], 2⟩, crossItem a b,
      ⟨0, [true, false, true, true], [.icc a b, .icc 1 3], 2⟩, ⟨0, [true, true], [.icc b r, .icc (-3) 3], 2⟩] := by
  unfold crossR
  rw [mapB_leaves]
  rfl

theorem cross_labelled (l a b r : ℚ) : Labelled (crossR l a b r) := by
  have key : ∀ q ∈ (crossR l a b r).leaves 0 [], q.value = SetValue.UNKNOWN ∨ q.value = SetValue.OUT := by
    rw [cross_leaves]
    intro q hq
    simp only [List.map_cons, List.map_nil, List.mem_cons, List.not_mem_nil, or_false] at hq
    rcases hq with rfl | rfl | rfl | rfl | rfl
    · exact Or.inr rfl
    · exact Or.inr rfl
    · exact Or.inl rfl
    · exact Or.inr rfl
    · exact Or.inr rfl
  refine ⟨fun q hq => ?_, fun q hq c _ h _ => ?_⟩
  · rcases key q hq with h | h
    · exact Or.inl h
    · exact Or.inr (Or.inl h)
  · rcases key q hq with h' | h' <;> rw [h'] at h <;> exact absurd h (by decide)

/-- the subset of the box without conclusion -/
theorem cross_subsets (l a b r : ℚ) (h1 : l < a) (h2 : a < b) (h3 : b < r) :
    ∃ R, connectedSubsets 2 5 0 [] (crossR l a b r) 0 (crossR l a b r) [] = some R ∧ (selected (crossR l a b r) 5).length + 1 ≤ 2 ∧
      [(crossItem a b).mapB (fun q : ℚ => (q : ℝ)) castMono] ∈ R := by
  have hcut : (crossR l a b r).Cut := cut_mapB (crossQ_cut h1 h2 h3)
  obtain ⟨R, k1, k2, k3, k4, k5⟩ := C33_connected_subsets_partial (val := 5) (by norm_num : 0 < 2) (cut_wf hcut) []
  have hsel : selected (crossR l a b r) 5 = [(crossItem a b).mapB (fun q : ℚ => (q : ℝ)) castMono] := by
    unfold selected
    rw [cross_leaves]
    simp only [List.map_cons, List.map_nil]
    rw [List.filter_cons_of_neg, List.filter_cons_of_neg, List.filter_cons_of_pos, List.filter_cons_of_neg, List.filter_cons_of_neg, List.filter_nil]
    all_goals
      simp only [Leaf.mapB, crossItem]
      decide
  rw [hsel] at k2
  have hlen : (selected (crossR l a b r) 5).length + 1 ≤ 2 := by rw [hsel]; exact le_rfl
  refine ⟨R, k1 2 hlen, hlen, ?_⟩
  have hfl : R.flatten = [(crossItem a b).mapB (fun q : ℚ => (q : ℝ)) castMono] := List.perm_singleton.1 k2
  match R, hfl, k3 with
  | [] :: R, _, k3 => exact absurd rfl (k3 [] (by simp))
  | (x :: t) :: R, hfl, _ =>
    rw [List.flatten_cons, List.cons_append] at hfl
    obtain ⟨rfl, h⟩ := List.cons.inj hfl
    rw [(List.append_eq_nil_iff.1 h).1]
    simp

/-- the identity -/
def idF {K : Type*} [LinearOrder K] (X : Box K) : Itv K × Itv K := (X.getD 0 ⊥, X.getD 1 ⊥)

theorem idF_map (X : Box ℚ) : idF (Box.mapB (fun q : ℚ => (q : ℝ)) castMono X) =
    ((idF X).1.mapB (fun q : ℚ => (q : ℝ)) castMono, (idF X).2.mapB (fun q : ℚ => (q : ℝ)) castMono) := by
  match X with
  | [] => rfl
  | [_] => rfl
  | _ :: _ :: _ => rfl

/-- the hypotheses of `C97_zero_proven_partial` are met by the identity on the box `[-1,1]×[-1,1]` -/
example : ∃ R s, connectedSubsets 2 5 0 [] (crossR (-3) (-1) 1 3) 0 (crossR (-3) (-1) 1 3) [] = some R ∧ s ∈ R ∧
    (crossR (-3) (-1) 1 3).Cut ∧ Labelled (crossR (-3) (-1) 1 3) ∧ (selected (crossR (-3) (-1) 1 3) 5).length + 1 ≤ 2 ∧
    (∀ c ∈ (crossR (-3) (-1) 1 3).leaves 0 [], c.value = SetValue.OUT → ∀ z, PlaneIn z c.box → EnclAt idF id c.box z) ∧
    (∀ c ∈ (crossR (-3) (-1) 1 3).leaves 0 [], c.value = SetValue.OUT → ¬ ((0 : ℝ) ∈ (idF c.box).1 ∧ (0 : ℝ) ∈ (idF c.box).2)) ∧
    Subset.zeroProven idF ⟨s, crossR (-3) (-1) 1 3⟩ = some true := by
  obtain ⟨R, k1, k2, k3⟩ := cross_subsets (-3) (-1) 1 3 (by norm_num) (by norm_num) (by norm_num)
  refine ⟨R, _, k1, k3, cut_mapB (crossQ_cut (by norm_num) (by norm_num) (by norm_num)), cross_labelled _ _ _ _, k2, ?_, ?_, ?_⟩
  · rw [cross_leaves]
    intro c hc _ z hz
    have two : ∀ I J : Itv ℝ, PlaneIn z [I, J] → EnclAt idF id [I, J] z := by
      intro I J h
      unfold PlaneIn InBox at h
      simp only [List.forall₂_cons] at h
      exact ⟨h.1, h.2.1⟩
    simp only [List.map_cons, List.map_nil, List.mem_cons, List.not_mem_nil, or_false] at hc
    rcases hc with rfl | rfl | rfl | rfl | rfl <;> exact two _ _ hz
  · rw [cross_leaves]
    intro c hc ho
    have cast0 : ((0 : ℚ) : ℝ) = 0 := Rat.cast_zero
    have mem0 : ∀ I : Itv ℚ, (0 : ℝ) ∈ I.mapB (fun q : ℚ => (q : ℝ)) castMono ↔ (0 : ℚ) ∈ I := by
      intro I
      rw [← cast0]
      exact Itv.mem_mapB castMono
    simp only [List.map_cons, List.map_nil, List.mem_cons, List.not_mem_nil, or_false] at hc
    rcases hc with rfl | rfl | rfl | rfl | rfl
    · rintro ⟨h1, _⟩; simp only [idF, Leaf.mapB, Box.mapB, List.map_cons, List.getD_cons_zero, List.getD_cons_succ, mem0] at h1; exact absurd h1 (by decide +kernel)
    · rintro ⟨_, h1⟩; simp only [idF, Leaf.mapB, Box.mapB, List.map_cons, List.getD_cons_zero, List.getD_cons_succ, mem0] at h1; exact absurd h1 (by decide +kernel)
    · exact absurd ho (by decide)
    · rintro ⟨_, h1⟩; simp only [idF, Leaf.mapB, Box.mapB, List.map_cons, List.getD_cons_zero, List.getD_cons_succ, mem0] at h1; exact absurd h1 (by decide +kernel)
    · rintro ⟨h1, _⟩; simp only [idF, Leaf.mapB, Box.mapB, List.map_cons, List.getD_cons_zero, List.getD_cons_succ, mem0] at h1; exact absurd h1 (by decide +kernel)
  · have := mapB_zeroProven castMono (h0 := Rat.cast_zero) (F := idF) (F' := idF) idF_map ⟨[crossItem (-1) 1], crossQ (-3) (-1) 1 3⟩
    refine (this : _ = _).trans ?_
    decide +kernel

/-- the natural evaluation of `(x - x + 1, y)` -/
def pessF {K : Type*} [Field K] [LinearOrder K] [IsStrictOrderedRing K] (X : Box K) : Itv K × Itv K :=
  (Itv.add (Itv.sub (X.getD 0 ⊥) (X.getD 0 ⊥)) (Itv.point 1), X.getD 1 ⊥)

theorem add_mapB (I J : Itv ℚ) : (Itv.add I J).mapB (fun q : ℚ => (q : ℝ)) castMono =
    Itv.add (I.mapB (fun q : ℚ => (q : ℝ)) castMono) (J.mapB (fun q : ℚ => (q : ℝ)) castMono) := by
  cases I with
  | empty => rfl
  | mk l u p => cases J with
    | empty => rfl
    | mk l' u' p' =>
      change (Itv.ofBounds _ _).mapB _ castMono = Itv.ofBounds _ _
      rw [Itv.mapB_ofBounds]
      congr 1
      · cases l <;> cases l' <;> simp [Itv.addB]
      · cases u <;> cases u' <;> simp [Itv.addB]

theorem neg_mapB (I : Itv ℚ) : (Itv.neg I).mapB (fun q : ℚ => (q : ℝ)) castMono = Itv.neg (I.mapB (fun q : ℚ => (q : ℝ)) castMono) := by
  cases I with
  | empty => rfl
  | mk l u p =>
    change (Itv.ofBounds _ _).mapB _ castMono = Itv.ofBounds _ _
    rw [Itv.mapB_ofBounds]
    congr 1
    · cases u <;> simp [Itv.negB]
    · cases l <;> simp [Itv.negB]

theorem pessF_map (X : Box ℚ) : pessF (Box.mapB (fun q : ℚ => (q : ℝ)) castMono X) =
    ((pessF X).1.mapB (fun q : ℚ => (q : ℝ)) castMono, (pessF X).2.mapB (fun q : ℚ => (q : ℝ)) castMono) := by
  have e : ∀ i, (Box.mapB (fun q : ℚ => (q : ℝ)) castMono X).getD i ⊥ = (X.getD i ⊥).mapB (fun q : ℚ => (q : ℝ)) castMono := by
    intro i
    simp only [Box.mapB, List.getD_eq_getElem?_getD, List.getElem?_map]
    cases X[i]? <;> rfl
  have e1 : (Itv.point (1 : ℚ)).mapB (fun q : ℚ => (q : ℝ)) castMono = Itv.point (1 : ℝ) := by
    rw [Itv.mapB_point]
    exact congrArg Itv.point Rat.cast_one
  unfold pessF
  rw [e, e, add_mapB, e1]
  unfold Itv.sub
  rw [add_mapB, neg_mapB]

/-- C97 fails in general: the function `(x, y) ↦ (1, y)` never vanishes, the interval function encloses it on every box, no `OUT` box contains a zero,
and `zero_proven` returns `true`. On the `OUT` box on the right, the enclosure contains zero. -/
theorem C97_fails : ∃ (P : Paving ℝ) (R : List (List (Leaf ℝ))) (s : List (Leaf ℝ)) (F : Box ℝ → Itv ℝ × Itv ℝ),
    P.Cut ∧ Labelled P ∧ connectedSubsets 2 5 0 [] P 0 P [] = some R ∧ s ∈ R ∧
    (∀ X z, PlaneIn z X → EnclAt F (fun z => (1, z.2)) X z) ∧ (∀ z : ℝ × ℝ, ((1 : ℝ), z.2) ≠ (0, 0)) ∧
    Subset.zeroProven F ⟨s, P⟩ = some true := by
  obtain ⟨R, k1, _, k3⟩ := cross_subsets (-1/2) 0 (1/2) 4 (by norm_num) (by norm_num) (by norm_num)
  refine ⟨_, R, _, pessF, cut_mapB (crossQ_cut (by norm_num) (by norm_num) (by norm_num)), cross_labelled _ _ _ _, k1, k3, ?_, ?_, ?_⟩
  · intro X z hz
    unfold PlaneIn InBox at hz
    match X, hz with
    | [I, J], hz =>
      simp only [List.forall₂_cons] at hz
      refine ⟨?_, hz.2.1⟩
      have := Itv.mem_add (Itv.mem_sub hz.1 hz.1) (Itv.mem_point.2 rfl : (1 : ℝ) ∈ Itv.point 1)
      rw [sub_self, zero_add] at this
      exact this
  · intro z h
    exact one_ne_zero (Prod.mk.inj h).1
  · have := mapB_zeroProven castMono (h0 := Rat.cast_zero) (F := pessF) (F' := pessF) pessF_map
      ⟨[crossItem 0 (1/2)], crossQ (-1/2) 0 (1/2) 4⟩
    refine (this : _ = _).trans ?_
    decide +kernel

end Codac.Props
