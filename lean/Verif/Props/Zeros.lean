import Verif.Paving.ZerosLoop
import Verif.Props.Degree
import Verif.Sivia.Ibex
import Mathlib.Analysis.Calculus.FDeriv.Add

/-!
# C116: the number of zeros (`ConnectedSubset::zeros_number`)
-/

set_option linter.unusedSectionVars false

namespace Codac.Props
open Codac Codac.Paving Codac.Deg

/-- `zeros_number` called on several subsets, one after the other: each call works on the paving left by the previous ones -/
def zerosCalls {K : Type*} [Field K] [LinearOrder K] [IsStrictOrderedRing K] (F : Box K → Itv K × Itv K) (A : IArith K) (Jf : Box K → Mat2 K)
    (bis : Box K → Box K × Box K) (p : K) (fuel : Nat) : List (List (Leaf K)) → Paving K → Outcome (List Int × Paving K)
  | [], P => .done ([], P)
  | s :: l, P =>
    match Subset.zerosNumber F A Jf bis p fuel ⟨s, P⟩ with
    | .more => .more
    | .failed => .failed
    | .done (n, P') =>
      match zerosCalls F A Jf bis p fuel l P' with
      | .more => .more
      | .failed => .failed
      | .done (ns, P'') => .done (n :: ns, P'')

/-- the four derivatives are in the evaluation of a box -/
def JacIn (Jf : Box ℝ → Mat2 ℝ) (J : ℝ × ℝ →L[ℝ] ℝ × ℝ) (X : Box ℝ) : Prop :=
  (J (1, 0)).1 ∈ (Jf X).1.1 ∧ (J (0, 1)).1 ∈ (Jf X).1.2 ∧ (J (1, 0)).2 ∈ (Jf X).2.1 ∧ (J (0, 1)).2 ∈ (Jf X).2.2

/-- the number `k` is the number of zeros of `f` on the boxes of `s` -/
def CountsZeros (f : ℝ × ℝ → ℝ × ℝ) (s : List (Leaf ℝ)) (k : Int) : Prop :=
  ∃ Z : Finset (ℝ × ℝ), (∀ z, z ∈ Z ↔ (∃ u ∈ s, PlaneIn z u.box) ∧ f z = (0, 0)) ∧ k = Z.card

section
variable {K : Type*} [Field K] [LinearOrder K] [IsStrictOrderedRing K] {F : Box K → Itv K × Itv K} {A : IArith K} {Jf : Box K → Mat2 K}
  {bis : Box K → Box K × Box K} {p : K} {fuel : Nat}

theorem zerosNumber_done {S : Subset K} {n : Int} {P' : Paving K} (h : S.zerosNumber F A Jf bis p fuel = .done (n, P')) :
    ∃ d r, S.degree F = some d ∧ 0 < p ∧ jacLoop A Jf bis p fuel (S.items.map Leaf.path) S.root = .done (r, P') ∧ n = if r then |d| else -1 := by
  unfold Subset.zerosNumber at h
  cases hd : S.degree F with
  | none => rw [hd] at h; cases h
  | some d =>
    rw [hd] at h
    dsimp only at h
    unfold Subset.nonSingular at h
    by_cases hp : 0 < p
    · rw [if_pos hp] at h
      cases hj : jacLoop A Jf bis p fuel (S.items.map Leaf.path) S.root with
      | more => rw [hj] at h; cases h
      | failed => rw [hj] at h; cases h
      | done a =>
        obtain ⟨r, Q⟩ := a
        rw [hj] at h
        cases r
        · injection h with h
          obtain ⟨rfl, rfl⟩ := Prod.mk.inj h
          exact ⟨d, false, rfl, hp, rfl, rfl⟩
        · injection h with h
          obtain ⟨rfl, rfl⟩ := Prod.mk.inj h
          exact ⟨d, true, rfl, hp, rfl, rfl⟩
    · rw [if_neg hp] at h
      cases h

/-- the items of a subset, in the list of the loop -/
theorem queue_items {P : Paving K} {s : List (Leaf K)} (h : ∀ u ∈ s, u ∈ P.leaves 0 []) : Queue (s.map Leaf.path) P (s.map Leaf.box) := by
  induction s with
  | nil => exact .nil
  | cons u s ih =>
    refine .cons ?_ (ih fun w hw => h w (by simp [hw]))
    obtain ⟨q, e, k⟩ := at_leaf (h u (by simp))
    rw [List.nil_append] at e
    rw [e]
    exact ⟨_, k, rfl⟩

/-- one call -/
theorem zerosNumber_refined (hb : CutsBox bis) {P Q Q' : Paving K} {ps : List (List Bool)} (hr : Refined P Q ps) {s : List (Leaf K)}
    (hs : ∀ u ∈ s, u.path ∈ ps) {n : Int} (h : Subset.zerosNumber F A Jf bis p fuel ⟨s, Q⟩ = .done (n, Q')) : Refined P Q' ps := by
  obtain ⟨d, r, _, _, hj, _⟩ := zerosNumber_done h
  refine jacLoop_refined hb hj hr ?_
  intro q hq
  obtain ⟨u, hu, rfl⟩ := List.mem_map.1 hq
  exact ⟨_, hs u hu, List.prefix_rfl⟩

/-- C116: the paving is changed by the call, which bisects boxes of the subset: it remains a paving of the same box, each of its boxes is a part of a box of
the former paving with the same value, and each box with its value is still covered by boxes with this value -/
theorem C116_paving_kept (hb : CutsBox bis) {P P' : Paving K} (hP : P.Cut) {s : List (Leaf K)} {n : Int}
    (h : Subset.zerosNumber F A Jf bis p fuel ⟨s, P⟩ = .done (n, P')) :
    P'.Cut ∧ P'.box = P.box ∧
      (∀ A ∈ P'.leaves 0 [], ∃ B ∈ P.leaves 0 [], (∀ v, InBox v A.box → InBox v B.box) ∧ A.value = B.value) ∧
      (∀ B ∈ P.leaves 0 [], ∀ v, InBox v B.box → ∃ A ∈ P'.leaves 0 [], InBox v A.box ∧ A.value = B.value) ∧
      (∀ B ∈ P.leaves 0 [], (∀ u ∈ s, ¬ u.path <+: B.path) → B ∈ P'.leaves 0 []) := by
  have hr := zerosNumber_refined hb (Refined.refl hP (s.map Leaf.path)) (fun u hu => List.mem_map.2 ⟨u, hu, rfl⟩) h
  refine ⟨hr.cut, hr.box, ?_, ?_, ?_⟩
  · intro A hA
    obtain ⟨B, hB, k1, k2, _⟩ := hr.part A hA
    exact ⟨B, hB, k1, k2⟩
  · intro B hB v hv
    obtain ⟨A, hA, k1, k2, _⟩ := hr.cover B hB v hv
    exact ⟨A, hA, k1, k2⟩
  · intro B hB hno
    refine hr.keep B hB ?_
    intro q hq
    obtain ⟨u, hu, rfl⟩ := List.mem_map.1 hq
    exact hno u hu

/-- C116: when the answer is `-1`, a box with sides of positive length, included in a box of the subset and smaller than the precision, was found on which
the evaluation of the determinant contains zero -/
theorem C116_unknown (hb : CutsBox bis) {P P' : Paving K} (hP : P.Cut) {s : List (Leaf K)} (hs : ∀ u ∈ s, u ∈ P.leaves 0 [])
    (h : Subset.zerosNumber F A Jf bis p fuel ⟨s, P⟩ = .done (-1, P')) :
    ∃ u ∈ s, ∃ x0 x1 y0 y1 : K, x0 < x1 ∧ y0 < y1 ∧ (∀ v, InBox v [Itv.icc x0 x1, Itv.icc y0 y1] → InBox v u.box) ∧
      x1 - x0 < p ∧ y1 - y0 < p ∧ (0 : K) ∈ det2 A (Jf [Itv.icc x0 x1, Itv.icc y0 y1]) := by
  obtain ⟨d, r, _, _, hj, e⟩ := zerosNumber_done h
  cases r
  · obtain ⟨b, hbm, X, ⟨x0, x1, y0, y1, hx, hy, rfl⟩, k2, k3, k4⟩ := jacLoop_false hb hj (queue_items hs) (by
      intro b hb'
      obtain ⟨u, hu, rfl⟩ := List.mem_map.1 hb'
      exact cut_solid hP (hs u hu))
    obtain ⟨u, hu, rfl⟩ := List.mem_map.1 hbm
    refine ⟨u, hu, x0, x1, y0, y1, hx, hy, k2, ?_, ?_, k4⟩
    · have := List.all_eq_true.1 k3 (Itv.icc x0 x1) (by simp)
      rw [Itv.icc_eq_mk hx.le] at this
      simpa [Itv.diamBelow] using this
    · have := List.all_eq_true.1 k3 (Itv.icc y0 y1) (by simp)
      rw [Itv.icc_eq_mk hy.le] at this
      simpa [Itv.diamBelow] using this
  · rw [if_pos rfl] at e
    have := abs_nonneg d
    omega

/-- C116: the call terminates (by an answer or a failed assertion) for every function and every evaluation of its Jacobian matrix -/
theorem C116_terminates [Archimedean K] {c : K} (hb : IsBis bis) (hl : IsLargestFirst c bis) (hc0 : 0 ≤ c) (hc1 : c < 1) {P : Paving K}
    (hP : P.Cut) {s : List (Leaf K)} (hs : ∀ u ∈ s, u ∈ P.leaves 0 []) :
    ∃ N, ∀ fuel, N ≤ fuel → Subset.zerosNumber F A Jf bis p fuel ⟨s, P⟩ ≠ .more := by
  refine ⟨((s.map Leaf.box).map fun b => 2 ^ (Sivia.boxRank c p b + 1) - 1).sum, fun fuel hf h => ?_⟩
  unfold Subset.zerosNumber at h
  cases hd : Subset.degree F ⟨s, P⟩ with
  | none => rw [hd] at h; cases h
  | some d =>
    rw [hd] at h
    dsimp only at h
    unfold Subset.nonSingular at h
    by_cases hp : 0 < p
    · rw [if_pos hp] at h
      dsimp only at h
      have := jacLoop_total (A := A) (Jf := Jf) hb hl hc0 hc1 hp (queue_items hs) (by
        intro b hb' I hI
        obtain ⟨u, hu, rfl⟩ := List.mem_map.1 hb'
        obtain ⟨x0, x1, y0, y1, hx, hy, e⟩ := cut_solid hP (hs u hu)
        rw [e] at hI
        simp only [List.mem_cons, List.not_mem_nil, or_false] at hI
        rcases hI with rfl | rfl
        · rw [Itv.icc_eq_mk hx.le]; rfl
        · rw [Itv.icc_eq_mk hy.le]; rfl) hf
      cases hj : jacLoop A Jf bis p fuel (s.map Leaf.path) P with
      | more => exact this hj
      | failed => rw [hj] at h; cases h
      | done a =>
        obtain ⟨r, Q⟩ := a
        rw [hj] at h
        cases r <;> cases h
    · rw [if_neg hp] at h
      cases h

end

/-! ### The number of zeros -/

/-- a subset on the paving left by calls on other subsets -/
theorem good_refined {P Q : Paving ℝ} {s : List (Leaf ℝ)} (hg : Subset.Good ⟨s, P⟩) {ps : List (List Bool)} (hr : Refined P Q ps)
    (hps : ∀ q ∈ ps, ∃ B ∈ P.leaves 0 [], B.path = q ∧ B ∉ s ∧ B.value.meets .OUT = false ∧ ∀ u ∈ s, ¬ Touch u B) :
    Subset.Good ⟨s, Q⟩ ∧ ∀ c ∈ Q.leaves 0 [], c.value.meets .OUT = true → c ∈ P.leaves 0 [] := by
  have parts : ∀ c ∈ Q.leaves 0 [], c ∈ P.leaves 0 [] ∨
      ∃ B, (∀ v, InBox v c.box → InBox v B.box) ∧ c.value = B.value ∧ B ∉ s ∧ B.value.meets .OUT = false ∧ ∀ u ∈ s, ¬ Touch u B := by
    intro c hc
    obtain ⟨B, hB, k1, k2, k3⟩ := hr.part c hc
    rcases k3 with rfl | ⟨q, hq, k3⟩
    · exact Or.inl hB
    · right
      obtain ⟨C, hC, rfl, c1, c2, c3⟩ := hps q hq
      obtain rfl := leaves_prefix hC hB k3
      exact ⟨C, k1, k2, c1, c2, c3⟩
  have touch_sub : ∀ {u c B : Leaf ℝ}, (∃ v, InBox v u.box ∧ InBox v c.box) → (∀ v, InBox v c.box → InBox v B.box) → Touch u B := by
    rintro u c B ⟨v, h1, h2⟩ h
    exact ⟨v, h1, h v h2⟩
  refine ⟨⟨hr.cut, hg.nodup, ?_, hg.notOut, ?_, ?_⟩, ?_⟩
  · intro u hu
    refine hr.keep u (hg.sub u hu) ?_
    intro q hq hpre
    obtain ⟨B, hB, rfl, hBs, _, _⟩ := hps q hq
    exact hBs (leaves_prefix hB (hg.sub u hu) hpre ▸ hu)
  · intro u hu c hc ht
    rcases parts c hc with k | ⟨B, k1, k2, k3, k4, k5⟩
    · exact hg.touch u hu c k ht
    · exact absurd (touch_sub ht k1) (k5 u hu)
  · intro u hu c hc ho ht
    rcases parts c hc with k | ⟨B, k1, k2, k3, k4, k5⟩
    · exact hg.unknown u hu c k ho ht
    · exact absurd (touch_sub ht k1) (k5 u hu)
  · intro c hc ho
    rcases parts c hc with k | ⟨B, k1, k2, k3, k4, k5⟩
    · exact k
    · rw [k2, k4] at ho; cases ho

/-- the subsets of a paving: other subsets do not touch, the boxes of a subset are linked -/
theorem subset_facts {P : Paving ℝ} (hP : P.Cut) (hL : Labelled P) {flags : List (Leaf ℝ)} {fuel : Nat} {R : List (List (Leaf ℝ))}
    (hfuel : (selected P 5).length + 1 ≤ fuel) (hR : connectedSubsets fuel 5 0 [] P 0 P flags = some R) :
    (∀ s ∈ R, ∀ t ∈ R, s ≠ t → ∀ a ∈ s, ∀ b ∈ t, ¬ Touch a b ∧ b ∉ s) ∧
    (∀ s ∈ R, ∀ a ∈ s, ∀ b ∈ s, Relation.ReflTransGen (fun x y => x ∈ s ∧ y ∈ s ∧ ∃ v, InBox v x.box ∧ InBox v y.box) a b) := by
  obtain ⟨R', h1, h2, h3, h4, h5⟩ := C33_connected_subsets_partial (val := 5) (by norm_num : 0 < 2) (cut_wf hP) flags
  obtain rfl := Option.some.inj (hR.symm.trans (h1 fuel hfuel))
  have hsym : Std.Symm fun s t : List (Leaf ℝ) => ∀ a ∈ s, ∀ b ∈ t, ¬ Touch a b := by
    refine ⟨?_⟩
    intro x y hxy a ha b hb hab
    obtain ⟨v, v1, v2⟩ := hab
    exact hxy b hb a ha ⟨v, v2, v1⟩
  have self : ∀ s ∈ R, ∀ a ∈ s, Touch a a := by
    intro s hs a ha
    have hg := good_of hP hL hfuel hR hs
    obtain ⟨x0, x1, y0, y1, hx, hy, e⟩ := cut_solid hP (hg.sub a ha)
    refine ⟨[x0, y0], ?_, ?_⟩ <;> rw [e] <;>
      exact .cons (Itv.mem_icc.2 ⟨le_rfl, hx.le⟩) (.cons (Itv.mem_icc.2 ⟨le_rfl, hy.le⟩) .nil)
  have hno : ∀ s ∈ R, ∀ t ∈ R, s ≠ t → ∀ a ∈ s, ∀ b ∈ t, ¬ Touch a b := fun s hs t ht hne => h5.forall hs ht hne
  refine ⟨fun s hs t ht hne a ha b hb => ⟨hno s hs t ht hne a ha b hb, fun hbs => hno s hs t ht hne b hbs b hb (self s hs b hbs)⟩, ?_⟩
  intro s hs a ha b hb
  have hchain := h4 s hs a ha b hb
  have : ∀ c, Relation.ReflTransGen (fun x y => x ∈ selected P 5 ∧ y ∈ selected P 5 ∧ Touch x y) a c →
      c ∈ s ∧ Relation.ReflTransGen (fun x y => x ∈ s ∧ y ∈ s ∧ ∃ v, InBox v x.box ∧ InBox v y.box) a c := by
    intro c hc
    induction hc with
    | refl => exact ⟨ha, .refl⟩
    | @tail x y _ hxy ih =>
      obtain ⟨t, ht, hyt⟩ := List.mem_flatten.1 (h2.mem_iff.2 hxy.2.1)
      have hst : s = t := by
        by_contra hne
        exact hno s hs t ht hne x ih.1 y hyt hxy.2.2
      have hys : y ∈ s := hst ▸ hyt
      exact ⟨hys, ih.2.tail ⟨ih.1, hys, hxy.2.2⟩⟩
  exact (this b hchain).2

/-- C116: when `zeros_number` is called on connected subsets of a paving of the plane (obtained by cutting a bounded box), one after the other, each
answer other than `-1` is the exact number of zeros of the function on the subset; provided that the function is differentiable on the subsets with a Jacobian
matrix enclosed by the given interval function, that it is enclosed on the `OUT` boxes around, that these enclosures exclude a zero, and that the subsets do
not touch the border of the paving. Missing: the last two conditions are not checked (`C116_separation_fails`, `C116_border_fails`), and a second call on the
same subset may be stopped by an assertion (`C116_twice_fails`). -/
theorem C116_zeros_number_partial {P : Paving ℝ} (hP : P.Cut) (hL : Labelled P) {flags : List (Leaf ℝ)} {fuel : Nat} {R : List (List (Leaf ℝ))}
    (hfuel : (selected P 5).length + 1 ≤ fuel) (hR : connectedSubsets fuel 5 0 [] P 0 P flags = some R) {l : List (List (Leaf ℝ))} (hnd : l.Nodup)
    (hl : ∀ s ∈ l, s ∈ R) {F : Box ℝ → Itv ℝ × Itv ℝ} {A : IArith ℝ} {Jf : Box ℝ → Mat2 ℝ} {bis : Box ℝ → Box ℝ × Box ℝ} (hb : CutsBox bis)
    {f : ℝ × ℝ → ℝ × ℝ} {J : ℝ × ℝ → ℝ × ℝ →L[ℝ] ℝ × ℝ}
    (hf : ∀ s ∈ l, ∀ u ∈ s, ∀ z, PlaneIn z u.box → HasFDerivAt f (J z) z)
    (hJ : ∀ s ∈ l, ∀ u ∈ s, ∀ z, PlaneIn z u.box → ∀ X, PlaneIn z X → JacIn Jf (J z) X)
    (hF : ∀ c ∈ P.leaves 0 [], c.value = SetValue.OUT → ∀ s ∈ l, ∀ u ∈ s, ∀ z, PlaneIn z u.box → PlaneIn z c.box → EnclAt F f c.box z)
    (h0 : ∀ c ∈ P.leaves 0 [], c.value = SetValue.OUT → (∃ s ∈ l, ∃ u ∈ s, Touch u c) → ¬ ((0 : ℝ) ∈ (F c.box).1 ∧ (0 : ℝ) ∈ (F c.box).2))
    (hin : ∀ s ∈ l, Subset.strictlyIncluded ⟨s, P⟩ = true)
    {p : ℝ} {m : Nat} {ns : List Int} {P' : Paving ℝ} (h : zerosCalls F A Jf bis p m l P = .done (ns, P')) :
    List.Forall₂ (fun s k => k = -1 ∨ CountsZeros f s k) l ns := by
  obtain ⟨hdis, hconn⟩ := subset_facts hP hL hfuel hR
  -- one call after others
  have one : ∀ s ∈ l, ∀ (Q Q' : Paving ℝ) (ps : List (List Bool)) (n : Int), Refined P Q ps →
      (∀ q ∈ ps, ∃ t ∈ R, s ≠ t ∧ ∃ B ∈ t, B.path = q) → Subset.zerosNumber F A Jf bis p m ⟨s, Q⟩ = .done (n, Q') → n = -1 ∨ CountsZeros f s n := by
    intro s hs Q Q' ps n hr hps hz
    have hsR := hl s hs
    have hg0 := good_of hP hL hfuel hR hsR
    obtain ⟨hg, hout'⟩ := good_refined hg0 hr (by
      intro q hq
      obtain ⟨t, ht, hne, B, hBt, e⟩ := hps q hq
      have hgt := good_of hP hL hfuel hR ht
      refine ⟨B, hgt.sub B hBt, e, ?_, hgt.notOut B hBt, fun u hu => (hdis s hsR t ht hne u hu B hBt).1⟩
      cases s with
      | nil => simp
      | cons a s => exact (hdis _ hsR t ht hne a (by simp) B hBt).2)
    obtain ⟨d, r, hd, _, hj, e⟩ := zerosNumber_done hz
    cases r
    · left; exact e
    · right
      rw [if_pos rfl] at e
      have hplane : ∀ {z : ℝ × ℝ}, z ∈ region rect s ↔ ∃ u ∈ s, PlaneIn z u.box := by
        intro z
        constructor
        · rintro ⟨u, hu, hz⟩; exact ⟨u, hu, (planeIn_iff hg0 (hg0.sub u hu)).2 hz⟩
        · rintro ⟨u, hu, hz⟩; exact ⟨u, hu, (planeIn_iff hg0 (hg0.sub u hu)).1 hz⟩
      have hout : ∀ c ∈ Subset.outs ⟨s, Q⟩, c ∈ P.leaves 0 [] ∧ c.value = SetValue.OUT := by
        intro c hc
        obtain ⟨k1, k2⟩ := List.mem_filter.1 hc
        have k1 := hout' c k1 k2
        refine ⟨k1, ?_⟩
        rcases hL.1 c k1 with h' | h' | h'
        · rw [h'] at k2; exact absurd k2 (by decide)
        · exact h'
        · rw [h'] at k2; exact absurd k2 (by decide)
      have he : Encl F ⟨s, Q⟩ (fun z => (f z).1) (fun z => (f z).2) := by
        constructor
        · rintro c hco z ⟨u, hu, hz⟩ hm
          exact hF c (hout c hco).1 (hout c hco).2 s hs u hu z ((planeIn_iff hg0 (hg0.sub u hu)).2 hz) ((planeIn_iff hg0 (hout c hco).1).2 hm)
        · rintro c hco ⟨z, ⟨u, hu, hz⟩, hm⟩
          exact h0 c (hout c hco).1 (hout c hco).2 ⟨s, hs, u, hu, [z.1, z.2], (planeIn_iff hg0 (hg0.sub u hu)).2 hz,
            (planeIn_iff hg0 (hout c hco).1).2 hm⟩
      have hst : Subset.strictlyIncluded ⟨s, Q⟩ = true := by
        have := hin s hs
        unfold Subset.strictlyIncluded at this ⊢
        rw [hr.box]
        exact this
      -- the sign of the determinant
      have hsign : SameSign (fun z => jdet (J z)) (region rect s) := by
        have hchk := jacLoop_true hj (queue_items hg.sub)
        refine linked_sign (fun u hu => cut_solid hP (hg0.sub u hu)) (fun u hu => ?_) (hconn s hsR)
        refine checked_sign hb (M := region rect s) (fun b hbad => ?_) (hchk u.box (List.mem_map.2 ⟨u, hu, rfl⟩)) (cut_solid hP (hg0.sub u hu))
          (fun z hz => hplane.2 ⟨u, hu, hz⟩)
        have hmem : ∀ z ∈ pts b ∩ region rect s, jdet (J z) ∈ det2 A (Jf b) := by
          rintro z ⟨hz, hzs⟩
          obtain ⟨w, hw, hzw⟩ := hplane.1 hzs
          obtain ⟨j1, j2, j3, j4⟩ := hJ s hs w hw z hzw b hz
          exact A.sub_mem (A.mul_mem j1 j4) (A.mul_mem j2 j3)
        rcases sign_cases (I := det2 A (Jf b)) with ⟨_, k⟩ | ⟨_, k⟩ | ⟨_, k⟩
        · exact absurd k hbad
        · exact Or.inl fun z hz => k _ (hmem z hz)
        · exact Or.inr fun z hz => k _ (hmem z hz)
      obtain ⟨Z, hZ, hcard⟩ := degree_card hg (J := J) (fun z hz => by
          obtain ⟨u, hu, hzu⟩ := hplane.1 hz
          exact hf s hs u hu z hzu)
        (hsign.imp (fun k z hz _ => k z hz) fun k z hz _ => k z hz) he hst hd
      refine ⟨Z, fun z => (hZ z).trans (and_congr_left' hplane), ?_⟩
      rw [e, hcard, Int.natCast_natAbs]
  -- the calls
  have all : ∀ (l' : List (List (Leaf ℝ))) (Q Q' : Paving ℝ) (ps : List (List Bool)) (ns : List Int), l'.Nodup → (∀ s ∈ l', s ∈ l) → Refined P Q ps →
      (∀ s ∈ l', ∀ q ∈ ps, ∃ t ∈ R, s ≠ t ∧ ∃ B ∈ t, B.path = q) → zerosCalls F A Jf bis p m l' Q = .done (ns, Q') →
      List.Forall₂ (fun s k => k = -1 ∨ CountsZeros f s k) l' ns := by
    intro l'
    induction l' with
    | nil =>
      intro Q Q' ps ns _ _ _ _ hz
      injection hz with hz
      obtain ⟨rfl, _⟩ := Prod.mk.inj hz
      exact .nil
    | cons s l' ih =>
      intro Q Q' ps ns hnd hsub hr hps hz
      rw [zerosCalls] at hz
      cases h1 : Subset.zerosNumber F A Jf bis p m ⟨s, Q⟩ with
      | more => rw [h1] at hz; cases hz
      | failed => rw [h1] at hz; cases hz
      | done a =>
        obtain ⟨n, Q1⟩ := a
        rw [h1] at hz
        dsimp only at hz
        cases h2 : zerosCalls F A Jf bis p m l' Q1 with
        | more => rw [h2] at hz; cases hz
        | failed => rw [h2] at hz; cases hz
        | done a =>
          obtain ⟨ns', Q2⟩ := a
          rw [h2] at hz
          injection hz with hz
          obtain ⟨rfl, rfl⟩ := Prod.mk.inj hz
          refine .cons (one s (hsub s (by simp)) Q Q1 ps n hr (hps s (by simp)) h1) ?_
          have hr' : Refined P Q1 (ps ++ s.map Leaf.path) :=
            zerosNumber_refined hb (hr.mono fun q hq => List.mem_append_left _ hq) (fun u hu => List.mem_append_right _ (List.mem_map.2 ⟨u, hu, rfl⟩)) h1
          refine ih Q1 Q2 _ ns' (List.nodup_cons.1 hnd).2 (fun t ht => hsub t (by simp [ht])) hr' ?_ h2
          intro t ht q hq
          rcases List.mem_append.1 hq with hq | hq
          · exact hps t (by simp [ht]) q hq
          · obtain ⟨u, hu, rfl⟩ := List.mem_map.1 hq
            exact ⟨s, hl s (hsub s (by simp)), fun e => (List.nodup_cons.1 hnd).1 (e ▸ ht), u, hu, rfl⟩
  exact all l P P' [] ns hnd (fun s hs => hs) (Refined.refl hP []) (fun s _ q hq => by cases hq) h

/-! ### Examples and counter-examples -/

/-- the bisection of the largest side satisfies the condition on bisections -/
theorem largestFirst_cutsBox {K : Type*} [Field K] [LinearOrder K] [IsStrictOrderedRing K] {ratio : K} (h0 : 0 < ratio) (h1 : ratio < 1) :
    CutsBox (largestFirst ratio) := fun _ _ _ _ hx hy => largestFirst_cuts h0 h1 hx hy

/-- the Jacobian matrix of a translation -/
def idJ {K : Type*} [Field K] [LinearOrder K] (_ : Box K) : Mat2 K := ((Itv.point 1, Itv.point 0), (Itv.point 0, Itv.point 1))

theorem idJ_det (X : Box ℝ) : (0 : ℝ) ∉ det2 (IArith.exact ℝ) (idJ X) := by
  have e : det2 (IArith.exact ℝ) (idJ X) = Itv.icc 1 1 := by
    simp [det2, idJ, IArith.exact, Itv.mul, Itv.point, Itv.sub, Itv.neg, Itv.add, Itv.icc, Itv.ofBounds, Itv.addB, Itv.negB]
  rw [e, Itv.mem_icc]; norm_num

theorem idJ_loop {bis : Box ℝ → Box ℝ × Box ℝ} {p : ℝ} {n : Nat} {l : List (List Bool)} {P : Paving ℝ} {bs : List (Box ℝ)} (hq : Queue l P bs)
    (hn : l.length ≤ n) : jacLoop (IArith.exact ℝ) idJ bis p n l P = .done (true, P) := by
  induction l generalizing n bs with
  | nil => cases n <;> rfl
  | cons q l ih =>
    cases n with
    | zero => simp at hn
    | succ n =>
      obtain ⟨_, bs', ⟨T, hT, rfl⟩, hq', rfl⟩ := List.forall₂_cons_left_iff.1 hq
      rw [jacLoop, hT]
      dsimp only
      rw [if_neg (idJ_det _)]
      exact ih hq' (by simpa using hn)

theorem idJ_number {F : Box ℝ → Itv ℝ × Itv ℝ} {bis : Box ℝ → Box ℝ × Box ℝ} {p : ℝ} (hp : 0 < p) {n : Nat} {s : List (Leaf ℝ)} {P : Paving ℝ}
    (hs : ∀ u ∈ s, u ∈ P.leaves 0 []) (hn : s.length ≤ n) {d : Int} (hd : Subset.degree F ⟨s, P⟩ = some d) :
    Subset.zerosNumber F (IArith.exact ℝ) idJ bis p n ⟨s, P⟩ = .done (|d|, P) := by
  unfold Subset.zerosNumber Subset.nonSingular
  rw [hd, if_pos hp]
  dsimp only
  rw [idJ_loop (queue_items hs) (by rwa [List.length_map])]

theorem idJ_in (X : Box ℝ) : JacIn idJ (ContinuousLinearMap.id ℝ (ℝ × ℝ)) X :=
  ⟨Itv.mem_point.2 rfl, Itv.mem_point.2 rfl, Itv.mem_point.2 rfl, Itv.mem_point.2 rfl⟩

theorem cross_item_leaf (l a b r : ℚ) : ∀ u ∈ [(crossItem a b).mapB (fun q : ℚ => (q : ℝ)) castMono], u ∈ (crossR l a b r).leaves 0 [] := by
  intro u hu
  rw [cross_leaves, List.mem_singleton.1 hu]
  simp

/-- the hypotheses of `C116_zeros_number_partial` are met by the identity on the box `[-1,1]×[-1,1]`, with the answer 1 -/
example : ∃ R s, connectedSubsets 2 5 0 [] (crossR (-3) (-1) 1 3) 0 (crossR (-3) (-1) 1 3) [] = some R ∧ s ∈ R ∧
    (crossR (-3) (-1) 1 3).Cut ∧ Labelled (crossR (-3) (-1) 1 3) ∧ (selected (crossR (-3) (-1) 1 3) 5).length + 1 ≤ 2 ∧
    (∀ z : ℝ × ℝ, HasFDerivAt id (ContinuousLinearMap.id ℝ (ℝ × ℝ)) z) ∧ (∀ X, JacIn idJ (ContinuousLinearMap.id ℝ (ℝ × ℝ)) X) ∧
    (∀ X (z : ℝ × ℝ), PlaneIn z X → EnclAt idF id X z) ∧
    (∀ c ∈ (crossR (-3) (-1) 1 3).leaves 0 [], c.value = SetValue.OUT → ¬ ((0 : ℝ) ∈ (idF c.box).1 ∧ (0 : ℝ) ∈ (idF c.box).2)) ∧
    Subset.strictlyIncluded ⟨s, crossR (-3) (-1) 1 3⟩ = true ∧
    ∃ P', zerosCalls idF (IArith.exact ℝ) idJ (largestFirst (1/2)) (1/10) 10 [s] (crossR (-3) (-1) 1 3) = .done ([1], P') := by
  obtain ⟨R, k1, k2, k3⟩ := cross_subsets (-3) (-1) 1 3 (by norm_num) (by norm_num) (by norm_num)
  refine ⟨R, _, k1, k3, cut_mapB (crossQ_cut (by norm_num) (by norm_num) (by norm_num)), cross_labelled _ _ _ _, k2, hasFDerivAt_id, idJ_in, ?_, ?_, ?_,
    crossR (-3) (-1) 1 3, ?_⟩
  · intro X z hz
    unfold PlaneIn InBox at hz
    match X, hz with
    | [I, J], hz =>
      simp only [List.forall₂_cons] at hz
      exact ⟨hz.1, hz.2.1⟩
  · rw [cross_leaves]
    intro c hc ho
    have cast0 : ((0 : ℚ) : ℝ) = 0 := Rat.cast_zero
    have mem0 : ∀ I : Itv ℚ, (0 : ℝ) ∈ I.mapB (fun q : ℚ => (q : ℝ)) castMono ↔ (0 : ℚ) ∈ I := by
      intro I
      rw [← cast0]
      exact Itv.mem_mapB castMono
    simp only [List.map_cons, List.map_nil, List.mem_cons, List.not_mem_nil, or_false] at hc
    rcases hc with rfl | rfl | rfl | rfl | rfl
    · rintro ⟨h1, _⟩; simp only [idF, Leaf.mapB, Box.mapB, List.map_cons, List.getD_cons_zero, List.getD_cons_succ, mem0] at h1; exact absurd h1 (by decide +kernel)
    · rintro ⟨_, h1⟩; simp only [idF, Leaf.mapB, Box.mapB, List.map_cons, List.getD_cons_zero, List.getD_cons_succ, mem0] at h1; exact absurd h1 (by decide +kernel)
    · exact absurd ho (by decide)
    · rintro ⟨_, h1⟩; simp only [idF, Leaf.mapB, Box.mapB, List.map_cons, List.getD_cons_zero, List.getD_cons_succ, mem0] at h1; exact absurd h1 (by decide +kernel)
    · rintro ⟨h1, _⟩; simp only [idF, Leaf.mapB, Box.mapB, List.map_cons, List.getD_cons_zero, List.getD_cons_succ, mem0] at h1; exact absurd h1 (by decide +kernel)
  · have := mapB_strictlyIncluded castMono ⟨[crossItem (-1) 1], crossQ (-3) (-1) 1 3⟩
    refine (this : _ = _).trans ?_
    decide +kernel
  · have hd : Subset.degree idF ⟨[(crossItem (-1) 1).mapB (fun q : ℚ => (q : ℝ)) castMono], crossR (-3) (-1) 1 3⟩ = some (-1) := by
      have := mapB_degree castMono (h0 := Rat.cast_zero) (F := idF) (F' := idF) idF_map ⟨[crossItem (-1) 1], crossQ (-3) (-1) 1 3⟩
      refine (this : _ = _).trans ?_
      decide +kernel
    rw [zerosCalls, idJ_number (by norm_num) (cross_item_leaf _ _ _ _) (by simp) hd]
    rfl

/-- the conditions of `C116_terminates` are met by the bisection of the largest side -/
example : IsBis (largestFirst (1/2 : ℚ)) ∧ IsLargestFirst (max (1/2) (1 - 1/2)) (largestFirst (1/2 : ℚ)) ∧ max (1/2 : ℚ) (1 - 1/2) < 1 :=
  ⟨largestFirst_isBis _, largestFirst_spec (by norm_num) (by norm_num), by norm_num⟩

/-- the natural evaluation of `(x - x + x + 2, y)` -/
def pessG {K : Type*} [Field K] [LinearOrder K] [IsStrictOrderedRing K] (X : Box K) : Itv K × Itv K :=
  (Itv.add (Itv.add (Itv.sub (X.getD 0 ⊥) (X.getD 0 ⊥)) (X.getD 0 ⊥)) (Itv.point 2), X.getD 1 ⊥)

theorem pessG_map (X : Box ℚ) : pessG (Box.mapB (fun q : ℚ => (q : ℝ)) castMono X) =
    ((pessG X).1.mapB (fun q : ℚ => (q : ℝ)) castMono, (pessG X).2.mapB (fun q : ℚ => (q : ℝ)) castMono) := by
  have e : ∀ i, (Box.mapB (fun q : ℚ => (q : ℝ)) castMono X).getD i ⊥ = (X.getD i ⊥).mapB (fun q : ℚ => (q : ℝ)) castMono := by
    intro i
    simp only [Box.mapB, List.getD_eq_getElem?_getD, List.getElem?_map]
    cases X[i]? <;> rfl
  have e1 : (Itv.point (2 : ℚ)).mapB (fun q : ℚ => (q : ℝ)) castMono = Itv.point (2 : ℝ) := by
    rw [Itv.mapB_point]
    exact congrArg Itv.point (by norm_num)
  unfold pessG
  rw [e, e, add_mapB, e1]
  unfold Itv.sub
  rw [add_mapB, add_mapB, neg_mapB]

/-- C116 fails when the enclosures on the `OUT` boxes do not exclude a zero: the function `(x, y) ↦ (x + 2, y)` has no zero on the paving
`[-1/2,4]×[-3,3]`, its evaluations and those of its Jacobian matrix are enclosures on every box, the subset is strictly included in the paving, and
`zeros_number` returns 1 -/
theorem C116_separation_fails : ∃ (P : Paving ℝ) (R : List (List (Leaf ℝ))) (s : List (Leaf ℝ)) (F : Box ℝ → Itv ℝ × Itv ℝ) (Jf : Box ℝ → Mat2 ℝ),
    P.Cut ∧ Labelled P ∧ connectedSubsets 2 5 0 [] P 0 P [] = some R ∧ s ∈ R ∧ Subset.strictlyIncluded ⟨s, P⟩ = true ∧
    (∀ X z, PlaneIn z X → EnclAt F (fun z => (z.1 + 2, z.2)) X z) ∧
    (∀ z : ℝ × ℝ, HasFDerivAt (fun z : ℝ × ℝ => (z.1 + 2, z.2)) (ContinuousLinearMap.id ℝ (ℝ × ℝ)) z) ∧
    (∀ X, JacIn Jf (ContinuousLinearMap.id ℝ (ℝ × ℝ)) X) ∧
    (∀ z : ℝ × ℝ, PlaneIn z P.box → (z.1 + 2, z.2) ≠ (0, 0)) ∧
    Subset.zerosNumber F (IArith.exact ℝ) Jf (largestFirst (1/2)) (1/10) 10 ⟨s, P⟩ = .done (1, P) := by
  obtain ⟨R, k1, _, k3⟩ := cross_subsets (-1/2) 0 (1/2) 4 (by norm_num) (by norm_num) (by norm_num)
  refine ⟨_, R, _, pessG, idJ, cut_mapB (crossQ_cut (by norm_num) (by norm_num) (by norm_num)), cross_labelled _ _ _ _, k1, k3, ?_, ?_, ?_, idJ_in, ?_, ?_⟩
  · have := mapB_strictlyIncluded castMono ⟨[crossItem 0 (1/2)], crossQ (-1/2) 0 (1/2) 4⟩
    refine (this : _ = _).trans ?_
    decide +kernel
  · intro X z hz
    unfold PlaneIn InBox at hz
    match X, hz with
    | [I, J], hz =>
      simp only [List.forall₂_cons] at hz
      refine ⟨?_, hz.2.1⟩
      have := Itv.mem_add (Itv.mem_add (Itv.mem_sub hz.1 hz.1) hz.1) (Itv.mem_point.2 rfl : (2 : ℝ) ∈ Itv.point 2)
      rw [sub_self, zero_add] at this
      exact this
  · intro z
    have e : (fun z : ℝ × ℝ => (z.1 + 2, z.2)) = fun z : ℝ × ℝ => id z + ((2 : ℝ), (0 : ℝ)) := by
      funext z; ext <;> simp
    rw [e]
    exact (hasFDerivAt_add_const_iff _).2 (hasFDerivAt_id z)
  · intro z hz h
    have hb : (crossR (-1/2) 0 (1/2) 4).box = Box.mapB (fun q : ℚ => (q : ℝ)) castMono [.icc (-1/2) 4, .icc (-3) 3] := mapB_box _ _
    unfold PlaneIn at hz
    have hz : InBox [z.1, z.2] (crossR (-1/2) 0 (1/2) 4).box := hz
    rw [hb] at hz
    simp only [Box.mapB, List.map_cons, List.map_nil, Itv.mapB_icc, InBox, List.forall₂_cons, Itv.mem_icc] at hz
    have h1 := (Prod.mk.inj h).1
    have h2 := hz.1.1
    norm_num at h2
    linarith
  · have hd : Subset.degree pessG ⟨[(crossItem 0 (1/2)).mapB (fun q : ℚ => (q : ℝ)) castMono], crossR (-1/2) 0 (1/2) 4⟩ = some 1 := by
      have := mapB_degree castMono (h0 := Rat.cast_zero) (F := pessG) (F' := pessG) pessG_map ⟨[crossItem 0 (1/2)], crossQ (-1/2) 0 (1/2) 4⟩
      refine (this : _ = _).trans ?_
      decide +kernel
    exact idJ_number (by norm_num) (cross_item_leaf _ _ _ _) (by simp) hd

/-- the paving reduced to the box `[-1,1]×[-1,1]`, without conclusion -/
def wholeQ : Paving ℚ := .leaf [.icc (-1) 1, .icc (-1) 1] 1

/-- the same paving with real bounds -/
noncomputable def wholeR : Paving ℝ := wholeQ.mapB (fun q : ℚ => (q : ℝ)) castMono

/-- its only leaf -/
def wholeItem : Leaf ℚ := ⟨0, [], [.icc (-1) 1, .icc (-1) 1], 1⟩

theorem whole_leaves : wholeR.leaves 0 [] = [wholeItem.mapB (fun q : ℚ => (q : ℝ)) castMono] := by
  unfold wholeR
  rw [mapB_leaves]
  rfl

theorem whole_cut : wholeR.Cut := cut_mapB ⟨-1, 1, -1, 1, by norm_num, by norm_num, rfl⟩

/-- C116 fails on a subset that touches the border of the paving: the degree is not computed and taken as zero. Here the paving is one box
`[-1,1]×[-1,1]`, the function is the identity, and `zeros_number` returns 0 although the origin is a zero in the subset. -/
theorem C116_border_fails : ∃ (P : Paving ℝ) (R : List (List (Leaf ℝ))) (s : List (Leaf ℝ)) (F : Box ℝ → Itv ℝ × Itv ℝ) (Jf : Box ℝ → Mat2 ℝ),
    P.Cut ∧ Labelled P ∧ connectedSubsets 2 5 0 [] P 0 P [] = some R ∧ s ∈ R ∧ (∀ X (z : ℝ × ℝ), PlaneIn z X → EnclAt F id X z) ∧
    (∀ X, JacIn Jf (ContinuousLinearMap.id ℝ (ℝ × ℝ)) X) ∧ (∃ u ∈ s, PlaneIn ((0 : ℝ), (0 : ℝ)) u.box) ∧
    Subset.zerosNumber F (IArith.exact ℝ) Jf (largestFirst (1/2)) (1/10) 10 ⟨s, P⟩ = .done (0, P) := by
  obtain ⟨R, k1, k2, k3, k4, k5⟩ := C33_connected_subsets_partial (val := 5) (by norm_num : 0 < 2) (cut_wf whole_cut) []
  have hsel : selected wholeR 5 = [wholeItem.mapB (fun q : ℚ => (q : ℝ)) castMono] := by
    unfold selected
    rw [whole_leaves, List.filter_cons_of_pos, List.filter_nil]
    decide
  rw [hsel] at k2
  have hmem : [wholeItem.mapB (fun q : ℚ => (q : ℝ)) castMono] ∈ R := by
    have hfl : R.flatten = [wholeItem.mapB (fun q : ℚ => (q : ℝ)) castMono] := List.perm_singleton.1 k2
    match R, hfl, k3 with
    | [] :: R, _, k3 => exact absurd rfl (k3 [] (by simp))
    | (x :: t) :: R, hfl, _ =>
      rw [List.flatten_cons, List.cons_append] at hfl
      obtain ⟨rfl, h⟩ := List.cons.inj hfl
      rw [(List.append_eq_nil_iff.1 h).1]
      simp
  refine ⟨wholeR, R, _, idF, idJ, whole_cut, ?_, k1 2 (by rw [hsel]; exact le_rfl), hmem, ?_, idJ_in, ⟨_, List.mem_singleton.2 rfl, ?_⟩, ?_⟩
  · unfold Labelled
    rw [whole_leaves]
    refine ⟨fun q hq => ?_, fun q hq c _ h _ => ?_⟩
    · rw [List.mem_singleton.1 hq]; exact Or.inl rfl
    · rw [List.mem_singleton.1 hq] at h; exact absurd h (by decide)
  · intro X z hz
    unfold PlaneIn InBox at hz
    match X, hz with
    | [I, J], hz =>
      simp only [List.forall₂_cons] at hz
      exact ⟨hz.1, hz.2.1⟩
  · simp only [PlaneIn, wholeItem, Leaf.mapB, Box.mapB, List.map_cons, List.map_nil, Itv.mapB_icc, InBox, List.forall₂_cons, Itv.mem_icc]
    norm_num
  · have hd : Subset.degree idF ⟨[wholeItem.mapB (fun q : ℚ => (q : ℝ)) castMono], wholeR⟩ = some 0 := by
      have := mapB_degree castMono (h0 := Rat.cast_zero) (F := idF) (F' := idF) idF_map ⟨[wholeItem], wholeQ⟩
      refine (this : _ = _).trans ?_
      decide +kernel
    exact idJ_number (by norm_num) (by rw [whole_leaves]; exact fun u hu => hu) (by simp) hd

/-- C116: on a subset that touches the border of the paving, the answer is always 0 or -1 -/
theorem C116_border {K : Type*} [Field K] [LinearOrder K] [IsStrictOrderedRing K] {F : Box K → Itv K × Itv K} {A : IArith K} {Jf : Box K → Mat2 K}
    {bis : Box K → Box K × Box K} {p : K} {fuel : Nat} {S : Subset K} (hs : S.strictlyIncluded = false) {n : Int} {P' : Paving K}
    (h : S.zerosNumber F A Jf bis p fuel = .done (n, P')) : n = 0 ∨ n = -1 := by
  obtain ⟨d, r, hd, _, _, e⟩ := zerosNumber_done h
  unfold Subset.degree at hd
  rw [if_pos (by rw [hs]; rfl)] at hd
  obtain rfl := Option.some.inj hd
  cases r
  · exact Or.inr e
  · exact Or.inl e

/-- the natural evaluation of `(x·x·x + x, y)` -/
def cubeF (X : Box ℚ) : Itv ℚ × Itv ℚ := (Itv.add (Itv.mul (Itv.mul (X.getD 0 ⊥) (X.getD 0 ⊥)) (X.getD 0 ⊥)) (X.getD 0 ⊥), X.getD 1 ⊥)

/-- the natural evaluation of its Jacobian matrix: `3·(x·x) + 1`, `0`, `0`, `1` -/
def cubeJ (X : Box ℚ) : Mat2 ℚ :=
  ((Itv.add (Itv.mul (Itv.point 3) (Itv.mul (X.getD 0 ⊥) (X.getD 0 ⊥))) (Itv.point 1), Itv.point 0), (Itv.point 0, Itv.point 1))

/-- two calls on the box `[-1,1]×[-1,1]`, the second one on the paving left by the first one: the first answer, and whether an assertion fails in the
second call -/
def twiceQ : Option (Int × Bool) :=
  match Subset.zerosNumber cubeF (IArith.exact ℚ) cubeJ (largestFirst (1/2)) (1/10) 10 ⟨[crossItem (-1) 1], crossQ (-3) (-1) 1 3⟩ with
  | .done (n, P') =>
    match Subset.zerosNumber cubeF (IArith.exact ℚ) cubeJ (largestFirst (1/2)) (1/10) 10 ⟨[crossItem (-1) 1], P'⟩ with
    | .failed => some (n, true)
    | _ => some (n, false)
  | _ => none

theorem twiceQ_eq : twiceQ = some (1, true) := by decide +kernel

/-- C116 fails for a second call on the same subset: with the natural evaluations of `(x³ + x, y)` and of its Jacobian matrix, the first call answers 1 after
a bisection of the box, and the same call done again is stopped by the assertion "only leaves can be bisected" -/
theorem C116_twice_fails : ∃ (P P' : Paving ℚ) (s : List (Leaf ℚ)), connectedSubsets 2 5 0 [] P 0 P [] = some [s] ∧
    Subset.zerosNumber cubeF (IArith.exact ℚ) cubeJ (largestFirst (1/2)) (1/10) 10 ⟨s, P⟩ = .done (1, P') ∧
    Subset.zerosNumber cubeF (IArith.exact ℚ) cubeJ (largestFirst (1/2)) (1/10) 10 ⟨s, P'⟩ = .failed := by
  have h := twiceQ_eq
  unfold twiceQ at h
  cases h1 : Subset.zerosNumber cubeF (IArith.exact ℚ) cubeJ (largestFirst (1/2)) (1/10) 10 ⟨[crossItem (-1) 1], crossQ (-3) (-1) 1 3⟩ with
  | more => rw [h1] at h; cases h
  | failed => rw [h1] at h; cases h
  | done a =>
    obtain ⟨n, P'⟩ := a
    rw [h1] at h
    dsimp only at h
    cases h2 : Subset.zerosNumber cubeF (IArith.exact ℚ) cubeJ (largestFirst (1/2)) (1/10) 10 ⟨[crossItem (-1) 1], P'⟩ with
    | more => rw [h2] at h; cases Option.some.inj h
    | failed =>
      rw [h2] at h
      obtain ⟨rfl, _⟩ := Prod.mk.inj (Option.some.inj h)
      exact ⟨crossQ (-3) (-1) 1 3, P', [crossItem (-1) 1], by decide +kernel, h1, h2⟩
    | done a => rw [h2] at h; cases Option.some.inj h

/-- these evaluations are enclosures -/
example (X : Box ℚ) (z : ℚ × ℚ) (hz : PlaneIn z X) : EnclAt cubeF (fun z => (z.1 * z.1 * z.1 + z.1, z.2)) X z ∧
    3 * (z.1 * z.1) + 1 ∈ (cubeJ X).1.1 := by
  unfold PlaneIn InBox at hz
  match X, hz with
  | [I, J], hz =>
    simp only [List.forall₂_cons] at hz
    exact ⟨⟨Itv.mem_add (Itv.mem_mul (Itv.mem_mul hz.1 hz.1) hz.1) hz.1, hz.2.1⟩,
      Itv.mem_add (Itv.mem_mul (Itv.mem_point.2 rfl) (Itv.mem_mul hz.1 hz.1)) (Itv.mem_point.2 rfl)⟩

/-- an answer -1: with a precision as large as the box, no bisection is tried -/
example : ∃ P', Subset.zerosNumber cubeF (IArith.exact ℚ) cubeJ (largestFirst (1/2)) 3 10 ⟨[crossItem (-1) 1], crossQ (-3) (-1) 1 3⟩ = .done (-1, P') ∧
    (crossQ (-3) (-1) 1 3).Cut ∧ ∀ u ∈ [crossItem (-1) 1], u ∈ (crossQ (-3) (-1) 1 3).leaves 0 [] := by
  have h : (match Subset.zerosNumber cubeF (IArith.exact ℚ) cubeJ (largestFirst (1/2)) 3 10 ⟨[crossItem (-1) 1], crossQ (-3) (-1) 1 3⟩ with
    | .done (n, _) => n | _ => 0) = -1 := by decide +kernel
  cases h1 : Subset.zerosNumber cubeF (IArith.exact ℚ) cubeJ (largestFirst (1/2)) 3 10 ⟨[crossItem (-1) 1], crossQ (-3) (-1) 1 3⟩ with
  | more => rw [h1] at h; exact absurd h (by decide)
  | failed => rw [h1] at h; exact absurd h (by decide)
  | done a =>
    obtain ⟨n, P'⟩ := a
    rw [h1] at h
    obtain rfl : n = -1 := h
    refine ⟨P', rfl, crossQ_cut (by norm_num) (by norm_num) (by norm_num), ?_⟩
    intro u hu
    rw [List.mem_singleton.1 hu]
    simp [crossQ, Paving.leaves, crossItem]

end Codac.Props
