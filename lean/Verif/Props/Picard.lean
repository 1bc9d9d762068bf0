import Verif.Ctc.Picard
import Verif.Ctc.PicardContract
import Verif.Tube.Examples

/-!
# C22: `CtcPicard` loses no solution of `x' = f(t, x)`

The parameters `P` of the contractor (inflation `delta`, `eps`, midpoint function) are arbitrary. What is assumed of IBEX:
`Extension φ P.F` (the evaluation of the function contains its image, and is empty for all components or none) and
`EmptyArith P.A` (sums and products with the empty set are empty). `SolvesOn φ fs a b`: the functions `fs` are continuous on
`[a,b]` and differentiable inside, of derivative `φ(t, fs(t))`. `none` stands for a computation which needs more iterations
than allowed; the number of iterations allowed is arbitrary.
-/

set_option linter.unusedSectionVars false

namespace Codac.Props
open Codac Codac.Ex

section
variable {P : Picard ℝ} {φ : List ℝ → List ℝ}

/-- the tubes have the slices `bs`, enclose `fs` and have consistent gates -/
def PicardTubes (bs : List (ℝ × ℝ)) (xs : List (Tube ℝ)) (fs : List (ℝ → ℝ)) : Prop :=
  List.Forall₂ (fun T f => T.WF ∧ T.GatesInEnvelopes ∧ T.Encloses f ∧ T.slices.map (fun s => (s.lb, s.ub)) = bs) xs fs

theorem pInv_of {bs : List (ℝ × ℝ)} {xs : List (Tube ℝ)} {fs : List (ℝ → ℝ)} {a b : ℝ} (h : PicardTubes bs xs fs)
    (hd : ∀ T ∈ xs, T.t0 = a ∧ T.tf = b) (hs : SolvesOn φ fs a b) (hne : xs ≠ []) : PInv φ (a, b) bs xs fs := by
  have hst : List.Forall₂ (StInv bs) xs fs := h.imp fun T f hT => ⟨hT.1, hT.2.1, hT.2.2.1, by rw [← Tube.slices_bounds]; exact hT.2.2.2⟩
  refine ⟨hd, hst, ?_⟩
  cases hst with
  | nil => exact absurd rfl hne
  | @cons T f _ _ hT _ =>
    intro p hp
    have hd := hd T (by simp)
    rw [← hT.bounds, ← Tube.slices_bounds, List.mem_map] at hp
    obtain ⟨s, hs', rfl⟩ := hp
    have hb := hT.wf.tiles.mem_bounds hs'
    exact ⟨hb.2.1, hs.mono (by rw [← hd.1]; exact hb.1) (by rw [← hd.2]; exact hb.2.2)⟩

theorem picardTubes_of {bs : List (ℝ × ℝ)} {D : ℝ × ℝ} {xs : List (Tube ℝ)} {fs : List (ℝ → ℝ)} (h : PInv φ D bs xs fs) :
    PicardTubes bs xs fs :=
  h.st.imp fun T f hT => ⟨hT.wf, hT.gc, hT.encl, by rw [Tube.slices_bounds]; exact hT.bounds⟩

/-- **C22**, `contract(TubeVector&, FORWARD | BACKWARD)`: every solution of the differential equation in the tubes is still in
the tubes, which are well-formed; the slicing is restored when asked for. -/
theorem C22_picard_sound (hA : EmptyArith P.A) (hF : Extension φ P.F) {xs ys : List (Tube ℝ)} {fs : List (ℝ → ℝ)} {a b : ℝ}
    {bs : List (ℝ × ℝ)} (hne : xs ≠ []) (h : PicardTubes bs xs fs) (hd : ∀ T ∈ xs, T.t0 = a ∧ T.tf = b)
    (hs : SolvesOn φ fs a b) {pf n : Nat} {preserve : Bool} (hy : P.both pf n preserve xs = some ys) :
    ∃ bs', PicardTubes bs' ys fs ∧ (preserve = true → bs' = bs) := by
  obtain ⟨bs', h1, h2⟩ := both_inv hA hF (pInv_of h hd hs hne) hy
  exact ⟨bs', picardTubes_of h1, h2⟩

/-- **C22**, `contract(TubeVector&, FORWARD)` or `contract(TubeVector&, BACKWARD)`. -/
theorem C22_picard_oneway_sound (hA : EmptyArith P.A) (hF : Extension φ P.F) {xs ys : List (Tube ℝ)} {fs : List (ℝ → ℝ)}
    {a b : ℝ} {bs : List (ℝ × ℝ)} (hne : xs ≠ []) (h : PicardTubes bs xs fs) (hd : ∀ T ∈ xs, T.t0 = a ∧ T.tf = b)
    (hs : SolvesOn φ fs a b) {pf n : Nat} {preserve fwd : Bool} (hy : P.oneWay pf n preserve fwd xs = some ys) :
    ∃ bs', PicardTubes bs' ys fs ∧ (preserve = true → bs' = bs) := by
  obtain ⟨bs', h1, h2⟩ := oneWay_inv hA hF (pInv_of h hd hs hne) hy
  exact ⟨bs', picardTubes_of h1, h2⟩

/-- **C22**, `contract(Tube&)`. -/
theorem C22_picard_scalar_sound (hA : EmptyArith P.A) (hF : Extension φ P.F) {x y : Tube ℝ} {f : ℝ → ℝ} (hx : x.WF)
    (hg : x.GatesInEnvelopes) (he : x.Encloses f) (hs : SolvesOn φ [f] x.t0 x.tf) {pf n : Nat} {preserve : Bool}
    (hy : P.scalar pf n preserve x = some y) : y.Encloses f ∧ y.WF := by
  unfold Picard.scalar at hy
  rw [Option.bind_eq_some_iff] at hy
  obtain ⟨ys, h1, h2⟩ := hy
  obtain ⟨bs', h3, -⟩ := C22_picard_sound hA hF (bs := x.slices.map fun s => (s.lb, s.ub)) (a := x.t0) (b := x.tf) (by simp)
    (.cons ⟨hx, hg, he, rfl⟩ .nil) (by simp) hs h1
  cases h3 with
  | cons a _ =>
    simp only [List.head?_cons, Option.map_some, Option.some.injEq] at h2
    subst h2
    exact ⟨(C08_inter_assign hx a.1 a.2.1).1 he a.2.2.1, opAssign_wf hx⟩

/-- **C22**, `guess_kth_slices_envelope`: for the slices `k`, of bounds `b`, the solutions are kept. -/
theorem C22_guess_sound (hA : EmptyArith P.A) (hF : Extension φ P.F) {xs ys : List (Tube ℝ)} {fs : List (ℝ → ℝ)} {a b : ℝ}
    {bs : List (ℝ × ℝ)} (hne : xs ≠ []) (h : PicardTubes bs xs fs) (hd : ∀ T ∈ xs, T.t0 = a ∧ T.tf = b)
    (hs : SolvesOn φ fs a b) {pf k : Nat} {p : ℝ × ℝ} (hp : bs[k]? = some p) {fwd : Bool}
    (hy : P.guess pf fwd k p xs = some ys) : PicardTubes bs ys fs :=
  picardTubes_of (guess_inv hA hF hp (pInv_of h hd hs hne) hy)

/-- **C22**, the argument behind it: when the loop stops on `E`, no solution leaves `E` on the slice, although nothing is assumed
about `E` but that it is the last enclosure computed. -/
theorem C22_loop_encloses (hA : EmptyArith P.A) (hF : Extension φ P.F) {fs : List (ℝ → ℝ)} {a b : ℝ} (hs : SolvesOn φ fs a b)
    {init x0 E0 E : List (Itv ℝ)} (hx0 : InBox (fs.map (· a)) x0)
    (hi : ∀ t, a ≤ t → t ≤ b → InBox (fs.map (· t)) init) {n : Nat} (hE0 : E0.length = fs.length)
    (h : P.loop (.icc a b) init x0 (.icc 0 (b - a)) n E0 = some (some E)) {t : ℝ} (h1 : a ≤ t) (h2 : t ≤ b) :
    InBox (fs.map (· t)) E :=
  picardLoop_sound hA hF true hs hx0 (fun t ht => hi t ht.1 ht.2) n hE0 h t ⟨h1, h2⟩

end

section
variable {K : Type*} [Field K] [LinearOrder K] [IsStrictOrderedRing K] {P : Picard K}

/-- **C22**, contraction: at all instants the tubes are included in the initial ones, whatever the slicings. -/
theorem C22_picard_contracts {xs ys : List (Tube K)} {bs : List (K × K)}
    (h : ∀ T ∈ xs, T.WF ∧ T.slices.map (fun s => (s.lb, s.ub)) = bs) {pf n : Nat} {preserve : Bool}
    (hy : P.both pf n preserve xs = some ys) :
    List.Forall₂ (fun T T0 => T.t0 = T0.t0 ∧ T.tf = T0.tf ∧ ∀ t, T0.t0 ≤ t → t ≤ T0.tf → T.evalAt t ≤ T0.evalAt t) ys xs := by
  have hw : WInv bs xs xs := by
    unfold WInv
    rw [List.forall₂_same]
    intro T hT
    exact ⟨(h T hT).1, by rw [← Tube.slices_bounds]; exact (h T hT).2, Tube.Within.refl T⟩
  obtain ⟨bs', h1, -⟩ := both_within hw hy
  exact h1.imp fun T T0 hT => ⟨hT.2.2.t0, hT.2.2.tf, hT.2.2.le⟩

/-- **C22**, exact effect of a successful `guess_kth_slices_envelope` on the envelopes of the slices `k`. -/
theorem C22_guess_effect {xs ys : List (Tube K)} {pf k : Nat} {p : K × K} {fwd : Bool} {E : List (Itv K)}
    (hk : ∀ T ∈ xs, k < T.nbSlices) (hE : E.length = xs.length) (hne : ∀ T ∈ xs, T.isEmpty = false)
    (hloop : P.loop (.icc p.1 p.2) (xs.map fun T => T.codAt k) (xs.map fun T => T.evalAt (if fwd then p.1 else p.2))
      (if fwd then .icc 0 (p.2 - p.1) else .icc (-(p.2 - p.1)) 0) pf
      (xs.map fun T => T.evalAt (if fwd then p.1 else p.2)) = some (some E)) (hy : P.guess pf fwd k p xs = some ys) :
    ys.map (fun T => T.codAt k) = List.zipWith (· ⊓ ·) (xs.map fun T => T.codAt k) E := by
  unfold Picard.guess at hy
  have h1 : ¬ xs.any Tube.isEmpty = true := by
    rw [List.any_eq_true]
    rintro ⟨T, h1, h2⟩
    rw [hne T h1] at h2
    cases h2
  rw [if_neg h1] at hy
  dsimp only at hy
  rw [hloop] at hy
  simp only [Option.map_some, Option.some.injEq] at hy
  subst hy
  refine updAll_codAt ?_ (by simp [hE]) ?_
  · intro T hT
    have := hk T hT
    rw [Codac.nbSlices_eq] at this
    exact ⟨_, List.getElem?_eq_getElem this⟩
  · rw [List.forall₂_iff_get]
    refine ⟨by simp, ?_⟩
    intro i c1 c2 q n s
    simp [Slice.setEnvelope]

end

/-! ### Concrete cases -/

/-- midpoint of a bounded interval -/
def picardMid (X : Itv ℚ) : ℚ :=
  match X.lb?, X.ub? with
  | some a, some b => (a + b) / 2
  | _, _ => 0

/-- `x' = x` with exact arithmetic -/
def picardExp (delta : ℚ) : Picard ℚ where
  A := IArith.exact ℚ
  F := fun X => X.tail
  mid := picardMid
  delta := delta
  eps := 1 / 1000
  big := I (-99999) 99999

/-- `x' = 0` with exact arithmetic -/
def picardZero (delta : ℚ) : Picard ℚ where
  A := IArith.exact ℚ
  F := fun X => X.tail.map fun _ => Itv.point 0
  mid := picardMid
  delta := delta
  eps := 1 / 1000
  big := I (-99999) 99999

/-- one slice `[0,1/4]`, unbounded, starting at `[1,1]` -/
def picardX : Tube ℚ := ⟨0, 1/4, I 1 1, [⟨0, 1/4, ⊤, ⊤⟩]⟩

/-- the loop converges for `x' = x`: the unbounded envelope becomes a bounded one -/
example : ((picardExp (11/10)).both 20 5 false [picardX]).map (fun ys => ys.map fun T => (T.codAt 0).isUnbounded) =
    some [false] := by decide +kernel

/-- with two components -/
example : ((picardZero 1).both 20 5 true [picardX, picardX]).map (fun ys => ys.map fun T => T.codAt 0) =
    some [I 1 1, I 1 1] := by decide +kernel

/-- one slice `[0,1]`, unbounded, starting in `[0,1]` -/
def picardY : Tube ℚ := ⟨0, 1, I 0 1, [⟨0, 1, ⊤, ⊤⟩]⟩

theorem picardZero_loop (n : Nat) :
    (picardZero (1/2)).loop (I 0 1) [⊤] [I 0 1] (I 0 (1 - 0)) n [I 0 1] = none := by
  induction n with
  | zero => rfl
  | succ n ih =>
    have h1 : (picardZero (1/2)).enclosure (I 0 1) [⊤] [I 0 1] (I 0 (1 - 0)) ([I 0 1].map (picardZero (1/2)).inflate) = [I 0 1] := by
      decide +kernel
    have h2 : ((picardZero (1/2)).unb [I 0 1] || Picard.boxEmpty [I 0 1] ||
        Picard.boxEmpty ([I 0 1].map (picardZero (1/2)).inflate)) = false := by decide +kernel
    have h3 : (List.zipWith Itv.interiorSubset [I 0 1] ([I 0 1].map (picardZero (1/2)).inflate)).all id = false := by
      decide +kernel
    unfold Picard.loop
    dsimp only
    rw [h1, h2, h3]
    exact ih

/-- **C22**, `delta`: the constructor accepts any `delta > 0`, but with `delta < 1` the guess is smaller than the enclosure and
the loop may never end: `x' = 0`, `x(0) ∈ [0,1]`, `delta = 1/2` (no number of iterations is enough). -/
theorem C22_small_delta_fails (pf n : Nat) (preserve : Bool) : (picardZero (1/2)).both pf n preserve [picardY] = none := by
  have hg : (picardZero (1/2)).guess pf true 0 (0, 1) [picardY] = none := by
    unfold Picard.guess
    have h1 : [picardY].any Tube.isEmpty = false := by decide +kernel
    rw [h1]
    have h2 : [picardY].map (fun T => T.codAt 0) = [⊤] := by decide +kernel
    have h3 : [picardY].map (fun T => T.evalAt (if true = true then (0, (1 : ℚ)).1 else (0, (1 : ℚ)).2)) = [I 0 1] := by
      decide +kernel
    rw [if_neg (by simp)]
    dsimp only
    dsimp only at h3
    rw [h2, h3, if_pos rfl, picardZero_loop]
    rfl
  have hl : (picardZero (1/2)).fwdLoop pf n 0 [picardY] = none := by
    cases n with
    | zero => rfl
    | succ n =>
      unfold Picard.fwdLoop
      have h1 : Picard.boundsAt 0 [picardY] = some (0, 1) := by decide +kernel
      have h2 : (picardZero (1/2)).unb ([picardY].map fun T => T.codAt 0) = true := by decide +kernel
      rw [h1]
      dsimp only
      rw [if_pos h2]
      unfold Picard.kth
      rw [if_neg (by decide +kernel), hg]
      rfl
  unfold Picard.both
  rw [if_neg (by decide +kernel)]
  unfold Picard.oneWay
  rw [if_neg (by decide +kernel), if_pos rfl, hl]
  rfl

/-- `x' = 0` over the reals -/
noncomputable def picardReal : Picard ℝ where
  A := IArith.exact ℝ
  F := fun X => X.tail.map fun _ => Itv.point 0
  mid := fun _ => 0
  delta := 1
  eps := 1
  big := Itv.icc (-99999) 99999

/-- hypotheses on the function and the arithmetic -/
example : EmptyArith picardReal.A ∧ Extension (fun v => v.tail.map fun _ => 0) picardReal.F := by
  refine ⟨⟨?_, ?_⟩, ⟨?_, ?_, ?_⟩⟩
  · intro X; cases X <;> rfl
  · intro X; cases X <;> rfl
  · intro X v h
    cases h with
    | nil => exact .nil
    | cons _ h =>
      show List.Forall₂ _ (List.map _ _) (List.map _ _)
      rw [List.forall₂_map_left_iff, List.forall₂_map_right_iff]
      exact h.imp fun _ _ _ => Itv.mem_point.mpr rfl
  · intro t X; simp [picardReal]
  · intro X I hI J hJ h
    simp only [picardReal, List.mem_map] at hI
    obtain ⟨-, -, rfl⟩ := hI
    cases h

/-- hypotheses on the tubes and the solution: a constant -/
example : PicardTubes [(0, 1)] [⟨0, 1, .icc 0 1, [⟨0, 1, ⊤, ⊤⟩]⟩] [fun _ => 1 / 2] ∧
    SolvesOn (fun v => v.tail.map fun _ => 0) [fun _ => 1 / 2] 0 1 := by
  refine ⟨.cons ⟨⟨by simp, by simp [Tiles]⟩, ?_, ?_, by simp [Tube.slices, slicesFrom]⟩ .nil, ?_, ?_⟩
  · intro s hs
    have : s = ⟨0, 1, ⊤, .icc 0 1, ⊤⟩ := by simpa [Tube.slices, slicesFrom] using hs
    subst this
    exact ⟨le_top, le_top⟩
  · intro s hs
    have : s = ⟨0, 1, ⊤, .icc 0 1, ⊤⟩ := by simpa [Tube.slices, slicesFrom] using hs
    subst this
    exact ⟨Itv.mem_icc.mpr ⟨by norm_num, by norm_num⟩, Itv.mem_top _, fun _ _ _ => Itv.mem_top _⟩
  · intro f hf
    simp only [List.mem_singleton] at hf
    subst hf
    exact continuousOn_const
  · intro t _ _
    exact .cons (hasDerivAt_const _ _) .nil

end Codac.Props
