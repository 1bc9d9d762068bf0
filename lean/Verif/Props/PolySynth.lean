import Verif.Tube.PolySynthProofs
import Verif.Tube.Eval
import Mathlib.Data.Rat.Floor
import Mathlib.Tactic.NormNum

/-!
# Property C99: the polynomial synthesis of a tube

`enable_synthesis(SynthesisMode::POLYNOMIAL, eps)` must not change what the user relies on: the evaluation on an interval and the codomain enclose the
values of the trajectories of the tube.
-/

set_option linter.unusedSectionVars false

namespace Codac.Props
open Codac PSyn

section
variable {K : Type*} [Field K] [LinearOrder K] [IsStrictOrderedRing K]

/-- `t` is a bound of a slice of the tube -/
def SliceBound (T : Tube K) (t : K) : Prop := ∃ s ∈ T.slices, t = s.lb ∨ t = s.ub

/-- **C99**, part: with the polynomial synthesis, `x([a,b])` contains the values on `[a,b]` of the trajectories of the tube, when `a` and `b` are
bounds of slices. Without this condition it is false: `C99_fails`. Also wanted, and false: after an update of the tube (`C99_update_fails`). -/
theorem C99_partial {fit : List (K × K) → Poly K} {r eps : K} {T : Tube K} (hT : T.WF) (hg : T.GatesInEnvelopes) (hr : 0 < r) (hr1 : r < 1) {n : Nat}
    {X : PTube K} (h : enable fit r eps n T = some X) {f : K → K} (hf : T.Encloses f) {a b : K} (hab : a < b) (ha : SliceBound T a)
    (hb : SliceBound T b) : ∀ t, a ≤ t → t ≤ b → f t ∈ X.evalItv (.icc a b) := by
  intro t h1 h2
  have ht : STiles T.t0 T.slices T.tf := hT.tiles.stiles
  obtain ⟨qa, hqa, ea⟩ := ha
  obtain ⟨qb, hqb, eb⟩ := hb
  have ba : T.t0 ≤ a := by
    have := ht.mem_bounds hqa
    rcases ea with rfl | rfl
    · exact this.1
    · exact this.1.trans this.2.1.le
  have bb : b ≤ T.tf := by
    have := ht.mem_bounds hqb
    rcases eb with rfl | rfl
    · exact this.2.1.le.trans this.2.2
    · exact this.2.2
  obtain ⟨s, hs, s1, s2, sa, sb⟩ : ∃ s ∈ T.slices, s.lb ≤ t ∧ t ≤ s.ub ∧ a ≤ s.lb ∧ s.ub ≤ b := by
    rcases lt_or_eq_of_le h2 with hlt | rfl
    · obtain ⟨s, hs, s1, s2⟩ := exists_right ht (ba.trans h1) (hlt.trans_le bb)
      refine ⟨s, hs, s1, s2.le, ?_, ?_⟩
      · exact (no_cross ht hs hqa ea).resolve_right (fun c => absurd (c.trans h1) (not_le.mpr s2))
      · exact (no_cross ht hs hqb eb).resolve_left (fun c => absurd (c.trans s1) (not_le.mpr hlt))
    · obtain ⟨s, hs, s1, s2⟩ := exists_left ht (ba.trans_lt hab) bb
      have hsub : s.ub ≤ t := (no_cross ht hs hqb eb).resolve_left (fun c => absurd c (not_le.mpr s1))
      refine ⟨s, hs, s1.le, s2, ?_, hsub⟩
      exact (no_cross ht hs hqa ea).resolve_right (fun c => absurd (s2.trans c) (not_le.mpr hab))
  have hmem : f t ∈ s.cod := (hf s hs).mem_cod (hg s hs) s1 s2
  have key := synth_sound hT hr hr1 h hs (I := .icc a b) (fun m m1 m2 => Itv.mem_icc.mpr ⟨sa.trans m1, m2.trans sb⟩) hmem
  rw [Itv.icc_eq_mk hab.le] at key ⊢
  simp only [PTube.evalItv, enable_tube h]
  rw [if_neg (by push Not; exact ⟨ba, bb⟩), if_neg hab.ne]
  exact key

/-- **C99**, codomain: with the polynomial synthesis, `codomain()` contains the values of the trajectories of the tube. -/
theorem C99_codomain {fit : List (K × K) → Poly K} {r eps : K} {T : Tube K} (hT : T.WF) (hg : T.GatesInEnvelopes) (hr : 0 < r) (hr1 : r < 1) {n : Nat}
    {X : PTube K} (h : enable fit r eps n T = some X) {f : K → K} (hf : T.Encloses f) : ∀ t, T.t0 ≤ t → t ≤ T.tf → f t ∈ X.codomain := by
  intro t h1 h2
  have ht : STiles T.t0 T.slices T.tf := hT.tiles.stiles
  obtain ⟨i, s, hi, s1, s2⟩ := ht.exists_idx (fun e => by simp [e, STiles, hT.lt.ne] at ht) h1 h2
  have hs := List.mem_of_getElem? hi
  have bs := ht.mem_bounds hs
  have hmem : f t ∈ s.cod := (hf s hs).mem_cod (hg s hs) s1 s2
  simp only [PTube.codomain, enable_tube h]
  exact synth_sound hT hr hr1 h hs (fun m m1 m2 => Itv.mem_icc.mpr ⟨bs.1.trans m1, m2.trans bs.2.2⟩) hmem

/-- **C99**, end of the call: the recursion of the constructors is finite, whatever the polynomials that are fitted. -/
theorem C99_ends [Archimedean K] (fit : List (K × K) → Poly K) {r : K} (eps : K) {T : Tube K} (hT : T.WF) (hr : 0 < r) (hr1 : r < 1) (upper : Bool) :
    ∃ n, build fit r eps T upper n T.t0 T.tf ≠ .more := by
  have ht : STiles T.t0 T.slices T.tf := hT.tiles.stiles
  have hne : T.slices ≠ [] := fun e => by simp [e, STiles, hT.lt.ne] at ht
  obtain ⟨δ, hδ, hδs⟩ : ∃ δ : K, 0 < δ ∧ ∀ s ∈ T.slices, δ ≤ s.ub - s.lb := by
    have hpos : ∀ s ∈ T.slices, 0 < s.ub - s.lb := fun s hs => sub_pos.mpr (ht.mem_bounds hs).2.1
    generalize T.slices = ss at hpos
    induction ss with
    | nil => exact ⟨1, one_pos, by simp⟩
    | cons s ss ih =>
      obtain ⟨δ, h1, h2⟩ := ih (fun q hq => hpos q (List.mem_cons_of_mem _ hq))
      refine ⟨min δ (s.ub - s.lb), lt_min h1 (hpos s (by simp)), ?_⟩
      intro q hq
      rcases List.mem_cons.mp hq with rfl | hq
      · exact min_le_right _ _
      · exact (min_le_left _ _).trans (h2 q hq)
  have hw : 0 < T.tf - T.t0 := sub_pos.mpr hT.lt
  obtain ⟨n, hn⟩ := exists_pow_lt_of_lt_one (div_pos hδ hw) (max_lt hr1 (sub_lt_self 1 hr))
  refine ⟨n + 1, build_ends ht hne hr hr1 hδs n le_rfl hT.lt.le le_rfl ?_⟩
  rw [lt_div_iff₀ hw] at hn
  linarith

end

/-! ## Least squares -/

/-- `p` minimises the sum of the squares of the errors on the samples -/
def LeastSquares {K : Type*} [Field K] [LinearOrder K] (p : Poly K) (l : List (K × K)) : Prop :=
  ∀ q : Poly K, (l.map fun e => (e.2 - p.at e.1) ^ 2).sum ≤ (l.map fun e => (e.2 - q.at e.1) ^ 2).sum

/-- the samples of the whole tube are fitted by least squares -/
def FitsBy {K : Type*} [Field K] [LinearOrder K] (fit : List (K × K) → Poly K) (T : Tube K) : Prop :=
  ∀ upper l, getBounds T upper T.t0 T.tf = some l → LeastSquares (fit l) l

/-- a tube with three slices -/
def psynT : Tube ℚ := ⟨-6/5, 6/5, .icc (-2) 1, [⟨-6/5, -1, .icc (-2) 1, .icc (-2) 0⟩, ⟨-1, 1, .icc (-3) 0, .icc (-2) 0⟩, ⟨1, 6/5, .icc (-2) 1, .icc (-2) 1⟩]⟩

theorem psynT_up : getBounds psynT true (-6/5) (6/5) = some [(-6/5, 1), (-1, 1), (-1, 0), (1, 0), (1, 1), (6/5, 1)] := by decide +kernel
theorem psynT_low : getBounds psynT false (-6/5) (6/5) = some [(-6/5, -2), (-1, -2), (-1, -3), (1, -3), (1, -2), (6/5, -2)] := by decide +kernel

/-- the least squares have a unique solution on such samples -/
theorem ls_unique {p : Poly ℚ} (u v : ℚ) (h : LeastSquares p [(-6/5, u), (-1, u), (-1, v), (1, v), (1, u), (6/5, u)]) :
    p = ⟨(u + v) / 2 - 25/22 * (u - v), 0, 25/22 * (u - v)⟩ := by
  have := h ⟨(u + v) / 2 - 25/22 * (u - v), 0, 25/22 * (u - v)⟩
  obtain ⟨c0, c1, c2⟩ := p
  simp only [List.map_cons, List.map_nil, List.sum_cons, List.sum_nil, Poly.at] at this
  obtain ⟨d0, e0⟩ : ∃ d, d = c0 - ((u + v) / 2 - 25/22 * (u - v)) := ⟨_, rfl⟩
  obtain ⟨d2, e2⟩ : ∃ d, d = c2 - 25/22 * (u - v) := ⟨_, rfl⟩
  have k0 : c0 = d0 + ((u + v) / 2 - 25/22 * (u - v)) := by linarith
  have k2 : c2 = d2 + 25/22 * (u - v) := by linarith
  rw [k0, k2] at this
  have hsum : (d0 - 6/5 * c1 + 36/25 * d2) ^ 2 + 2 * (d0 - c1 + d2) ^ 2 + 2 * (d0 + c1 + d2) ^ 2 + (d0 + 6/5 * c1 + 36/25 * d2) ^ 2 ≤ 0 := by
    nlinarith
  have z1 : d0 - c1 + d2 = 0 := by
    have : (d0 - c1 + d2) ^ 2 ≤ 0 := by nlinarith [sq_nonneg (d0 - 6/5 * c1 + 36/25 * d2), sq_nonneg (d0 + c1 + d2), sq_nonneg (d0 + 6/5 * c1 + 36/25 * d2), sq_nonneg (d0 - c1 + d2)]
    exact pow_eq_zero_iff (two_ne_zero) |>.mp (le_antisymm this (sq_nonneg _))
  have z2 : d0 + c1 + d2 = 0 := by
    have : (d0 + c1 + d2) ^ 2 ≤ 0 := by nlinarith [sq_nonneg (d0 - 6/5 * c1 + 36/25 * d2), sq_nonneg (d0 + c1 + d2), sq_nonneg (d0 + 6/5 * c1 + 36/25 * d2), sq_nonneg (d0 - c1 + d2)]
    exact pow_eq_zero_iff (two_ne_zero) |>.mp (le_antisymm this (sq_nonneg _))
  have z3 : d0 + 6/5 * c1 + 36/25 * d2 = 0 := by
    have : (d0 + 6/5 * c1 + 36/25 * d2) ^ 2 ≤ 0 := by nlinarith [sq_nonneg (d0 - 6/5 * c1 + 36/25 * d2), sq_nonneg (d0 + c1 + d2), sq_nonneg (d0 + 6/5 * c1 + 36/25 * d2), sq_nonneg (d0 - c1 + d2)]
    exact pow_eq_zero_iff (two_ne_zero) |>.mp (le_antisymm this (sq_nonneg _))
  have hc1 : c1 = 0 := by linarith
  have hd2 : d2 = 0 := by linarith
  have hd0 : d0 = 0 := by linarith
  simp only [Poly.mk.injEq]
  exact ⟨by linarith, hc1, by linarith⟩

/-- the polynomials of `psynT` -/
def psynLow : Fact ℚ := ⟨0, -40/11, 25/22, -1/2⟩
def psynUp : Fact ℚ := ⟨0, -7/11, 25/22, 1/2⟩

theorem psyn_low {fit : List (ℚ × ℚ) → Poly ℚ} (h : FitsBy fit psynT) : factored fit psynT false (-6/5) (6/5) = some psynLow := by
  unfold factored
  have := ls_unique (-2) (-3) (h _ _ psynT_low)
  rw [psynT_low]
  simp only [Option.bind_some, this]
  rw [if_pos (by norm_num)]
  norm_num [Poly.at, offsetOf, psynLow]

theorem psyn_up {fit : List (ℚ × ℚ) → Poly ℚ} (h : FitsBy fit psynT) : factored fit psynT true (-6/5) (6/5) = some psynUp := by
  unfold factored
  have := ls_unique 1 0 (h _ _ psynT_up)
  rw [psynT_up]
  simp only [Option.bind_some, this]
  rw [if_pos (by norm_num)]
  norm_num [Poly.at, offsetOf, psynUp]

/-- the synthesis of `psynT` -/
def psynX : PTube ℚ := ⟨psynT, .leaf (-6/5) (6/5) psynLow, .leaf (-6/5) (6/5) psynUp⟩

theorem psyn_enable {fit : List (ℚ × ℚ) → Poly ℚ} (h : FitsBy fit psynT) (eps : ℚ) (n : Nat) :
    enable fit (9/20) eps (n + 1) psynT = some psynX := by
  have e : ¬ timeToIndex (6/5) psynT.slices > timeToIndex (-6/5) psynT.slices + 3 := by decide +kernel
  have b1 : build fit (9/20) eps psynT false (n + 1) psynT.t0 psynT.tf = .ok (.leaf (-6/5) (6/5) psynLow) := by
    rw [build, show psynT.t0 = -6/5 from rfl, show psynT.tf = 6/5 from rfl, psyn_low h]
    exact if_neg (fun c => e c.2)
  have b2 : build fit (9/20) eps psynT true (n + 1) psynT.t0 psynT.tf = .ok (.leaf (-6/5) (6/5) psynUp) := by
    rw [build, show psynT.t0 = -6/5 from rfl, show psynT.tf = 6/5 from rfl, psyn_up h]
    exact if_neg (fun c => e c.2)
  unfold enable
  rw [b1, b2]
  rfl

theorem psyn_wf : psynT.WF := ⟨by simp [psynT], by simp [psynT, Tiles]; norm_num⟩
theorem psyn_gates : psynT.GatesInEnvelopes := by
  intro s hs
  revert s
  decide +kernel

theorem psyn_zero : psynT.Encloses (fun _ => 0) := by
  intro s hs
  simp only [psynT, Tube.slices, slicesFrom, List.mem_cons, List.not_mem_nil, or_false] at hs
  rcases hs with rfl | rfl | rfl <;> refine ⟨?_, ?_, fun _ _ _ => ?_⟩ <;> simp

/-- **C99**, defect: the polynomials are shifted so that they are beyond the bounds of the slices at their ends only. A convex upper polynomial may then
be below the upper bound of a slice: the synthesis of `psynT`, by least squares, gives on `[-0.1, 0.1]` an interval without 0, while 0 is the value of
a trajectory of the tube. -/
theorem C99_fails {fit : List (ℚ × ℚ) → Poly ℚ} (h : FitsBy fit psynT) (eps : ℚ) (n : Nat) :
    ∃ X, enable fit (9/20) eps (n + 1) psynT = some X ∧ psynT.Encloses (fun _ => 0) ∧ (0 : ℚ) ∉ X.evalItv (.icc (-1/10) (1/10)) ∧
      (0 : ℚ) ∈ psynT.evalItv (.icc (-1/10) (1/10)) :=
  ⟨psynX, psyn_enable h eps n, psyn_zero, by decide +kernel, by decide +kernel⟩

/-- a trajectory that goes up to 10 between -1 and 1 -/
def tent (t : ℚ) : ℚ := max 0 (10 - 10 * |t|)

/-- **C99**, defect: the synthesis is not updated with the tube. After `set([-3,10], 1)`, the trajectory `tent` is in the tube and its value 10 is
neither in `codomain()` nor in `x([-1,1])`. -/
theorem C99_update_fails {fit : List (ℚ × ℚ) → Poly ℚ} (h : FitsBy fit psynT) (eps : ℚ) (n : Nat) :
    ∃ X, enable fit (9/20) eps (n + 1) psynT = some X ∧ (X.setIdx (.icc (-3) 10) 1).tube.Encloses tent ∧ tent 0 = 10 ∧
      (10 : ℚ) ∉ (X.setIdx (.icc (-3) 10) 1).codomain ∧ (10 : ℚ) ∉ (X.setIdx (.icc (-3) 10) 1).evalItv (.icc (-1) 1) := by
  refine ⟨psynX, psyn_enable h eps n, ?_, by norm_num [tent], by decide +kernel, by decide +kernel⟩
  have e : (psynX.setIdx (.icc (-3) 10) 1).tube.slices = [⟨-6/5, -1, .icc (-2) 1, .icc (-2) 1, .icc (-2) 1⟩, ⟨-1, 1, .icc (-3) 10, .icc (-2) 1, .icc (-2) 1⟩,
      ⟨1, 6/5, .icc (-2) 1, .icc (-2) 1, .icc (-2) 1⟩] := by decide +kernel
  intro s hs
  rw [e] at hs
  simp only [List.mem_cons, List.not_mem_nil, or_false] at hs
  have h0 : ∀ t : ℚ, 0 ≤ tent t := fun t => le_max_left _ _
  have h10 : ∀ t : ℚ, tent t ≤ 10 := fun t => max_le (by norm_num) (by linarith [abs_nonneg t])
  have hz : ∀ t : ℚ, 1 ≤ |t| → tent t = 0 := fun t ht => max_eq_left (by linarith)
  rcases hs with rfl | rfl | rfl
  · refine ⟨?_, ?_, fun t h1 h2 => ?_⟩
    · rw [hz _ (by norm_num [abs_of_nonneg, abs_of_neg, abs_div])]; decide +kernel
    · rw [hz _ (by norm_num)]; decide +kernel
    · rw [hz _ (by rw [abs_of_neg (by simp only at h2; linarith)]; simp only at h2; linarith)]; decide +kernel
  · refine ⟨?_, ?_, fun t h1 h2 => Itv.mem_icc.mpr ⟨(show (-3 : ℚ) ≤ 0 by norm_num).trans (h0 t), h10 t⟩⟩
    · rw [hz _ (by norm_num)]; decide +kernel
    · rw [hz _ (by norm_num)]; decide +kernel
  · refine ⟨?_, ?_, fun t h1 h2 => ?_⟩
    · rw [hz _ (by norm_num)]; decide +kernel
    · rw [hz _ (by norm_num [abs_of_nonneg, abs_div])]; decide +kernel
    · rw [hz _ (by rw [abs_of_pos (by simp only at h1; linarith)]; simp only at h1; linarith)]; decide +kernel

/-- least squares on the samples of `psynT` -/
def psynFit (l : List (ℚ × ℚ)) : Poly ℚ :=
  if l = [(-6/5, 1), (-1, 1), (-1, 0), (1, 0), (1, 1), (6/5, 1)] then ⟨-7/11, 0, 25/22⟩ else ⟨-40/11, 0, 25/22⟩

theorem psynFit_ls : FitsBy psynFit psynT := by
  have sq4 : ∀ a b c d : ℚ, 0 ≤ a ^ 2 + 2 * b ^ 2 + 2 * c ^ 2 + d ^ 2 := fun a b c d => by positivity
  intro upper l hl
  cases upper with
  | true =>
    have e := psynT_up.symm.trans hl
    obtain rfl := Option.some.inj e
    intro q
    obtain ⟨c0, c1, c2⟩ := q
    have := sq4 (c0 + 7/11 - 6/5 * c1 + 36/25 * (c2 - 25/22)) (c0 + 7/11 - c1 + (c2 - 25/22)) (c0 + 7/11 + c1 + (c2 - 25/22))
      (c0 + 7/11 + 6/5 * c1 + 36/25 * (c2 - 25/22))
    simp only [psynFit, if_true, List.map_cons, List.map_nil, List.sum_cons, List.sum_nil, Poly.at]
    linarith
  | false =>
    have e := psynT_low.symm.trans hl
    obtain rfl := Option.some.inj e
    intro q
    obtain ⟨c0, c1, c2⟩ := q
    have := sq4 (c0 + 40/11 - 6/5 * c1 + 36/25 * (c2 - 25/22)) (c0 + 40/11 - c1 + (c2 - 25/22)) (c0 + 40/11 + c1 + (c2 - 25/22))
      (c0 + 40/11 + 6/5 * c1 + 36/25 * (c2 - 25/22))
    rw [psynFit, if_neg (by decide +kernel)]
    simp only [List.map_cons, List.map_nil, List.sum_cons, List.sum_nil, Poly.at]
    linarith

/-- the defects have a witness -/
example : ∃ X, enable psynFit (9/20) (1/1000) 1 psynT = some X ∧ (0 : ℚ) ∉ X.evalItv (.icc (-1/10) (1/10)) := by
  obtain ⟨X, h1, _, h2, _⟩ := C99_fails psynFit_ls (1/1000) 0
  exact ⟨X, h1, h2⟩

/-- the hypotheses of `C99_partial` and of `C99_codomain` are met, with a result that is not the whole line -/
example : (0 : ℚ) ∈ psynX.evalItv (.icc (-1) 1) ∧ (0 : ℚ) ∈ psynX.codomain ∧ (2 : ℚ) ∉ psynX.evalItv (.icc (-1) 1) ∧ (-6 : ℚ) ∉ psynX.codomain :=
  ⟨C99_partial psyn_wf psyn_gates (by norm_num) (by norm_num) (psyn_enable psynFit_ls 1 0) psyn_zero (by norm_num)
      (by simp only [SliceBound]; decide +kernel) (by simp only [SliceBound]; decide +kernel) 0 (by norm_num) (by norm_num),
    C99_codomain psyn_wf psyn_gates (by norm_num) (by norm_num) (psyn_enable psynFit_ls 1 0) psyn_zero 0 (by decide +kernel) (by decide +kernel),
    by decide +kernel, by decide +kernel⟩

example : ∃ n, build psynFit (9/20) (1/1000) psynT true n psynT.t0 psynT.tf ≠ .more :=
  C99_ends psynFit (1/1000) psyn_wf (by norm_num) (by norm_num) true

/-! ## Tubes without a synthesis -/

section
variable {K : Type*} [Field K] [LinearOrder K] [IsStrictOrderedRing K]

theorem sum_sq_eq_zero {α : Type*} (g : α → K) {l : List α} (h : (l.map fun e => g e ^ 2).sum ≤ 0) : ∀ e ∈ l, g e = 0 := by
  induction l with
  | nil => simp
  | cons d l ih =>
    simp only [List.map_cons, List.sum_cons] at h
    have hs : 0 ≤ (l.map fun e => g e ^ 2).sum := List.sum_nonneg (by
      intro x hx
      obtain ⟨e, _, rfl⟩ := List.mem_map.mp hx
      exact sq_nonneg _)
    have hd := sq_nonneg (g d)
    intro e he
    rcases List.mem_cons.mp he with rfl | he
    · exact pow_eq_zero_iff two_ne_zero |>.mp (le_antisymm (by linarith) hd)
    · exact ih (by linarith) e he

theorem boundsLoop_const {upper : Bool} {a b y : K} {ss : List (Slice K)} {l : List (K × K)} (h : boundsLoop upper a b ss = some l)
    (hy : ∀ s ∈ ss, boundOf upper s.cod = some y) : ∀ e ∈ l, e.2 = y := by
  induction ss generalizing l with
  | nil => simp only [boundsLoop, Option.some.injEq] at h; subst h; simp
  | cons s ss ih =>
    rw [boundsLoop] at h
    split_ifs at h
    · rw [Option.bind_eq_some_iff] at h
      obtain ⟨v, hv, h⟩ := h
      obtain ⟨l', hl', rfl⟩ := Option.map_eq_some_iff.mp h
      have : v = y := Option.some.inj (hv.symm.trans (hy s (by simp)))
      intro e he
      simp only [List.mem_cons] at he
      rcases he with rfl | rfl | he
      · exact this
      · exact this
      · exact ih hl' (fun q hq => hy q (List.mem_cons_of_mem _ hq)) e he
    · obtain rfl := Option.some.inj h
      simp

/-- **C99**, defect: the synthesis of a tube whose upper bound is constant never succeeds, as the polynomial fitted by least squares has no term of
degree 2 and the code then stops on an assertion (or, for a tube of one slice, on the number of samples). -/
theorem C99_constant_fails {fit : List (K × K) → Poly K} {T : Tube K} (hT : T.WF) (hfit : FitsBy fit T) {y : K}
    (hy : ∀ s ∈ T.slices, s.cod.ub? = some y) (r eps : K) (n : Nat) : enable fit r eps n T = none := by
  have ht : STiles T.t0 T.slices T.tf := hT.tiles.stiles
  have hne : T.slices ≠ [] := fun e => by simp [e, STiles, hT.lt.ne] at ht
  have key : factored fit T true T.t0 T.tf = none := by
    unfold factored
    cases hb : getBounds T true T.t0 T.tf with
    | none => rfl
    | some l =>
      have hls := hfit _ _ hb
      simp only [Option.bind_some]
      rw [if_neg]
      push Not
      unfold getBounds at hb
      rw [Option.bind_eq_some_iff] at hb
      obtain ⟨l', hl', e⟩ := hb
      split_ifs at e with hlen
      obtain rfl := Option.some.inj e
      obtain ⟨a', k1, k2, k3, k4⟩ := seek_tail ht hne le_rfl hT.lt.le
      have hval := boundsLoop_const hl' (y := y) (fun s hs => hy s (k4 s hs).1)
      have hres : ∀ e ∈ l', e.2 - (fit l').at e.1 = 0 := by
        apply sum_sq_eq_zero (fun e : K × K => e.2 - (fit l').at e.1)
        refine (hls ⟨y, 0, 0⟩).trans (le_of_eq ?_)
        apply List.sum_eq_zero
        intro x hx
        obtain ⟨e, he, rfl⟩ := List.mem_map.mp hx
        simp [Poly.at, hval e he]
      -- three instants
      have hthree : ∃ t1 t2 t3 : K, t1 < t2 ∧ t2 < t3 ∧ (t1, y) ∈ l' ∧ (t2, y) ∈ l' ∧ (t3, y) ∈ l' := by
        match hss : T.slices, ht with
        | [], _ => exact absurd hss hne
        | [s], h =>
          have hsk : seek T.t0 T.slices = [s] := by rw [hss]; rfl
          rw [hsk, boundsLoop] at hl'
          split_ifs at hl'
          · rw [Option.bind_eq_some_iff] at hl'
            obtain ⟨v, hv, h⟩ := hl'
            simp only [boundsLoop, Option.map_some, Option.some.injEq] at h
            rw [← h] at hlen
            simp at hlen
          · simp only [Option.some.injEq] at hl'
            rw [← hl'] at hlen
            simp at hlen
        | s :: s' :: ss, h =>
          have hs : s ∈ T.slices := by rw [hss]; simp
          have hs' : s' ∈ T.slices := by rw [hss]; simp
          have bs := ht.mem_bounds hs
          have bs' := ht.mem_bounds hs'
          have e1 : s.ub = s'.lb := h.2.2.1.symm
          have o1 : max s.lb T.t0 = s.lb := max_eq_left bs.1
          have o2 : min s.ub T.tf = s.ub := min_eq_left bs.2.2
          have o1' : max s'.lb T.t0 = s'.lb := max_eq_left bs'.1
          have o2' : min s'.ub T.tf = s'.ub := min_eq_left bs'.2.2
          obtain ⟨v, hv, m1, m2⟩ := boundsLoop_mem k1 hl' (k3 s hs (bs.1.trans_lt bs.2.1)) (by rw [o1, o2]; exact bs.2.1.le) (k2.trans hT.lt.le)
            (fun q hq => (k4 q hq).2)
          obtain ⟨v', hv', m1', m2'⟩ := boundsLoop_mem k1 hl' (k3 s' hs' (bs'.1.trans_lt bs'.2.1)) (by rw [o1', o2']; exact bs'.2.1.le)
            (k2.trans hT.lt.le) (fun q hq => (k4 q hq).2)
          have ev : v = y := Option.some.inj (hv.symm.trans (hy s hs))
          have ev' : v' = y := Option.some.inj (hv'.symm.trans (hy s' hs'))
          rw [ev, o1] at m1
          rw [ev, o2] at m2
          rw [ev', o2'] at m2'
          exact ⟨s.lb, s.ub, s'.ub, bs.2.1, e1 ▸ bs'.2.1, m1, m2, m2'⟩
      obtain ⟨t1, t2, t3, h12, h23, m1, m2, m3⟩ := hthree
      have r1 := hres _ m1
      have r2 := hres _ m2
      have r3 := hres _ m3
      simp only [Poly.at] at r1 r2 r3
      have d1 : (fit l').c1 + (fit l').c2 * (t1 + t2) = 0 := by
        have : ((fit l').c1 + (fit l').c2 * (t1 + t2)) * (t2 - t1) = 0 := by linear_combination r1 - r2
        exact (mul_eq_zero.mp this).resolve_right (sub_ne_zero.mpr h12.ne')
      have d2 : (fit l').c1 + (fit l').c2 * (t2 + t3) = 0 := by
        have : ((fit l').c1 + (fit l').c2 * (t2 + t3)) * (t3 - t2) = 0 := by linear_combination r2 - r3
        exact (mul_eq_zero.mp this).resolve_right (sub_ne_zero.mpr h23.ne')
      have : (fit l').c2 * (t3 - t1) = 0 := by linear_combination d2 - d1
      exact (mul_eq_zero.mp this).resolve_right (sub_ne_zero.mpr (h12.trans h23).ne')
  unfold enable
  cases n with
  | zero => rfl
  | succ n =>
    have : build fit r eps T true (n + 1) T.t0 T.tf = .fail := by rw [build, key]
    rw [this]
    split <;> simp_all

/-- the errors of least squares have a null sum -/
theorem sum_errors {p : Poly K} {l : List (K × K)} (h : LeastSquares p l) : (l.map fun e => e.2 - p.at e.1).sum = 0 := by
  have key : ∀ d : K, (l.map fun e => (e.2 - (⟨p.c0 + d, p.c1, p.c2⟩ : Poly K).at e.1) ^ 2).sum =
      (l.map fun e => (e.2 - p.at e.1) ^ 2).sum - 2 * d * (l.map fun e => e.2 - p.at e.1).sum + l.length * d ^ 2 := by
    intro d
    clear h
    induction l with
    | nil => simp
    | cons e l ih =>
      simp only [List.map_cons, List.sum_cons, ih, List.length_cons, Nat.cast_add, Nat.cast_one]
      simp only [Poly.at]
      ring
  by_contra hne
  have hl : (0 : K) < l.length := by
    rcases l with _ | ⟨e, l⟩
    · simp at hne
    · simp only [List.length_cons, Nat.cast_add, Nat.cast_one]; positivity
  generalize hS : (l.map fun e => e.2 - p.at e.1).sum = S at key hne
  have := h ⟨p.c0 + S / l.length, p.c1, p.c2⟩
  rw [key] at this
  have e : 2 * (S / l.length) * S - l.length * (S / l.length) ^ 2 = S ^ 2 / l.length := by field_simp; ring
  have hpos : 0 < S ^ 2 / l.length := div_pos (by positivity) hl
  linarith

end

/-- a tube whose last slice is much longer than the other ones -/
def psynL : Tube ℚ := ⟨0, 100, .icc 0 1, [⟨0, 1, .icc 0 1, .icc 0 1⟩, ⟨1, 2, .icc 0 11, .icc 0 1⟩, ⟨2, 3, .icc 0 1, .icc 0 1⟩, ⟨3, 4, .icc 0 11, .icc 0 1⟩,
  ⟨4, 100, .icc 0 1, .icc 0 1⟩]⟩

theorem psynL_up : getBounds psynL true 0 100 = some [(0, 1), (1, 1), (1, 11), (2, 11), (2, 1), (3, 1), (3, 11), (4, 11), (4, 1), (100, 1)] := by
  decide +kernel

/-- **C99**, defect: `psynL` is bisected, its second half has a single slice and not the number of samples asserted. -/
theorem C99_bisect_fails {fit : List (ℚ × ℚ) → Poly ℚ} (h : FitsBy fit psynL) (n : Nat) : enable fit (9/20) (1/1000) (n + 2) psynL = none := by
  have hls := h _ _ psynL_up
  have hsum := sum_errors hls
  have key : ∀ tr, build fit (9/20) (1/1000) psynL true (n + 2) psynL.t0 psynL.tf ≠ .ok tr := by
    intro tr
    rw [build, show psynL.t0 = 0 from rfl, show psynL.tf = 100 from rfl]
    cases hf : factored fit psynL true 0 100 with
    | none => simp
    | some P =>
      have ho : ∃ o, P.offset = o ∧ ∀ e ∈ [((0 : ℚ), (1 : ℚ)), (1, 1), (1, 11), (2, 11), (2, 1), (3, 1), (3, 11), (4, 11), (4, 1), (100, 1)],
          e.2 ≤ (fit [(0, 1), (1, 1), (1, 11), (2, 11), (2, 1), (3, 1), (3, 11), (4, 11), (4, 1), (100, 1)]).at e.1 + o := by
        unfold factored at hf
        rw [psynL_up] at hf
        simp only [Option.bind_some] at hf
        split_ifs at hf
        · obtain rfl := Option.some.inj hf
          exact ⟨_, rfl, fun e he => offset_spec true _ he⟩
        · obtain rfl := Option.some.inj hf
          exact ⟨_, rfl, fun e he => offset_spec true _ he⟩
      obtain ⟨o, e, hmax⟩ := ho
      generalize hp : fit [(0, 1), (1, 1), (1, 11), (2, 11), (2, 1), (3, 1), (3, 11), (4, 11), (4, 1), (100, 1)] = p at hmax hsum
      have hbig : |P.offset| > 1/1000 := by
        rw [e]
        refine lt_of_lt_of_le ?_ (le_abs_self o)
        by_contra hc
        push Not at hc
        simp only [List.map_cons, List.map_nil, List.sum_cons, List.sum_nil] at hsum
        have m1 := hmax (0, 1) (by simp)
        have m3 := hmax (1, 11) (by simp)
        have m4 := hmax (2, 11) (by simp)
        have m7 := hmax (3, 11) (by simp)
        have m8 := hmax (4, 11) (by simp)
        have m10 := hmax (100, 1) (by simp)
        simp only at m1 m3 m4 m7 m8 m10
        linarith
      simp only
      rw [if_pos ⟨hbig, by decide +kernel⟩]
      intro hj
      obtain ⟨l, r, _, e2, _⟩ := Res.join_ok hj
      have : factored fit psynL true (0 + 9 / 20 * (100 - 0)) 100 = none := by
        have : getBounds psynL true (0 + 9 / 20 * (100 - 0)) 100 = none := by decide +kernel
        rw [factored, this]; rfl
      rw [build, this] at e2
      simp at e2
  unfold enable
  split
  · next l u hl hu => exact absurd hu (key u)
  · rfl

/-- least squares on the samples of `psynL` -/
def psynFitL (l : List (ℚ × ℚ)) : Poly ℚ :=
  if l = [(0, 1), (1, 1), (1, 11), (2, 11), (2, 1), (3, 1), (3, 11), (4, 11), (4, 1), (100, 1)] then ⟨61196771/16044117, 4049579/5348039, -126005/16044117⟩ else ⟨0, 0, 0⟩

theorem psynFitL_ls : FitsBy psynFitL psynL := by
  have sq : ∀ a b c : ℚ, 0 ≤ 1 * (a + b * 0 + c * 0 ^ 2) ^ 2 + 2 * (a + b * 1 + c * 1 ^ 2) ^ 2 + 2 * (a + b * 2 + c * 2 ^ 2) ^ 2 + 2 * (a + b * 3 + c * 3 ^ 2) ^ 2 + 2 * (a + b * 4 + c * 4 ^ 2) ^ 2 + 1 * (a + b * 100 + c * 100 ^ 2) ^ 2 := fun a b c => by positivity
  intro upper l hl
  cases upper with
  | true =>
    have e := psynL_up.symm.trans hl
    obtain rfl := Option.some.inj e
    intro q
    obtain ⟨c0, c1, c2⟩ := q
    have := sq (c0 - (61196771/16044117)) (c1 - (4049579/5348039)) (c2 - (-126005/16044117))
    simp only [psynFitL, if_true, List.map_cons, List.map_nil, List.sum_cons, List.sum_nil, Poly.at]
    linarith
  | false =>
    have e : getBounds psynL false 0 100 = some [(0, 0), (1, 0), (1, 0), (2, 0), (2, 0), (3, 0), (3, 0), (4, 0), (4, 0), (100, 0)] := by decide +kernel
    obtain rfl := Option.some.inj (e.symm.trans hl)
    intro q
    rw [psynFitL, if_neg (by decide +kernel)]
    refine le_of_eq_of_le ?_ (List.sum_nonneg (fun x hx => ?_))
    · norm_num [Poly.at]
    · obtain ⟨d, _, rfl⟩ := List.mem_map.mp hx
      exact sq_nonneg _

example : enable psynFitL (9/20) (1/1000) 20 psynL = none := C99_bisect_fails psynFitL_ls 18

/-- a tube with a constant envelope -/
def psynC : Tube ℚ := ⟨0, 2, .icc 0 1, [⟨0, 1, .icc 0 1, .icc 0 1⟩, ⟨1, 2, .icc 0 1, .icc 0 1⟩]⟩

example (eps : ℚ) (n : Nat) : enable (fun l => ⟨(l.head?.map Prod.snd).getD 0, 0, 0⟩) (9/20) eps n psynC = none := by
  refine C99_constant_fails ⟨by simp [psynC], by simp [psynC, Tiles]⟩ ?_ (y := 1) (by decide +kernel) _ _ _
  intro upper l hl
  have e1 : getBounds psynC true 0 2 = some [(0, 1), (1, 1), (1, 1), (2, 1)] := by decide +kernel
  have e2 : getBounds psynC false 0 2 = some [(0, 0), (1, 0), (1, 0), (2, 0)] := by decide +kernel
  have hle : ∀ (q : Poly ℚ) (l : List (ℚ × ℚ)), 0 ≤ (l.map fun e => (e.2 - q.at e.1) ^ 2).sum := fun q l => List.sum_nonneg (fun x hx => by
    obtain ⟨d, _, rfl⟩ := List.mem_map.mp hx
    exact sq_nonneg _)
  cases upper with
  | true =>
    obtain rfl := Option.some.inj (e1.symm.trans hl)
    intro q
    exact le_of_eq_of_le (by norm_num [Poly.at]) (hle q _)
  | false =>
    obtain rfl := Option.some.inj (e2.symm.trans hl)
    intro q
    exact le_of_eq_of_le (by norm_num [Poly.at]) (hle q _)

end Codac.Props
