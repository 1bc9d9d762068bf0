import Verif.Tube.VecIntegral
import Verif.Traj.VectorProofs
import Verif.Props.Integral
import Verif.Props.TubeMisc
import Verif.Props.PolyTube
import Verif.Props.TubeOps
import Verif.Props.TubeVec
import Verif.Props.EvalItv

/-!
# C147: vectors of tubes: integrals, primitives, interpolation, truncation, overlaps, volume

The specification is in terms of vectors of functions: `InVector x f` reads "the function of components `f 0`, `f 1`… is in the vector of tubes `x`"; `VecSlope x F`
reads "the slopes of each component of `F` are in the component of `x`", that is `F` is a primitive of a function of `x`; `ValuesIn X v` reads "the vector of values
`v 0`, `v 1`… is in the box `X`".
-/

set_option linter.unusedSectionVars false

namespace Codac.Props
open Codac Codac.TuVec

section field
variable {K : Type*} [Field K] [LinearOrder K] [IsStrictOrderedRing K]

/-- the values `v 0`, …, `v (n-1)` are in the box `X` of `n` components -/
def ValuesIn (X : Box K) (n : Nat) (v : Nat → K) : Prop := X.length = n ∧ ∀ (i : Nat) (I : Itv K), X[i]? = some I → v i ∈ I

/-- each component of `F` is a primitive of a function of the component of `x` -/
def VecSlope (x : List (Tube K)) (F : Nat → K → K) : Prop := ∀ (i : Nat) (T : Tube K), x[i]? = some T → T.SlopeIn (F i)

theorem within_of {x : List (Tube K)} {n : Nat} {a b : K} (h : VecOver x n a b) {c d : K} : within x c d = true ↔ a ≤ c ∧ d ≤ b := by
  simp [within, h.dom]

theorem set_wf' {T : Tube K} (h : T.WF) {I : Itv K} : (T.set I).WF := by
  rw [set_eq h.ne]
  refine ⟨?_, (tiles_of_bounds (constCells_bounds _ _)).mpr h.tiles⟩
  intro hcon
  exact h.ne (by simpa [constCells] using hcon)

theorem valuesIn_map {x : List (Tube K)} {n : Nat} (hn : x.length = n) {g : Tube K → Itv K} {v : Nat → K}
    (H : ∀ (i : Nat) (T : Tube K), x[i]? = some T → v i ∈ g T) : ValuesIn (x.map g) n v := by
  refine ⟨by simp [hn], fun i I hI => ?_⟩
  rw [List.getElem?_map, Option.map_eq_some_iff] at hI
  obtain ⟨T, hT, rfl⟩ := hI
  exact H i T hT

/-- **C147**: `x.integral([t])` contains, for every vector of functions of `x` of primitive `F` null at the initial instant, the value of `F` at every instant of `[t]`;
`x.partial_integral([t])` gives bounds below and above these values -/
theorem C147_integral {A : IArith K} {x : List (Tube K)} {n : Nat} {a b : K} (h : VecOver x n a b) {c d : K} (ha : a ≤ c) (hcd : c ≤ d) (hb : d ≤ b) :
    ∃ X L U, integral A x c d = some X ∧ partialIntegral A x c d = some (L, U) ∧ ∀ F, VecSlope x F → (∀ i, F i a = 0) → ∀ t, c ≤ t → t ≤ d →
      ValuesIn X n (fun i => F i t) ∧
      (∀ (i : Nat) (I : Itv K), L[i]? = some I → ∃ v ∈ I, v ≤ F i t) ∧ (∀ (i : Nat) (I : Itv K), U[i]? = some I → ∃ v ∈ I, F i t ≤ v) := by
  have hw := (within_of h).mpr ⟨ha, hb⟩
  refine ⟨_, _, _, if_pos hw, if_pos hw, fun F hF h0 t h1 h2 => ⟨valuesIn_map h.size fun i T hT => ?_, fun i I hI => ?_, fun i I hI => ?_⟩⟩
  · obtain ⟨e1, e2, e3⟩ := h.get hT
    exact (C13_partial_integral (A := A) e1 (hF i T hT) (by rw [e2]; exact h0 i) (by rw [e2]; exact ha) hcd (by rw [e3]; exact hb) h1 h2).2.2.2.2
  · rw [List.getElem?_map, Option.map_eq_some_iff] at hI
    obtain ⟨T, hT, rfl⟩ := hI
    obtain ⟨e1, e2, e3⟩ := h.get hT
    exact (partialIntegral_encloses e1 (hF i T hT) (by rw [e2]; exact h0 i) (by rw [e2]; exact ha) hcd (by rw [e3]; exact hb) h1 h2).1
  · rw [List.getElem?_map, Option.map_eq_some_iff] at hI
    obtain ⟨T, hT, rfl⟩ := hI
    obtain ⟨e1, e2, e3⟩ := h.get hT
    exact (partialIntegral_encloses e1 (hF i T hT) (by rw [e2]; exact h0 i) (by rw [e2]; exact ha) hcd (by rw [e3]; exact hb) h1 h2).2

/-- **C147** (part): `x.integral([t1],[t2])` contains the increments `F(t2) - F(t1)` of the primitives, for `t1 ≤ t2`; for `t2 < t1` they may be missed
(`C13_integral2_fails`) -/
theorem C147_integral2_partial {A : IArith K} {x : List (Tube K)} {n : Nat} {a b : K} (h : VecOver x n a b) {c1 d1 c2 d2 : K} (ha1 : a ≤ c1) (hcd1 : c1 ≤ d1) (hb1 : d1 ≤ b)
    (ha2 : a ≤ c2) (hcd2 : c2 ≤ d2) (hb2 : d2 ≤ b) :
    ∃ X, integral2 A x c1 d1 c2 d2 = some X ∧ ∀ F, VecSlope x F → ∀ t1 t2, c1 ≤ t1 → t1 ≤ d1 → c2 ≤ t2 → t2 ≤ d2 → t1 ≤ t2 →
      ValuesIn X n fun i => F i t2 - F i t1 := by
  refine ⟨_, if_pos ⟨(within_of h).mpr ⟨ha1, hb1⟩, (within_of h).mpr ⟨ha2, hb2⟩⟩, fun F hF t1 t2 h1 h2 h3 h4 ht => valuesIn_map h.size fun i T hT => ?_⟩
  obtain ⟨e1, e2, e3⟩ := h.get hT
  exact C13_integral2_partial e1 (hF i T hT) (by rw [e2]; exact ha1) hcd1 (by rw [e3]; exact hb1) (by rw [e2]; exact ha2) hcd2 (by rw [e3]; exact hb2) h1 h2 h3 h4 ht

/-- **C147**: `x.partial_integral([t1],[t2])` bounds these increments for any two instants, as differences of the partial integrals: the lower box is the difference of
the two lower boxes, the upper box the difference of the two upper boxes -/
theorem C147_partial_integral2 {A : IArith K} {x : List (Tube K)} {c1 d1 c2 d2 : K} {L U : Box K} (e : partialIntegral2 A x c1 d1 c2 d2 = some (L, U)) :
    ∃ L1 U1 L2 U2, partialIntegral A x c1 d1 = some (L1, U1) ∧ partialIntegral A x c2 d2 = some (L2, U2) ∧
      L.length = x.length ∧ U.length = x.length ∧
      (∀ (i : Nat) (I1 I2 : Itv K), L1[i]? = some I1 → L2[i]? = some I2 → ∃ I, L[i]? = some I ∧ ∀ p ∈ I1, ∀ q ∈ I2, q - p ∈ I) ∧
      (∀ (i : Nat) (I1 I2 : Itv K), U1[i]? = some I1 → U2[i]? = some I2 → ∃ I, U[i]? = some I ∧ ∀ p ∈ I1, ∀ q ∈ I2, q - p ∈ I) := by
  unfold partialIntegral2 at e
  split_ifs at e with hc
  simp only [Option.some.injEq, Prod.mk.injEq] at e
  obtain ⟨rfl, rfl⟩ := e
  refine ⟨_, _, _, _, if_pos hc.1, if_pos hc.2, by simp, by simp, ?_, ?_⟩ <;>
  · intro i I1 I2 h1 h2
    rw [List.getElem?_map, Option.map_eq_some_iff] at h1 h2
    obtain ⟨T, hT, rfl⟩ := h1
    obtain ⟨T', hT', rfl⟩ := h2
    rw [hT] at hT'
    cases hT'
    exact ⟨_, by rw [List.getElem?_map, hT]; rfl, fun p hp q hq => A.sub_mem hq hp⟩

/-- **C147** (part): `x.primitive(c)` contains the primitives of the functions of `x` that start in `c`, as long as they stay within the bound `B` of the contractor
(`C81_bound_fails` beyond it) -/
theorem C147_primitive_partial {A : IArith K} {B : K} {x : List (Tube K)} {n : Nat} {a b : K} (h : VecOver x n a b) {c : Box K} {F : Nat → K → K} (hF : VecSlope x F)
    (hc : ValuesIn c n fun i => F i a) (hB : ∀ i, ∀ t, a ≤ t → t ≤ b → -B ≤ F i t ∧ F i t ≤ B) :
    ∃ P, primitive A B x c = some P ∧ VecOver P n a b ∧ InVector P F := by
  have key : ∀ (i : Nat) (p : Tube K × Itv K), (x.zip c)[i]? = some p → ∃ P, p.1.primitive A B p.2 = some P ∧ P.WF ∧ P.GatesInEnvelopes ∧ P.Encloses (F i) ∧
      P.t0 = a ∧ P.tf = b := by
    intro i p hp
    rw [List.getElem?_zip_eq_some] at hp
    obtain ⟨e1, e2, e3⟩ := h.get hp.1
    obtain ⟨P, q1, q2, q3, q4⟩ := C81_primitive_partial (A := A) (B := B) e1 (hF i _ hp.1) (c := p.2) (by rw [e2]; exact hc.2 i _ hp.2) (by rw [e2, e3]; exact hB i)
    have d0 := derivTube_dom (sampleGate_wf (set_wf' e1) (by rw [set_eq e1.ne]) (by rw [set_eq e1.ne]; exact e1.lt.le) _) q1
    have hd := sampleGate_dom (p.1.set ⊤) p.1.t0 p.2
    have s0 : (p.1.set ⊤).t0 = p.1.t0 ∧ (p.1.set ⊤).tf = p.1.tf := by rw [set_eq e1.ne]; exact ⟨rfl, rfl⟩
    exact ⟨P, q1, q2, q3, q4, (d0.1.trans hd.1).trans (s0.1.trans e2), (d0.2.1.trans hd.2).trans (s0.2.trans e3)⟩
  have hl : (x.zip c).length = n := by rw [List.length_zip, h.size, hc.1, min_self]
  obtain ⟨P, hP⟩ := TVec.allM_total (f := fun p : Tube K × Itv K => p.1.primitive A B p.2) (l := x.zip c) fun p hp => by
    obtain ⟨i, hi⟩ := List.mem_iff_getElem?.mp hp
    obtain ⟨P, q1, -⟩ := key i p hi
    exact ⟨P, q1⟩
  obtain ⟨k1, k2⟩ := TVec.allM_get hP
  have key' : ∀ (i : Nat) (T : Tube K), P[i]? = some T → T.WF ∧ T.GatesInEnvelopes ∧ T.Encloses (F i) ∧ T.t0 = a ∧ T.tf = b := by
    intro i T hT
    have hi : i < (x.zip c).length := by rw [← k1]; exact (List.getElem?_eq_some_iff.mp hT).1
    have hp := List.getElem?_eq_getElem hi
    obtain ⟨T', q1, q2⟩ := k2 i _ hp
    rw [hT] at q1
    cases q1
    obtain ⟨P', r1, r2⟩ := key i _ hp
    rw [q2] at r1
    cases r1
    exact r2
  refine ⟨P, ?_, vecOver_of (k1.trans hl) h.pos fun i T hT => ?_, fun i T hT => (key' i T hT).2.2.1⟩
  · unfold primitive
    rw [if_pos ⟨h.size.trans hc.1.symm, by rw [h.dom]; simp⟩]
    exact hP
  · obtain ⟨r1, -, -, r4, r5⟩ := key' i T hT
    exact ⟨r1, r4, r5⟩

/-- **C147** (part): `x.primitive()` contains the primitives null at the initial instant, within the same bound -/
theorem C147_primitive0_partial {A : IArith K} {B : K} {x : List (Tube K)} {n : Nat} {a b : K} (h : VecOver x n a b) {F : Nat → K → K} (hF : VecSlope x F)
    (h0 : ∀ i, F i a = 0) (hB : ∀ i, ∀ t, a ≤ t → t ≤ b → -B ≤ F i t ∧ F i t ≤ B) :
    ∃ P, primitive0 A B x = some P ∧ VecOver P n a b ∧ InVector P F := by
  refine C147_primitive_partial h hF ⟨by simp [h.size], fun i I hI => ?_⟩ hB
  rw [List.getElem?_replicate] at hI
  split_ifs at hI
  cases hI
  exact Itv.mem_point.mpr (h0 i)

/-- **C147** (part): `x.interpol([t], v)` contains the values over `[t]` of the functions of `x` whose slopes are in `v`, except at a single instant where a slice starts
(`C74_interpol_fails`) -/
theorem C147_interpol_partial {A : IArith K} {x v : List (Tube K)} {n : Nat} {a b : K} (h : VecOver x n a b) (hgc : ∀ T ∈ x, T.GatesInEnvelopes) {c d : K} {J : Box K}
    (hJ : interpolV A x v c d = some J) {f : Nat → K → K} (hf : InVector x f) (hv : VecSlope v f) {t : K} (h1 : c ≤ t) (h2 : t ≤ d)
    (hdeg : c = d → ∀ T ∈ x, ∀ s ∈ T.slices, s.lb ≠ c) : ValuesIn J n fun i => f i t := by
  unfold interpolV at hJ
  split_ifs at hJ with hc
  obtain ⟨k1, k2⟩ := TVec.allM_get hJ
  have hl : (x.zip v).length = n := by rw [List.length_zip, ← hc.2.1, h.size, min_self]
  refine ⟨k1.trans hl, fun i I hI => ?_⟩
  have hi : i < (x.zip v).length := by rw [← k1]; exact (List.getElem?_eq_some_iff.mp hI).1
  have hp := List.getElem?_eq_getElem hi
  obtain ⟨I', q1, q2⟩ := k2 i _ hp
  rw [hI] at q1
  cases q1
  rw [List.getElem?_zip_eq_some] at hp
  have hm := List.mem_iff_getElem?.mpr ⟨i, hp.1⟩
  exact C74_interpol_partial (h.get hp.1).1 (hgc _ hm) q2 (hf i _ hp.1) (hv i _ hp.2) h1 h2 fun e => hdeg e _ hm

/-- **C147** (part): `x.truncate_tdomain([c,d])` is a vector over `[c,d]` that keeps the values of the functions of `x` strictly inside `[c,d]`; the values at `c` and `d`
may be lost (`C11_truncate_fails`) unless slices of every component end there -/
theorem C147_truncate_partial {x : List (Tube K)} {n : Nat} {a b : K} (h : VecOver x n a b) {c d : K} (hcd : c < d) (ha : a ≤ c) (hb : d ≤ b) :
    ∃ y, truncate x c d = some y ∧ VecOver y n c d ∧ ∀ f, InVector x f →
      (∀ (i : Nat) (T : Tube K), y[i]? = some T → ∀ t, c < t → t < d → f i t ∈ T.evalAt t) ∧
      ((∀ T ∈ x, (c = a ∨ ∃ s ∈ T.slices, s.ub = c) ∧ ∃ s ∈ T.slices, s.ub = d) → InVector y f) := by
  have e : truncate x c d = some (x.map fun T => T.truncate c d) := by
    refine TVec.allM_of_get (by simp) fun i T hT => ⟨T.truncate c d, by rw [List.getElem?_map, hT]; rfl, if_pos ⟨hcd, ?_, ?_⟩⟩
    · rw [(h.get hT).2.1]; exact ha
    · rw [(h.get hT).2.2]; exact hb
  have key : ∀ (i : Nat) (T : Tube K), x[i]? = some T → _ := fun i T hT =>
    C11_truncate_partial (h.get hT).1 hcd (by rw [(h.get hT).2.1]; exact ha) (by rw [(h.get hT).2.2]; exact hb)
  refine ⟨_, e, vecOver_of (by simp [h.size]) h.pos fun i T hT => ?_, fun f hf => ⟨fun i T hT t h1 h2 => ?_, fun H i T hT => ?_⟩⟩ <;>
  · rw [List.getElem?_map, Option.map_eq_some_iff] at hT
    obtain ⟨X, hX, rfl⟩ := hT
    obtain ⟨q1, q2, q3, -, q4⟩ := key i X hX
    first
    | exact ⟨q1, q2, q3⟩
    | exact (q4 _ (hf i X hX)).1 t h1 h2
    | exact (q4 _ (hf i X hX)).2 (by rw [(h.get hX).2.1]; exact (H X (List.mem_iff_getElem?.mpr ⟨i, hX⟩)).1) (H X (List.mem_iff_getElem?.mpr ⟨i, hX⟩)).2

theorem overlapsLoop_iff {ratio : K} : ∀ {x y : List (Tube K)}, x.length ≤ y.length → ∃ r, overlapsLoop ratio x y = some r ∧
    (r = true ↔ ∀ (i : Nat) (T Y : Tube K), x[i]? = some T → y[i]? = some Y → T.overlaps Y ratio = true)
  | [], _, _ => ⟨true, rfl, by simp⟩
  | _ :: _, [], h => by simp at h
  | T :: x, Y :: y, h => by
    obtain ⟨r, hr, hi⟩ := overlapsLoop_iff (ratio := ratio) (x := x) (y := y) (by simpa using h)
    by_cases ho : T.overlaps Y ratio = true
    · refine ⟨r, by rw [overlapsLoop, if_pos ho]; exact hr, hi.trans ⟨fun H i => ?_, fun H i => by simpa using H (i + 1)⟩⟩
      cases i with
      | zero => simp only [List.getElem?_cons_zero, Option.some.injEq]; rintro _ _ rfl rfl; exact ho
      | succ i => simpa using H i
    · refine ⟨false, by rw [overlapsLoop, if_neg ho], ?_⟩
      simp only [Bool.false_eq_true, false_iff]
      exact fun H => ho (H 0 T Y rfl rfl)

/-- **C147**: two vectors of the same size with a common function overlap, whatever the ratio up to 1; with the ratio 1, they overlap iff the envelopes of the
intersections of their components are not empty -/
theorem C147_overlaps {x y : List (Tube K)} {n : Nat} {a b : K} (hx : VecOver x n a b) (hy : VecOver y n a b) :
    (∀ ratio ≤ (1 : K), (∃ f, InVector x f ∧ InVector y f) → overlaps x y ratio = some true) ∧
    ∃ r, overlaps x y 1 = some r ∧ (r = true ↔ ∀ (i : Nat) (X Y : Tube K), x[i]? = some X → y[i]? = some Y → ∀ s ∈ (X.binOp (· ⊓ ·) Y).slices, ∃ v, v ∈ s.cod) := by
  have hd : tdomain x ≠ none ∧ tdomain x = tdomain y := ⟨by rw [hx.dom]; simp, hx.dom.trans hy.dom.symm⟩
  have hl : x.length ≤ y.length := (hx.size.trans hy.size.symm).le
  have e0 : ∀ {i : Nat} {X Y : Tube K}, x[i]? = some X → y[i]? = some Y → X.t0 = Y.t0 ∧ X.tf = Y.tf := fun p q =>
    ⟨(hx.get p).2.1.trans (hy.get q).2.1.symm, (hx.get p).2.2.trans (hy.get q).2.2.symm⟩
  refine ⟨fun ratio hr => ?_, ?_⟩
  · rintro ⟨f, hf, hg⟩
    obtain ⟨r, e, hi⟩ := overlapsLoop_iff (ratio := ratio) hl
    rw [hi.mpr fun i X Y p q => C80_overlaps (hx.get p).1 (hy.get q).1 (e0 p q).1 (e0 p q).2 (hf i X p) (hg i Y q) hr] at e
    exact (if_pos hd).trans e
  · obtain ⟨r, e, hi⟩ := overlapsLoop_iff (ratio := (1 : K)) hl
    refine ⟨r, (if_pos hd).trans e, hi.trans ⟨fun H i X Y p q => ?_, fun H i X Y p q => ?_⟩⟩
    · exact (C80_overlaps_all (hx.get p).1 (hy.get q).1 (e0 p q).1 (e0 p q).2).mp (H i X Y p q)
    · exact (C80_overlaps_all (hx.get p).1 (hy.get q).1 (e0 p q).1 (e0 p q).2).mpr (H i X Y p q)

/-- **C147** does not hold for vectors of different sizes: `x.overlaps(y)` ignores the last components of a longer `y`, and `y.overlaps(x)` is undefined -/
theorem C147_overlaps_sizes_fails : ∃ (x y : List (Tube ℚ)), VecOver x 1 0 2 ∧ VecOver y 2 0 2 ∧ overlaps x y 1 = some true ∧ overlaps y x 1 = none := by
  refine ⟨[W], [W, W], vecOver_of rfl one_pos fun i T hT => ?_, vecOver_of rfl two_pos fun i T hT => ?_, by decide +kernel, by decide +kernel⟩
  · have := List.mem_of_getElem? hT
    simp only [List.mem_cons, List.not_mem_nil, or_false] at this
    subst this
    exact ⟨W_wf, rfl, rfl⟩
  · have := List.mem_of_getElem? hT
    simp only [List.mem_cons, List.not_mem_nil, or_false, or_self] at this
    subst this
    exact ⟨W_wf, rfl, rfl⟩

/-! ### Volume -/

/-- the areas of the envelopes of a tube -/
def areaOf (s : Slice K) : K := (s.ub - s.lb) * (s.cod.width?).getD 0

theorem volume_sum {α : Type*} {m : α → Option K} : ∀ (l : List α) (v : K), l.foldlM (fun acc s => (m s).map fun w => acc + w) v =
    if ∀ s ∈ l, m s ≠ none then some (v + (l.map fun s => (m s).getD 0).sum) else none
  | [], v => by simp
  | s :: l, v => by
    rw [List.foldlM_cons]
    cases e : m s with
    | none =>
      rw [if_neg fun H => H s (by simp) e]
      simp
    | some w =>
      have := volume_sum (m := m) l (v + w)
      simp only [Option.map_some, Option.bind_eq_bind, Option.bind_some, this, List.map_cons, List.sum_cons, e, Option.getD_some, List.mem_cons, forall_eq_or_imp]
      simp [add_assoc]

/-- **C147**: `T.volume()` is finite iff all the envelopes have a finite width, and is then the sum of the areas of the slices -/
theorem C147_tube_volume (T : Tube K) : (∀ s ∈ T.slices, s.cod.width? ≠ none) ∧ T.volume = some (T.slices.map areaOf).sum ∨
    (∃ s ∈ T.slices, s.cod.width? = none) ∧ T.volume = none := by
  have hv := volume_sum (m := Slice.volume) T.slices (0 : K)
  have hn : ∀ s : Slice K, s.volume ≠ none ↔ s.cod.width? ≠ none := fun s => by unfold Slice.volume; simp
  have ha : ∀ s : Slice K, s.cod.width? ≠ none → (s.volume).getD 0 = areaOf s := fun s hs => by
    unfold Slice.volume areaOf
    cases e : s.cod.width? with
    | none => exact absurd e hs
    | some d => rfl
  by_cases H : ∀ s ∈ T.slices, s.cod.width? ≠ none
  · refine .inl ⟨H, ?_⟩
    unfold Tube.volume
    rw [hv, if_pos fun s hs => (hn s).mpr (H s hs), zero_add, List.map_congr_left fun s hs => ha s (H s hs)]
  · refine .inr ⟨by push Not at H; exact H, ?_⟩
    unfold Tube.volume
    rw [hv, if_neg fun H' => H fun s hs => (hn s).mp (H' s hs)]

/-- **C147**: `x.volume()` is finite iff the volumes of the components are, and is then their sum -/
theorem C147_volume (x : List (Tube K)) : (∀ T ∈ x, T.volume ≠ none) ∧ volume x = some (x.map fun T => (T.volume).getD 0).sum ∨ (∃ T ∈ x, T.volume = none) ∧ volume x = none := by
  have hv := volume_sum (m := Tube.volume) x (0 : K)
  by_cases H : ∀ T ∈ x, T.volume ≠ none
  · refine .inl ⟨H, ?_⟩
    unfold TuVec.volume
    rw [hv, if_pos H, zero_add]
  · refine .inr ⟨by push Not at H; exact H, ?_⟩
    unfold TuVec.volume
    rw [hv, if_neg H]

theorem area_mono : ∀ {l m : List (Slice K)}, List.Forall₂ (fun s r : Slice K => s.lb = r.lb ∧ s.ub = r.ub ∧ s.cod ≤ r.cod) l m → (∀ s ∈ m, s.lb < s.ub) →
    (∀ s ∈ m, s.cod.width? ≠ none) → (∀ s ∈ l, s.cod.width? ≠ none) ∧ 0 ≤ (l.map areaOf).sum ∧ (l.map areaOf).sum ≤ (m.map areaOf).sum
  | _, _, .nil, _, _ => by simp
  | s :: l, r :: m, .cons h hh, hm, hw => by
    obtain ⟨i1, i2, i3⟩ := area_mono hh (fun s hs => hm s (by simp [hs])) (fun s hs => hw s (by simp [hs]))
    obtain ⟨d, hd⟩ := Option.ne_none_iff_exists'.mp (hw r (by simp))
    obtain ⟨e, he, hle⟩ := width?_mono h.2.2 hd
    have h0 := width?_nonneg he
    have hp : 0 < r.ub - r.lb := sub_pos.mpr (hm r (by simp))
    have ea : areaOf s = (r.ub - r.lb) * e := by unfold areaOf; rw [he, h.1, h.2.1]; rfl
    have eb : areaOf r = (r.ub - r.lb) * d := by unfold areaOf; rw [hd]; rfl
    refine ⟨by simpa using ⟨by rw [he]; simp, i1⟩, ?_, ?_⟩
    · rw [List.map_cons, List.sum_cons, ea]; exact add_nonneg (mul_nonneg hp.le h0) i2
    · rw [List.map_cons, List.sum_cons, List.map_cons, List.sum_cons, ea, eb]
      exact add_le_add (mul_le_mul_of_nonneg_left hle hp.le) i3

/-- **C147**: a contraction of the envelopes does not increase the volume -/
theorem C147_volume_monotone {T U : Tube K} (hU : U.WF) (h : List.Forall₂ (fun s r : Slice K => s.lb = r.lb ∧ s.ub = r.ub ∧ s.cod ≤ r.cod) T.slices U.slices) {v : K}
    (hv : U.volume = some v) : ∃ w, T.volume = some w ∧ 0 ≤ w ∧ w ≤ v := by
  rcases C147_tube_volume U with ⟨H, e⟩ | ⟨-, e⟩
  · rw [hv, Option.some.injEq] at e
    obtain ⟨i1, i2, i3⟩ := area_mono h (fun s hs => (hU.tiles.mem_bounds hs).2.1) H
    rcases C147_tube_volume T with ⟨-, e'⟩ | ⟨⟨s, hs, hn⟩, -⟩
    · exact ⟨_, e', i2, i3.trans e.ge⟩
    · exact absurd hn (i1 s hs)
  · rw [hv] at e; cases e

end field

/-- **C147** over the reals: `x.integral([t])` contains the integrals from the initial instant of the integrable functions of `x` -/
theorem C147_integral_real {A : IArith ℝ} {x : List (Tube ℝ)} {n : Nat} {a b : ℝ} (h : VecOver x n a b) (hgc : ∀ T ∈ x, T.GatesInEnvelopes) {f : Nat → ℝ → ℝ}
    (hf : InVector x f) (hi : ∀ i, IntervalIntegrable (f i) MeasureTheory.volume a b) {c d : ℝ} (ha : a ≤ c) (hcd : c ≤ d) (hb : d ≤ b) :
    ∃ X, integral A x c d = some X ∧ ∀ t, c ≤ t → t ≤ d → ValuesIn X n fun i => ∫ s in a..t, f i s := by
  refine ⟨_, if_pos ((within_of h).mpr ⟨ha, hb⟩), fun t h1 h2 => valuesIn_map h.size fun i T hT => ?_⟩
  obtain ⟨e1, rfl, rfl⟩ := h.get hT
  exact C13_integral_real e1 (hgc T (List.mem_iff_getElem?.mpr ⟨i, hT⟩)) (hf i T hT) (hi i) ha hcd hb h1 h2

/-! ### Examples -/

/-- the hypotheses are met by a vector of two tubes and the primitive `(t, t)` -/
theorem twoW : VecOver [W, W] 2 0 2 := vecOver_of rfl two_pos fun i T hT => by
  have := List.mem_of_getElem? hT
  simp only [List.mem_cons, List.not_mem_nil, or_false, or_self] at this
  subst this
  exact ⟨W_wf, rfl, rfl⟩

theorem twoW_slope : VecSlope [W, W] fun _ t => t := fun i T hT => by
  have := List.mem_of_getElem? hT
  simp only [List.mem_cons, List.not_mem_nil, or_false, or_self] at this
  subst this
  exact W_slope

example : integral (IArith.exact ℚ) [W, W] 1 2 = some [.icc 0 2, .icc 0 2] ∧ integral2 (IArith.exact ℚ) [W, W] 0 1 1 2 = some [.icc 0 2, .icc 0 2] ∧
    integral (IArith.exact ℚ) [W, W] 1 3 = none ∧ volume [W, W] = some 4 ∧ overlaps [W, W] [W, W] 1 = some true := by decide +kernel

example : ∃ P, primitive (IArith.exact ℚ) 100 [W, W] [.icc 0 1, .icc 0 1] = some P ∧ VecOver P 2 0 2 ∧ InVector P fun _ t => t :=
  C147_primitive_partial twoW twoW_slope ⟨rfl, fun i I hI => by
    have := List.mem_of_getElem? hI
    simp only [List.mem_cons, List.not_mem_nil, or_false, or_self] at this
    subst this
    exact show (0 : ℚ) ∈ Itv.icc 0 1 by decide +kernel⟩ fun i t h1 h2 => ⟨by linarith, by linarith⟩

example : interpolV (IArith.exact ℚ) [polyX] [polyV] (1 / 2) (5 / 2) = some [.icc 0 (7 / 2)] ∧ truncate [polyX, polyX] 1 2 ≠ none := by decide +kernel

end Codac.Props
