import Verif.Ctc.Eval
import Verif.Props.Deriv
import Verif.Props.TubeAccess

/-!
# C19: `CtcEval` and the solutions of `z = y(t)`
-/

set_option linter.unusedSectionVars false

namespace Codac.Props
open Codac Codac.Ex

section
variable {K : Type*} [LinearOrder K]

/-- **C19** (part): for `contract(Interval& t, Interval& z, const Tube& y)`: the instant is always kept, and the value is
kept when the inversion of the tube is made of at most one interval. The full property has no condition on the
inversion: see `C19_eval_fails`. -/
theorem C19_eval_const_partial {y : Tube K} (hy : y.WF) (hg : y.GatesInEnvelopes) {f : K → K} (hf : y.Encloses f)
    {t z : Itv K} {a : K} (ha : a ∈ t) (hz : f a ∈ z) :
    a ∈ (evalConst y t z).1 ∧ ((y.invertList z t).length ≤ 1 → f a ∈ (evalConst y t z).2) := by
  have e1 : t.isEmpty = false := Itv.isEmpty_false_iff.mpr (Itv.ne_bot_of_mem ha)
  have e2 : z.isEmpty = false := Itv.isEmpty_false_iff.mpr (Itv.ne_bot_of_mem hz)
  have e3 := not_isEmpty_of_encloses hy hf hg
  obtain ⟨I, hI, haI⟩ := C07_invert_list hy hg hf ha hz
  unfold evalConst
  rw [e1, e2, e3]
  simp only [Bool.or_self, Bool.false_eq_true, if_false]
  refine ⟨Itv.mem_inf.mpr ⟨ha, mem_foldl_sup (Or.inr ⟨I, hI, haI⟩)⟩, fun hl => mem_foldl_inf hz fun J hJ => ?_⟩
  have : J = I := by
    match hc : y.invertList z t, hl, hI, hJ with
    | [x], _, hI, hJ => simp at hI hJ; rw [hI, hJ]
  subst this
  exact evalItv_mem hy hg hf haI

/-- **C19**: `contract(Interval& t, Interval& z, const Tube& y)` only contracts -/
theorem C19_eval_const_contracts (y : Tube K) (t z : Itv K) :
    (evalConst y t z).1 ≤ t ∧ (evalConst y t z).2 ≤ z := by
  unfold evalConst
  split_ifs
  · exact ⟨bot_le, bot_le⟩
  · exact ⟨inf_le_left, foldl_inf_le _ _ _⟩

end

/-- three slices; `[0,1]` is reached in the first and in the last one only -/
def evalY : Tube ℚ where
  t0 := 0
  tf := 3
  g0 := I 0 2
  cells := [⟨0, 1, I 0 2, I (3/2) 2⟩, ⟨1, 2, I (3/2) 3, I (3/2) 2⟩, ⟨2, 3, I (9/10) 2, I (9/10) 2⟩]

theorem evalY_slices {s : Slice ℚ} (hs : s ∈ evalY.slices) : s = ⟨0, 1, I 0 2, I 0 2, I (3/2) 2⟩ ∨
    s = ⟨1, 2, I (3/2) 3, I (3/2) 2, I (3/2) 2⟩ ∨ s = ⟨2, 3, I (9/10) 2, I (3/2) 2, I (9/10) 2⟩ := by
  simpa [evalY, Tube.slices, slicesFrom] using hs

theorem evalY_wf : evalY.WF := ⟨by simp [evalY], by simp [evalY, Tiles]; norm_num⟩

theorem evalY_gc : evalY.GatesInEnvelopes := by
  intro s hs
  rcases evalY_slices hs with rfl | rfl | rfl <;> decide +kernel

/-- a trajectory of `evalY` with value `1/2` at the instant `1/2` -/
def evalF (t : ℚ) : ℚ := if t ≤ 1/2 then 1/2 else 7/4

theorem evalF_encl : evalY.Encloses evalF := by
  intro s hs
  rcases evalY_slices hs with rfl | rfl | rfl <;> refine ⟨by decide +kernel, by decide +kernel, ?_⟩ <;> intro t h1 h2
    <;> simp only [evalF] <;> split_ifs <;> simp [I] <;> (try norm_num) <;> (dsimp only at h1 h2; linarith)

/-- **C19 is false in the code**: `codac_CtcEval.cpp:386-389` intersects `z` with the tube evaluated on *each* interval
of the inversion. Here a trajectory of the tube has the value `1/2 ∈ [z]` at `1/2 ∈ [t]`, and `1/2` is removed from
`[z]`: only `[9/10,1]` remains. -/
theorem C19_eval_fails : ∃ (y : Tube ℚ) (f : ℚ → ℚ) (t z : Itv ℚ) (a : ℚ), y.WF ∧ y.GatesInEnvelopes ∧ y.Encloses f ∧
    a ∈ t ∧ f a ∈ z ∧ f a ∉ (evalConst y t z).2 :=
  ⟨evalY, evalF, I 0 3, I 0 1, 1/2, evalY_wf, evalY_gc, evalF_encl, by decide +kernel, by decide +kernel,
    by decide +kernel⟩

/-- what is computed on this case -/
example : evalConst evalY (I 0 3) (I 0 1) = (I 0 3, I (9/10) 1) := by decide +kernel
/-- a non trivial contraction with a single interval in the inversion -/
example : (T.invertList (I 2 (5/2)) (I 0 4)).length ≤ 1 ∧
    evalConst T (I 0 4) (I 2 (5/2)) = (I 0 4, I 2 (5/2)) ∧ evalConst T (I 0 2) (I (5/2) 7) = (I 1 2, I (5/2) 3) := by
  decide +kernel

section
variable {K : Type*} [Field K] [LinearOrder K] [IsStrictOrderedRing K]

/-- the cases of `evalInstant` -/
theorem evalInstant_cases {A : IArith K} {B : K} {R : Itv K} {prop pres : Bool} {t : K} {z : Itv K} {y w : Tube K}
    {r : Itv K × Tube K × Tube K} (h : evalInstant A B R prop pres t z y w = some r) :
    (y.t0 ≤ t ∧ t ≤ y.tf ∧ y.t0 = w.t0 ∧ y.tf = w.tf ∧ SameB y w) ∧
    ((z.isEmpty = true ∨ y.isEmpty = true ∨ w.isEmpty = true) ∧ r = (⊥, y.setEmpty, w.setEmpty) ∨
     ∃ y' w', (r = (⊥, y'.setEmpty, w') ∧ ((z ⊓ y.interpolAt A w t).isEmpty = true ∨ y'.isEmpty = true) ∨
        r = (z ⊓ y.interpolAt A w t, y', w')) ∧
      ((prop = true ∧ w' = w.sample t ∧
          derivTube A B R true true (y.setAt (z ⊓ y.interpolAt A w t) t) (w.sample t) = some y') ∨
       (prop = false ∧ pres = true ∧ y.gateExists t = some false ∧ ∃ k,
          ((((y.setAt (z ⊓ y.interpolAt A w t) t).upd (k - 1) (derivSlice A B ⊤ ((w.sample t).codAt (k - 1)))).upd k
            (derivSlice A B ⊤ ((w.sample t).codAt k))).removeGate t = some y') ∧ (w.sample t).removeGate t = some w') ∨
       (prop = false ∧ (pres = false ∨ y.gateExists t = some true) ∧
          y' = y.setAt (z ⊓ y.interpolAt A w t) t ∧ w' = w.sample t))) := by
  unfold evalInstant at h
  by_cases hc : y.t0 ≤ t ∧ t ≤ y.tf ∧ y.t0 = w.t0 ∧ y.tf = w.tf ∧ y.sameSlicing w = true
  swap
  · rw [if_neg hc] at h; cases h
  rw [if_pos hc] at h
  refine ⟨⟨hc.1, hc.2.1, hc.2.2.1, hc.2.2.2.1, sameSlicing_iff.mp hc.2.2.2.2⟩, ?_⟩
  by_cases he : (z.isEmpty || y.isEmpty || w.isEmpty) = true
  · rw [if_pos he] at h
    left
    simp only [Bool.or_eq_true, or_assoc] at he
    exact ⟨he, (Option.some.inj h).symm⟩
  rw [if_neg he, Option.bind_eq_some_iff] at h
  obtain ⟨ge, hge, h⟩ := h
  right
  dsimp only at h
  rw [Option.map_eq_some_iff] at h
  obtain ⟨⟨y', w'⟩, h1, h2⟩ := h
  dsimp only at h2
  refine ⟨y', w', ?_, ?_⟩
  · by_cases h3 : ((z ⊓ y.interpolAt A w t).isEmpty || y'.isEmpty) = true
    · rw [if_pos h3] at h2
      left; exact ⟨h2.symm, by simpa using h3⟩
    · rw [if_neg h3] at h2
      right; exact h2.symm
  · cases prop with
    | true =>
      left
      rw [if_pos rfl, Option.map_eq_some_iff] at h1
      obtain ⟨y2, h3, h4⟩ := h1
      cases h4
      exact ⟨rfl, rfl, h3⟩
    | false =>
      right
      rw [if_neg (by simp)] at h1
      by_cases h3 : (pres && !ge) = true
      · rw [if_pos h3] at h1
        left
        simp only [Bool.and_eq_true, Bool.not_eq_true'] at h3
        rw [Option.bind_eq_some_iff] at h1
        obtain ⟨y4, h4, h5⟩ := h1
        rw [Option.map_eq_some_iff] at h5
        obtain ⟨w2, h5, h6⟩ := h5
        cases h6
        exact ⟨rfl, h3.1, by rw [hge, h3.2], _, h4, h5⟩
      · rw [if_neg h3] at h1
        right
        cases h1
        refine ⟨rfl, ?_, rfl, rfl⟩
        rw [hge]
        cases pres <;> cases ge <;> simp_all

theorem setAt_inv {T : Tube K} (h : T.WF) (hg : T.GatesInEnvelopes) {t : K} (h1 : T.t0 ≤ t) (h2 : t ≤ T.tf)
    (y : Itv K) : (T.setAt y t).WF ∧ (T.setAt y t).GatesInEnvelopes ∧ (T.setAt y t).t0 = T.t0 ∧ (T.setAt y t).tf = T.tf :=
  ⟨sampleGate_wf h h1 h2 y, sampleGate_gc hg t y, sampleGate_dom T t y⟩

/-- **C19** (part): for `contract(double t, Interval& z, Tube& y, Tube& w)`, with or without propagation, preserving or not
the slicing: the trajectory, its derivative and its value at `t` are kept when the trajectory is bounded by
`BOUNDED_INFINITY` (needed as for `CtcDeriv`, see C18). -/
theorem C19_eval_instant_partial {A : IArith K} {B : K} {R : Itv K} {prop pres : Bool} {t : K} {z z' : Itv K}
    {y w y' w' : Tube K} (hy : y.WF) (hyg : y.GatesInEnvelopes) (hw : w.WF) (hwg : w.GatesInEnvelopes)
    (h : evalInstant A B R prop pres t z y w = some (z', y', w')) {f d : K → K} (hf : y.Encloses f)
    (hd : w.Encloses d) (hs : w.SlopeIn f) (hz : f t ∈ z) (hB : ∀ u, y.t0 ≤ u → u ≤ y.tf → -B ≤ f u ∧ f u ≤ B) :
    f t ∈ z' ∧ y'.Encloses f ∧ w'.Encloses d := by
  obtain ⟨⟨c1, c2, c3, c4, hb⟩, hcase⟩ := evalInstant_cases h
  have hz1 : f t ∈ z ⊓ y.interpolAt A w t := Itv.mem_inf.mpr ⟨hz, interpolAt_mem hy hf hb hs c1 c2⟩
  obtain ⟨a1, a2, a3, a4⟩ := setAt_inv hy hyg c1 c2 (z ⊓ y.interpolAt A w t)
  have a5 := setAt_encloses hy hyg c1 c2 hf hz1
  have b1 := sample_wf hw (c3 ▸ c1) (c4 ▸ c2)
  have b2 := sample_gc hwg t
  have b3 : (w.sample t).Encloses d := (sample_encloses hw (c3 ▸ c1) (c4 ▸ c2)).mpr hd
  have b4 := sample_slope hw (c3 ▸ c1) (c4 ▸ c2) hs
  have hb' : SameB (y.setAt (z ⊓ y.interpolAt A w t) t) (w.sample t) := by
    unfold SameB Tube.setAt
    rw [sampleGate_bounds]
    exact sampleCells_sameB hb
  have hB' : ∀ u, (y.setAt (z ⊓ y.interpolAt A w t) t).t0 ≤ u → u ≤ (y.setAt (z ⊓ y.interpolAt A w t) t).tf →
      -B ≤ f u ∧ f u ≤ B := by rw [a3, a4]; exact hB
  have e2 : z.isEmpty = false := Itv.isEmpty_false_iff.mpr (Itv.ne_bot_of_mem hz)
  have e2' : (z ⊓ y.interpolAt A w t).isEmpty = false := Itv.isEmpty_false_iff.mpr (Itv.ne_bot_of_mem hz1)
  have e3 := not_isEmpty_of_encloses hy hf hyg
  have e4 := not_isEmpty_of_encloses hw hd hwg
  rcases hcase with ⟨he, -⟩ | ⟨y2, w2, hr, hcase⟩
  · rw [e2, e3, e4] at he; simp at he
  have key : y2.WF ∧ y2.GatesInEnvelopes ∧ y2.Encloses f ∧ w2.Encloses d := by
    rcases hcase with ⟨-, rfl, h1⟩ | ⟨-, -, -, k, h1, h2⟩ | ⟨-, -, rfl, rfl⟩
    · obtain ⟨i1, i2, i3⟩ := C18_deriv_sound_partial a1 a2 h1 a5 b4 hB'
      exact ⟨i1, i2, i3, b3⟩
    · have hgc : ∀ j p n s, LocalGC p n s → LocalGC p n (derivSlice A B ⊤ ((w.sample t).codAt j) p n s) :=
        fun j p n s h => derivSlice_gc h
      have j1 := upd_deriv_encloses (A := A) (R := ⊤) a1 a2 hb' a5 b4 hB' (k - 1)
      have j2 : (Tube.upd (y.setAt (z ⊓ y.interpolAt A w t) t) (k - 1)
          (derivSlice A B ⊤ ((w.sample t).codAt (k - 1)))).WF := upd_wf a1 _ _
      have j3 : (Tube.upd (y.setAt (z ⊓ y.interpolAt A w t) t) (k - 1)
          (derivSlice A B ⊤ ((w.sample t).codAt (k - 1)))).GatesInEnvelopes := upd_gc (hgc _) a2
      have j4 : SameB (Tube.upd (y.setAt (z ⊓ y.interpolAt A w t) t) (k - 1)
          (derivSlice A B ⊤ ((w.sample t).codAt (k - 1)))) (w.sample t) := by
        unfold SameB; rw [upd_bounds]; exact hb'
      have j5 := upd_deriv_encloses (A := A) (R := ⊤) j2 j3 j4 j1 b4 hB' k
      have j6 := upd_wf j2 k (derivSlice A B ⊤ ((w.sample t).codAt k))
      have j7 := upd_gc (k := k) (hgc k) j3
      obtain ⟨m1, m2, -, -⟩ := removeGate_inv j6 j7 h1
      refine ⟨m1, m2, ?_, ?_⟩
      · unfold Tube.removeGate at h1
        rw [Option.map_eq_some_iff] at h1
        obtain ⟨r, hr1, rfl⟩ := h1
        exact ((removeFrom_spec hr1 j6.tiles j7).2.2.2.2.2 f j5).1
      · unfold Tube.removeGate at h2
        rw [Option.map_eq_some_iff] at h2
        obtain ⟨r, hr1, rfl⟩ := h2
        exact ((removeFrom_spec hr1 b1.tiles b2).2.2.2.2.2 d b3).1
    · exact ⟨a1, a2, a5, b3⟩
  obtain ⟨k1, k2, k3, k4⟩ := key
  have e5 := not_isEmpty_of_encloses k1 k3 k2
  rcases hr with ⟨-, he⟩ | hr
  · rw [e2', e5] at he; simp at he
  · cases hr; exact ⟨hz1, k3, k4⟩

/-- **C19**: without propagation and with the default option preserving the slicing, the slicings of both tubes are
the ones before the call -/
theorem C19_eval_instant_slicing {A : IArith K} {B : K} {R : Itv K} {t : K} {z z' : Itv K}
    {y w y' w' : Tube K} (hy : y.WF) (hyg : y.GatesInEnvelopes) (hw : w.WF) (hwg : w.GatesInEnvelopes)
    (h : evalInstant A B R false true t z y w = some (z', y', w')) : SameB y' y ∧ SameB w' w := by
  obtain ⟨⟨c1, c2, c3, c4, hb⟩, hcase⟩ := evalInstant_cases h
  have hset : ∀ T : Tube K, T.WF → SameB T.setEmpty T := fun T hT =>
    (foldl_upd_inv (fun _ => Slice.set (⊥ : Itv K)) (List.range T.nbSlices) hT).2.2.2
  rcases hcase with ⟨-, hr⟩ | ⟨y2, w2, hr, hcase⟩
  · cases hr; exact ⟨hset y hy, hset w hw⟩
  obtain ⟨a1, a2, a3, a4⟩ := setAt_inv hy hyg c1 c2 (z ⊓ y.interpolAt A w t)
  have b1 := sample_wf hw (c3 ▸ c1) (c4 ▸ c2)
  have b2 := sample_gc hwg t
  have hby : SameB (y.setAt (z ⊓ y.interpolAt A w t) t) (y.sample t) := sampleGate_bounds _ _ _
  have key : y2.WF ∧ SameB y2 y ∧ SameB w2 w := by
    rcases hcase with ⟨h0, -⟩ | ⟨-, -, hge, k, h1, h2⟩ | ⟨-, hge, rfl, rfl⟩
    · cases h0
    · have hn : ¬ (t = y.t0 ∨ t ∈ y.cells.map Cell.ub) := by
        rw [← gateExists_iff hy c1 c2 hge]; simp
      have hn' : ¬ (t = w.t0 ∨ t ∈ w.cells.map Cell.ub) := by
        have := congrArg (List.map Prod.snd) hb
        rw [List.map_map, List.map_map] at this
        have e : y.cells.map Cell.ub = w.cells.map Cell.ub := this
        rw [← c3, ← e]; exact hn
      have hgc : ∀ j p n s, LocalGC p n s → LocalGC p n (derivSlice A B ⊤ ((w.sample t).codAt j) p n s) :=
        fun j p n s h => derivSlice_gc h
      have j2 := upd_wf a1 (k - 1) (derivSlice A B ⊤ ((w.sample t).codAt (k - 1)))
      have j3 := upd_gc (k := k - 1) (hgc (k - 1)) a2
      have j6 := upd_wf j2 k (derivSlice A B ⊤ ((w.sample t).codAt k))
      have j7 := upd_gc (k := k) (hgc k) j3
      refine ⟨(removeGate_inv j6 j7 h1).1, removeGate_bounds hy c1 c2 hn j6 j7 a3 ?_ h1,
        removeGate_bounds hw (c3 ▸ c1) (c4 ▸ c2) hn' b1 b2 rfl rfl h2⟩
      unfold SameB; rw [upd_bounds, upd_bounds]; exact hby
    · have hge : y.gateExists t = some true := by
        rcases hge with h | h
        · cases h
        · exact h
      have hn := (gateExists_iff hy c1 c2 hge).mp rfl
      have hn' : t = w.t0 ∨ t ∈ w.cells.map Cell.ub := by
        have := congrArg (List.map Prod.snd) hb
        rw [List.map_map, List.map_map] at this
        have e : y.cells.map Cell.ub = w.cells.map Cell.ub := this
        rw [← c3, ← e]; exact hn
      refine ⟨a1, ?_, ?_⟩
      · refine hby.trans ?_
        show List.map _ (sampleCells t y.cells) = _
        rw [sampleCells_eq_self hy.tiles hn]
      · show List.map _ (sampleCells t w.cells) = _
        rw [sampleCells_eq_self hw.tiles hn']
  obtain ⟨k1, k2, k3⟩ := key
  rcases hr with ⟨hr, -⟩ | hr
  · cases hr; exact ⟨(hset _ k1).trans k2, k3⟩
  · cases hr; exact ⟨k2, k3⟩

end

/-- the derivative tube of the example: slopes in `[1,1]`, `[1,1]`, `[0,1]`, same slicing as `T` -/
def evalW : Tube ℚ where
  t0 := 0
  tf := 4
  g0 := I 1 1
  cells := [⟨0, 1, I 1 1, I 1 1⟩, ⟨1, 2, I 1 1, I 1 1⟩, ⟨2, 4, I 0 1, I 0 1⟩]

/-- the hypotheses are met by a non trivial case, where `z`, `y` and the gates are contracted -/
example : (evalInstant (IArith.exact ℚ) floatMax ⊤ false true (3/2) (I 0 2) T evalW).map
    (fun r => (r.1, r.2.1.cells.length, r.2.1.evalAt 1)) = some (I (3/2) 2, 3, I 1 (3/2)) := by decide +kernel

/-- **C19**: with the propagation enabled, the default option preserving the slicing is not honoured
(codac_CtcEval.cpp:101-107: the merge is in the `else` branch); the tubes have three slices before, four after -/
theorem C19_eval_instant_slicing_fails :
    (evalInstant (IArith.exact ℚ) floatMax ⊤ true true (3/2) (I 0 2) T evalW).map
      (fun r => (T.cells.length, r.2.1.cells.length)) = some (3, 4) := by decide +kernel

end Codac.Props
