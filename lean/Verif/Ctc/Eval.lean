import Verif.Ctc.Deriv
import Verif.Tube.Locate
import Verif.Tube.Merge

/-!
# `CtcEval`: model and proofs

Source: `src/core/contractors/dyn/codac_CtcEval.cpp`.
-/

set_option linter.unusedSectionVars false

namespace Codac

section
variable {K : Type*} [LinearOrder K]

/-- `CtcEval::contract(Interval& t, Interval& z, const Tube& y)`, codac_CtcEval.cpp:375-393: returns the contracted
`t` and `z` -/
def evalConst (y : Tube K) (t z : Itv K) : Itv K × Itv K :=
  if t.isEmpty || z.isEmpty || y.isEmpty then (⊥, ⊥)
  else
    let vt := y.invertList z t
    -- for(const auto& ti : v_t) { z &= y(ti); t_ |= ti; }
    (t ⊓ vt.foldl (fun acc ti => acc ⊔ ti) ⊥, vt.foldl (fun z ti => z ⊓ y.evalItv ti) z)

theorem mem_foldl_sup {l : List (Itv K)} {acc : Itv K} {x : K} (h : x ∈ acc ∨ ∃ I ∈ l, x ∈ I) :
    x ∈ l.foldl (fun acc ti => acc ⊔ ti) acc := by
  induction l generalizing acc with
  | nil =>
    rcases h with h | ⟨I, hI, _⟩
    · exact h
    · simp at hI
  | cons J l ih =>
    rw [List.foldl_cons]
    apply ih
    rcases h with h | ⟨I, hI, hx⟩
    · exact Or.inl (Itv.mem_sup_left h)
    · rcases List.mem_cons.mp hI with rfl | hI
      · exact Or.inl (Itv.mem_sup_right hx)
      · exact Or.inr ⟨I, hI, hx⟩

theorem foldl_inf_le (φ : Itv K → Itv K) (l : List (Itv K)) (z : Itv K) : l.foldl (fun z ti => z ⊓ φ ti) z ≤ z := by
  induction l generalizing z with
  | nil => exact le_rfl
  | cons I l ih => exact le_trans (ih _) inf_le_left

theorem mem_foldl_inf {φ : Itv K → Itv K} {l : List (Itv K)} {z : Itv K} {x : K} (hz : x ∈ z)
    (h : ∀ I ∈ l, x ∈ φ I) : x ∈ l.foldl (fun z ti => z ⊓ φ ti) z := by
  induction l generalizing z with
  | nil => exact hz
  | cons I l ih =>
    refine ih (Itv.mem_inf.mpr ⟨hz, h I (by simp)⟩) (fun J hJ => h J (by simp [hJ]))

theorem not_isEmpty_of_encloses {T : Tube K} (h : T.WF) {f : K → K} (hf : T.Encloses f)
    (hg : T.GatesInEnvelopes) : T.isEmpty = false := by
  unfold Tube.isEmpty
  rw [Bool.or_eq_false_iff]
  constructor
  · rw [Itv.isEmpty_false_iff]
    have hc := h.ne
    cases hcs : T.cells with
    | nil => exact absurd hcs hc
    | cons c cs =>
      have := hf ⟨c.lb, c.ub, c.cod, T.g0, c.out⟩ (by simp [Tube.slices, hcs])
      exact Itv.ne_bot_of_mem this.1
  · rw [List.any_eq_false]
    intro s hs
    simp only [Bool.or_eq_true, Itv.isEmpty_iff, not_or]
    have := hf s hs
    exact ⟨Itv.ne_bot_of_mem (Itv.mem_of_le (hg s hs).1 this.1), Itv.ne_bot_of_mem this.2.1⟩

/-- sampling two tubes with the same slicing at the same instant -/
theorem sampleCells_sameB {t : K} {cs cs' : List (Cell K)}
    (h : cs.map (fun c => (c.lb, c.ub)) = cs'.map (fun c => (c.lb, c.ub))) :
    (sampleCells t cs).map (fun c => (c.lb, c.ub)) = (sampleCells t cs').map (fun c => (c.lb, c.ub)) := by
  induction cs generalizing cs' with
  | nil => cases cs' <;> simp_all [sampleCells]
  | cons c cs ih =>
    cases cs' with
    | nil => simp at h
    | cons c' cs' =>
      simp only [List.map_cons, List.cons.injEq, Prod.mk.injEq] at h
      obtain ⟨⟨h1, h2⟩, h3⟩ := h
      have hn : cs = [] ↔ cs' = [] := by
        constructor <;> rintro rfl <;> simpa using h3
      simp only [sampleCells, h1, h2, hn]
      split_ifs
      · simp [h1, h2, h3]
      · simp [h3]
      · simp [h1, h2, ih h3]

theorem sampleGate_bounds (T : Tube K) (t : K) (g : Itv K) :
    (T.sampleGate t g).cells.map (fun c => (c.lb, c.ub)) = (T.sample t).cells.map (fun c => (c.lb, c.ub)) := by
  unfold Tube.sampleGate
  dsimp only
  split
  · rfl
  · split_ifs <;> exact upd_bounds _ _ _

end

section
variable {K : Type*} [Field K] [LinearOrder K] [IsStrictOrderedRing K]

/-- `Slice::interpol` at an instant strictly inside the slice, codac_Slice.cpp:227-229 -/
def Slice.interpolAt (A : IArith K) (s : Slice K) (V : Itv K) (t : K) : Itv K :=
  A.sub s.outG (A.mul (.point (s.ub - t)) V) ⊓ A.add s.inG (A.mul (.point (t - s.lb)) V)

/-- `Tube::interpol(double t, const Tube& v)`, codac_Tube.cpp:737-749 (and 751-769 for the degenerate interval, whose
loop stops after the slice of `t`); `t` in the time domain, same slicing -/
def Tube.interpolAt (A : IArith K) (y w : Tube K) (t : K) : Itv K :=
  match (seek t y.slices).head? with
  | none => ⊤  -- not reachable
  | some s =>
    if s.lb = t ∨ s.ub = t then s.evalAt t
    else s.interpolAt A (w.codAt (timeToIndex t y.slices)) t

/-- `CtcEval::contract(double t, Interval& z, Tube& y, Tube& w)`, codac_CtcEval.cpp:79-137. `prop` is
`m_propagation_enabled`, `pres` is `m_preserve_slicing`, `R` the restricted time domain. `none` when an assertion is
violated (or a null slice is dereferenced). Returns `z`, `y`, `w`. -/
def evalInstant (A : IArith K) (B : K) (R : Itv K) (prop pres : Bool) (t : K) (z : Itv K) (y w : Tube K) :
    Option (Itv K × Tube K × Tube K) :=
  if y.t0 ≤ t ∧ t ≤ y.tf ∧ y.t0 = w.t0 ∧ y.tf = w.tf ∧ y.sameSlicing w = true then
    if z.isEmpty || y.isEmpty || w.isEmpty then some (⊥, y.setEmpty, w.setEmpty)
    else
      (y.gateExists t).bind fun ge =>
      let z1 := z ⊓ y.interpolAt A w t
      let y1 := y.setAt z1 t
      let w1 := w.sample t
      let r : Option (Tube K × Tube K) :=
        if prop then (derivTube A B R true true y1 w1).map fun y2 => (y2, w1)
        else if pres && !ge then
          -- contraction of the slices before and after the new gate, by a new CtcDeriv (no restriction)
          let k := timeToIndex t y1.slices
          let y2 := y1.upd (k - 1) (derivSlice A B ⊤ (w1.codAt (k - 1)))
          let y3 := y2.upd k (derivSlice A B ⊤ (w1.codAt k))
          (y3.removeGate t).bind fun y4 => (w1.removeGate t).map fun w2 => (y4, w2)
        else some (y1, w1)
      r.map fun (y', w') =>
        if z1.isEmpty || y'.isEmpty then (⊥, y'.setEmpty, w') else (z1, y', w')
  else none

/-! ### Proofs -/

/-- `gate_exists(t)` answers whether `t` is a bound of a slice -/
theorem seek_gate {t a b : K} {g : Itv K} {cs : List (Cell K)} (ht : Tiles a cs b) (hne : cs ≠ []) (h1 : a ≤ t)
    (_h2 : t ≤ b) : ∃ s, (seek t (slicesFrom g cs)).head? = some s ∧
      ((s.lb = t ∨ t = b) ↔ (t = a ∨ t ∈ cs.map Cell.ub)) := by
  induction cs generalizing a g with
  | nil => exact absurd rfl hne
  | cons c cs ih =>
    obtain ⟨rfl, h3, h4⟩ := ht
    cases cs with
    | nil =>
      have h5 : c.ub = b := h4
      refine ⟨⟨c.lb, c.ub, c.cod, g, c.out⟩, rfl, ?_⟩
      simp [h5, eq_comm]
    | cons c' cs =>
      simp only [slicesFrom_cons, seek]
      split_ifs with h5
      · refine ⟨_, rfl, ?_⟩
        have h6 : c.ub < b := h4.lt (by simp)
        have h7 : ∀ u ∈ (c' :: cs).map Cell.ub, c.ub < u := h4.sorted.2
        constructor
        · rintro (h | h)
          · exact Or.inl h.symm
          · exact absurd h5 (not_lt.mpr (h ▸ h6.le))
        · rintro (h | h)
          · exact Or.inl h.symm
          · rw [List.map_cons, List.mem_cons] at h
            rcases h with h | h
            · exact absurd h5 (by rw [h]; exact lt_irrefl _)
            · exact absurd (h7 t h) (not_lt.mpr h5.le)
      · push Not at h5
        obtain ⟨s, e1, e2⟩ := ih (g := c.out) h4 (by simp) h5
        refine ⟨s, e1, e2.trans ?_⟩
        rw [List.map_cons (a := c), List.mem_cons]
        constructor
        · rintro (h | h)
          · exact Or.inr (Or.inl h)
          · exact Or.inr (Or.inr h)
        · rintro (h | h | h)
          · exact absurd h5 (not_le.mpr (h ▸ h3))
          · exact Or.inl h
          · exact Or.inr h

theorem gateExists_iff {T : Tube K} (h : T.WF) {t : K} (h1 : T.t0 ≤ t) (h2 : t ≤ T.tf) {ge : Bool}
    (hg : T.gateExists t = some ge) : ge = true ↔ (t = T.t0 ∨ t ∈ T.cells.map Cell.ub) := by
  obtain ⟨s, e1, e2⟩ := seek_gate (g := T.g0) h.tiles h.ne h1 h2
  unfold Tube.gateExists Tube.slice at hg
  rw [if_pos ⟨h1, h2⟩, Tube.slices, e1] at hg
  simp only [Option.map_some, Option.some.injEq] at hg
  rw [← hg, decide_eq_true_iff]; exact e2

theorem removeGate_bounds {T T1 T' : Tube K} (h : T.WF) {t : K} (h1 : T.t0 ≤ t) (h2 : t ≤ T.tf)
    (hn : ¬ (t = T.t0 ∨ t ∈ T.cells.map Cell.ub)) (hT1 : T1.WF) (hg : T1.GatesInEnvelopes) (h0 : T1.t0 = T.t0)
    (hb : SameB T1 (T.sample t)) (hr : T1.removeGate t = some T') : SameB T' T := by
  unfold Tube.removeGate at hr
  rw [Option.map_eq_some_iff] at hr
  obtain ⟨r, hr, rfl⟩ := hr
  obtain ⟨i1, -, -, -, i5, -⟩ := removeFrom_spec hr hT1.tiles hg
  rw [h0] at i1
  push Not at hn
  refine i1.bounds_ext_mem h.tiles fun u => ?_
  have e : T1.cells.map Cell.ub = (sampleCells t T.cells).map Cell.ub := by
    have := congrArg (List.map Prod.snd) hb
    simpa [Tube.sample, Function.comp_def] using this
  rw [i5 u, e, mem_ub_sampleCells h.tiles h1 h2]
  constructor
  · rintro ⟨h | h, h'⟩
    · exact h
    · exact absurd h.1 h'
  · intro h; exact ⟨Or.inl h, fun e => hn.2 (e ▸ h)⟩

theorem Slice.interpolAt_mem {A : IArith K} {s : Slice K} {V : Itv K} {f : K → K} (hf : s.Encloses f)
    (hv : ∀ m t, s.lb ≤ m → m < t → t ≤ s.ub → ∃ y ∈ V, f t - f m = y * (t - m)) {t : K} (h0 : s.lb < t)
    (h1 : t < s.ub) : f t ∈ s.interpolAt A V t := by
  obtain ⟨y1, hy1, e1⟩ := hv s.lb t le_rfl h0 h1.le
  obtain ⟨y2, hy2, e2⟩ := hv t s.ub h0.le h1 le_rfl
  unfold Slice.interpolAt
  rw [Itv.mem_inf]
  constructor
  · have : f t = f s.ub - (s.ub - t) * y2 := by linear_combination -e2
    rw [this]; exact A.sub_mem hf.2.1 (A.mul_mem (by simp) hy2)
  · have : f t = f s.lb + (t - s.lb) * y1 := by linear_combination e1
    rw [this]; exact A.add_mem hf.1 (A.mul_mem (by simp) hy1)

/-- the slice found by `seek` is the one of index `timeToIndex` -/
theorem seek_eq_drop (t : K) (ss : List (Slice K)) : seek t ss = ss.drop (timeToIndex t ss) := by
  fun_induction seek t ss with
  | case1 => rfl
  | case2 => rfl
  | case3 s s' ss h => simp [timeToIndex, h]
  | case4 s s' ss h ih => simp [timeToIndex, h, ih]

theorem seek_head_getElem (t : K) (ss : List (Slice K)) : (seek t ss).head? = ss[timeToIndex t ss]? := by
  rw [seek_eq_drop, List.head?_drop]

theorem interpolAt_mem {A : IArith K} {y w : Tube K} (hy : y.WF) {f : K → K} (hf : y.Encloses f)
    (hs : SameB y w) (hw : w.SlopeIn f) {t : K} (h0 : y.t0 ≤ t) (h1 : t ≤ y.tf) : f t ∈ y.interpolAt A w t := by
  unfold Tube.interpolAt
  obtain ⟨s, ss, e1, e2, e3, e4, -⟩ := seek_spec (g := y.g0) hy.tiles hy.ne h0 h1
  have e : (seek t y.slices).head? = some s := by rw [Tube.slices, e1]; rfl
  rw [e]
  dsimp only
  split_ifs with h
  · have := hf s e2
    unfold Slice.evalAt
    rw [if_pos ⟨e3, e4⟩]
    by_cases h2 : t = s.lb
    · rw [if_pos h2, h2]; exact this.1
    · rw [if_neg h2]
      have h3 : t = s.ub := by
        rcases h with h | h
        · exact absurd h.symm h2
        · exact h.symm
      rw [if_pos h3, h3]; exact this.2.1
  · push Not at h
    refine Slice.interpolAt_mem (hf s e2) (codAt_slope hw ?_) (lt_of_le_of_ne e3 h.1)
      (lt_of_le_of_ne e4 (Ne.symm h.2))
    rw [← hs, ← Tube.slices_bounds, List.getElem?_map, ← seek_head_getElem, e]; rfl

/-- sampling keeps the slope condition: the new slices are parts of the old ones -/
theorem sampleCells_slope {t a b : K} {g : Itv K} {cs : List (Cell K)} {F : K → K} (ht : Tiles a cs b) (h1 : a ≤ t)
    (h2 : t ≤ b) (h : AllSl (fun s => s.SlopeIn F) g cs) : AllSl (fun s => s.SlopeIn F) g (sampleCells t cs) := by
  induction cs generalizing a g with
  | nil => simp [sampleCells]
  | cons c cs ih =>
    obtain ⟨rfl, h3, h4⟩ := ht
    rw [allSl_cons] at h
    simp only [sampleCells]
    split_ifs with h5 h6
    · rw [allSl_cons]; exact h
    · push Not at h6
      have h7 : t < c.ub := by
        rcases h5 with h5 | h5
        · exact h5
        · subst h5
          have : c.ub = b := h4
          exact lt_of_le_of_ne (this ▸ h2) (fun e => h6.2 e.symm)
      rw [allSl_cons, allSl_cons]
      refine ⟨?_, ?_, h.2⟩
      · intro m u hm hmu hu; exact h.1 m u hm hmu (le_trans hu h7.le)
      · intro m u hm hmu hu; exact h.1 m u (le_trans h1 hm) hmu hu
    · push Not at h5
      rw [allSl_cons]
      exact ⟨h.1, ih h4 h5.1 h.2⟩

theorem sample_slope {w : Tube K} (hw : w.WF) {t : K} (h1 : w.t0 ≤ t) (h2 : t ≤ w.tf) {F : K → K} (h : w.SlopeIn F) :
    (w.sample t).SlopeIn F := sampleCells_slope hw.tiles h1 h2 h

/-- setting at `t` an interval containing `f t` keeps `f` -/
theorem setAt_encloses {T : Tube K} (h : T.WF) (hg : T.GatesInEnvelopes) {t : K} (h1 : T.t0 ≤ t) (h2 : t ≤ T.tf)
    {y : Itv K} {f : K → K} (hf : T.Encloses f) (hy : f t ∈ y) : (T.setAt y t).Encloses f := by
  rw [Tube.setAt, sampleGate_encloses h h1 h2]
  refine ⟨hy, fun s hs => ?_⟩
  have := hf s hs
  refine ⟨fun _ => this.1, fun _ => this.2.1, this.2.2, ?_⟩
  intro h3 h4
  rcases eq_or_lt_of_le h3 with e | h3
  · rw [← e]; exact Itv.mem_of_le (hg s hs).1 this.1
  rcases eq_or_lt_of_le h4 with e | h4
  · rw [e]; exact Itv.mem_of_le (hg s hs).2 this.2.1
  exact this.2.2 t h3 h4

/-- one slice contracted by `CtcDeriv` -/
theorem upd_deriv_encloses {A : IArith K} {B : K} {R : Itv K} {x v : Tube K} (hx : x.WF) (hg : x.GatesInEnvelopes)
    (hs : SameB x v) {f : K → K} (hf : x.Encloses f) (hv : v.SlopeIn f)
    (hB : ∀ t, x.t0 ≤ t → t ≤ x.tf → -B ≤ f t ∧ f t ≤ B) (k : Nat) :
    (x.upd k (derivSlice A B R (v.codAt k))).Encloses f := by
  refine upd_encloses hx hg ?_ hf
  intro p n s hk hl he
  have hb := hx.tiles.mem_bounds (List.mem_of_getElem? hk)
  refine derivSlice_encloses hb.2.1 hl he (codAt_slope hv ?_) ?_
  · rw [← hs, ← Tube.slices_bounds, List.getElem?_map, hk]; rfl
  · intro t h0 h1; exact hB t (le_trans hb.1 h0) (le_trans h1 hb.2.2)

end

end Codac
