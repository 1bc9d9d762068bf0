import Verif.Tube.Examples

/-!
# Properties C03-C07: sampling, setting an instant, evaluating and inverting a tube

`T.Encloses f` means: `f` is in the envelope inside each slice and in the gate at each gate time.
-/

namespace Codac.Props
open Codac

variable {K : Type*} [LinearOrder K]

/-! ## C03 -/

/-- **C03**: `sample(t)` neither loses nor adds a trajectory. -/
theorem C03_sample_same_trajectories {T : Tube K} (h : T.WF) {t : K}
    (h1 : T.t0 ≤ t) (h2 : t ≤ T.tf) (f : K → K) : (T.sample t).Encloses f ↔ T.Encloses f :=
  sample_encloses h h1 h2

/-- **C03**: after `sample(t)` there is a gate at `t`. -/
theorem C03_sample_gate_exists {T : Tube K} (h : T.WF) {t : K} (h1 : T.t0 ≤ t) (h2 : t ≤ T.tf) :
    (T.sample t).gateExists t = some true := by
  have hwf := sample_wf h h1 h2
  obtain ⟨s, ss, e1, e2, e3, e4, e5⟩ := seek_spec (g := (T.sample t).g0) hwf.tiles hwf.ne h1 h2
  have hsl : (T.sample t).slice t = some s := by
    unfold Tube.slice
    rw [if_pos ⟨h1, h2⟩, Tube.slices, e1]; rfl
  rw [Tube.gateExists, hsl]
  simp only [Option.map_some, Option.some.injEq, decide_eq_true_eq]
  rcases e5 with e5 | e5
  · left
    by_contra hne
    have hlt : s.lb < t := lt_of_le_of_ne e3 hne
    have ht0 : T.t0 < t := lt_of_le_of_lt (hwf.tiles.mem_bounds e2).1 hlt
    -- `t` is the end of some slice, hence not in the interior of another one
    have hub : t ∈ (T.sample t).cells.map Cell.ub := (mem_ub_sampleCells h.tiles h1 h2).mpr (Or.inr ⟨rfl, ht0⟩)
    obtain ⟨s', hs', hs't⟩ : ∃ s' ∈ (T.sample t).slices, s'.ub = t := by
      have hb := Tube.slices_bounds (T.sample t)
      have : t ∈ ((T.sample t).cells.map (fun c => (c.lb, c.ub))).map Prod.snd := by
        simpa [List.map_map, Function.comp_def] using hub
      rw [← hb, List.map_map] at this
      obtain ⟨s', hs', e⟩ := List.mem_map.mp this
      exact ⟨s', hs', e⟩
    exact hwf.tiles.no_interior_ub e2 hs' (hs't ▸ hlt) (hs't ▸ e5)
  · right; exact e5.1

/-- **C03**: one more slice if `t` was not a bound, none otherwise. -/
theorem C03_sample_nb_slices {T : Tube K} (h : T.WF) {t : K} (h1 : T.t0 ≤ t) (h2 : t ≤ T.tf) :
    (T.sample t).nbSlices =
      if t = T.t0 ∨ ∃ s ∈ T.slices, s.ub = t then T.nbSlices else T.nbSlices + 1 := by
  have := sampleCells_length h.tiles h1 h2
  have e : (∃ s ∈ T.slices, s.ub = t) ↔ t ∈ T.cells.map Cell.ub := by
    have hb := Tube.slices_bounds T
    have hb2 : T.slices.map Slice.ub = T.cells.map Cell.ub := by
      have := congrArg (List.map Prod.snd) hb
      simpa [List.map_map, Function.comp_def] using this
    rw [← hb2, List.mem_map]
  rw [Tube.nbSlices, Tube.nbSlices, show (T.sample t).cells = sampleCells t T.cells from rfl, this]
  simp only [e]

/-- **C03**: a second `sample(t)` changes nothing. -/
theorem C03_sample_idempotent {T : Tube K} (h : T.WF) {t : K} (h1 : T.t0 ≤ t) (h2 : t ≤ T.tf) :
    (T.sample t).sample t = T.sample t := by
  have hwf := sample_wf h h1 h2
  have hgate : t = (T.sample t).t0 ∨ t ∈ (T.sample t).cells.map Cell.ub := by
    rcases eq_or_lt_of_le h1 with e | h1'
    · exact Or.inl e.symm
    · exact Or.inr ((mem_ub_sampleCells h.tiles h1 h2).mpr (Or.inr ⟨rfl, h1'⟩))
  have := sampleCells_eq_self hwf.tiles hgate
  rw [Tube.sample, this]

example : Ex.T.WF ∧ Ex.T.GatesInEnvelopes ∧ Ex.T.t0 ≤ 3 ∧ (3:ℚ) ≤ Ex.T.tf ∧ Ex.T.Encloses (fun t => t) ∧
    (Ex.T.sample 3).nbSlices = 4 := ⟨Ex.T_wf, Ex.T_gc, by decide +kernel, by decide +kernel, Ex.T_encl, by decide +kernel⟩

/-! ## C04 -/

/-- **C04**: after `set(y, t)` / `sample(t, y)` a trajectory is in the tube iff it is in `y` at `t`, in the
envelopes of the slices around `t`, and satisfies all former constraints other than the former gate at `t`. -/
theorem C04_set_instant {T : Tube K} (h : T.WF) {t : K} (h1 : T.t0 ≤ t) (h2 : t ≤ T.tf) (y : Itv K)
    (f : K → K) :
    (T.setAt y t).Encloses f ↔
      f t ∈ y ∧ ∀ s ∈ T.slices,
        (s.lb ≠ t → f s.lb ∈ s.inG) ∧ (s.ub ≠ t → f s.ub ∈ s.outG) ∧
        (∀ u, s.lb < u → u < s.ub → f u ∈ s.cod) ∧ (s.lb ≤ t → t ≤ s.ub → f t ∈ s.cod) :=
  sampleGate_encloses h h1 h2

/-- **C04**: in particular, with consistent gates, constraining the instant `t` with a subset of what the tube
allowed there keeps exactly the trajectories whose value at `t` is in `y`. -/
theorem C04_set_instant_inter {T : Tube K} (h : T.WF) (hgc : T.GatesInEnvelopes) {t : K} (h1 : T.t0 ≤ t)
    (h2 : t ≤ T.tf) (y : Itv K) (hy : y ≤ T.evalAt t) (f : K → K) :
    (T.setAt y t).Encloses f ↔ T.Encloses f ∧ f t ∈ y := by
  rw [C04_set_instant h h1 h2]
  constructor
  · rintro ⟨hft, hs⟩
    refine ⟨fun s hs' => ?_, hft⟩
    obtain ⟨e1, e2, e3, e4⟩ := hs s hs'
    have hmem := Itv.mem_of_le hy hft
    refine ⟨?_, ?_, e3⟩
    · by_cases e : s.lb = t
      · rw [← Tube.evalAt_lb h hs', e]; exact hmem
      · exact e1 e
    · by_cases e : s.ub = t
      · rw [← Tube.evalAt_ub h hs', e]; exact hmem
      · exact e2 e
  · rintro ⟨hf, hft⟩
    refine ⟨hft, fun s hs => ?_⟩
    obtain ⟨e1, e2, e3⟩ := hf s hs
    exact ⟨fun _ => e1, fun _ => e2, e3, fun a b => (hf s hs).mem_cod (hgc s hs) a b⟩

example : Ex.T.WF ∧ Ex.T.GatesInEnvelopes ∧ Ex.T.t0 ≤ 3 ∧ (3:ℚ) ≤ Ex.T.tf ∧ Ex.I 3 4 ≤ Ex.T.evalAt 3 :=
  ⟨Ex.T_wf, Ex.T_gc, by decide +kernel, by decide +kernel, by decide +kernel⟩

/-! ## C05 -/

/-- **C05**: `x(t)` encloses the value at `t` of every trajectory of the tube. -/
theorem C05_eval_instant {T : Tube K} (h : T.WF) {f : K → K} (hf : T.Encloses f) (t : K) :
    f t ∈ T.evalAt t := evalAt_mem h hf t

/-- **C05**: `x([t])` encloses the values over `[t]` of every trajectory of the tube. -/
theorem C05_eval_interval {T : Tube K} (h : T.WF) (hgc : T.GatesInEnvelopes) {f : K → K} (hf : T.Encloses f)
    {I : Itv K} {t : K} (ht : t ∈ I) : f t ∈ T.evalItv I := evalItv_mem h hgc hf ht

/-- **C05**: over a non-degenerate interval of the time domain, the evaluation is the smallest interval
containing the envelopes of all slices overlapping it (nothing more than needed). -/
theorem C05_eval_interval_tight {T : Tube K} (h : T.WF) {a b : K} (hab : a < b) (h1 : T.t0 ≤ a) (h2 : b ≤ T.tf)
    (X : Itv K) : T.evalItv (Itv.icc a b) ≤ X ↔ ∀ s ∈ T.slices, s.lb < b → a < s.ub → s.cod ≤ X :=
  evalItv_le_iff h hab h1 h2

/-- **C05**: evaluation is monotone: a smaller time interval gives a smaller enclosure. -/
theorem C05_eval_monotone {T : Tube K} (h : T.WF) (hgc : T.GatesInEnvelopes) {a b a' b' : K} (hab : a ≤ b)
    (hb : b ≤ b') (ha : a' ≤ a) (h1 : T.t0 ≤ a') (h2 : b' ≤ T.tf) :
    T.evalItv (Itv.icc a b) ≤ T.evalItv (Itv.icc a' b') := by
  rcases lt_or_eq_of_le hab with hlt | rfl
  · rw [evalItv_le_iff h hlt (le_trans h1 ha) (le_trans hb h2)]
    intro s hs hs1 hs2
    have hlt' : a' < b' := lt_of_le_of_lt ha (lt_of_lt_of_le hlt hb)
    exact (evalItv_le_iff h hlt' h1 h2).mp (le_refl _) s hs (lt_of_lt_of_le hs1 hb) (lt_of_le_of_lt ha hs2)
  · rcases lt_or_eq_of_le (le_trans ha hb) with hlt' | e
    · -- a degenerate interval inside a non-degenerate one
      have key := (evalItv_le_iff h hlt' h1 h2 (X := T.evalItv (Itv.icc a' b'))).mp (le_refl _)
      have hp : T.evalItv (Itv.icc a a) = T.evalAt a := by
        rw [Itv.icc_eq_mk (le_refl a)]
        simp only [Tube.evalItv]
        rw [if_neg (by push Not; exact ⟨le_trans h1 ha, le_trans hb h2⟩)]; simp
      rw [hp]
      have ha0 : T.t0 ≤ a := le_trans h1 ha
      have haf : a ≤ T.tf := le_trans hb h2
      -- a slice containing `a` and overlapping `[a',b']`
      obtain ⟨s, ss, e1, e2, e3, e4, e5⟩ := seek_spec (g := T.g0) h.tiles h.ne ha0 haf
      have hhead : (seek a T.slices).head? = some s := by rw [Tube.slices, e1]; rfl
      rw [Tube.evalAt_eq ha0 haf hhead]
      have hgs := hgc s e2
      have hle : s.evalAt a ≤ s.cod := by
        simp only [Slice.evalAt, e3, e4, and_self, if_true]
        split_ifs
        · exact hgs.1
        · exact hgs.2
        · exact le_refl _
      rcases e5 with e5 | e5
      · rcases lt_or_eq_of_le hb with hb | rfl
        · exact le_trans hle (key s e2 (lt_of_le_of_lt e3 hb) (lt_of_le_of_lt ha e5))
        · -- `a` is the right end of the interval
          rcases lt_or_eq_of_le e3 with e6 | e6
          · exact le_trans hle (key s e2 e6 (lt_trans hlt' e5))
          · -- the gate at the beginning of `s` is the end of the previous slice
            obtain ⟨r, hr, hr1, hr2⟩ := h.tiles.exists_slice' (g := T.g0) (lt_of_le_of_lt h1 hlt') haf
            have hr3 : r.ub = a := by
              rcases lt_or_eq_of_le hr2 with h' | h'
              · exfalso
                -- `a` would be interior to `r` and the lower bound of `s`
                exact h.tiles.no_interior_lb hr e2 (e6 ▸ hr1) (e6 ▸ h')
              · exact h'.symm
            obtain ⟨s', g1, g2⟩ := seek_ub h.tiles hr hr3
            have : s' = s := by
              rw [show (seek a (slicesFrom T.g0 T.cells)).head? = some s from hhead] at g1
              exact (Option.some.inj g1).symm
            subst this
            rw [g2]
            exact le_trans (hgc r hr).2 (key r hr hr1 (lt_of_lt_of_le hlt' hr2))
      · have hbt : a = T.tf := e5.1
        have hbb : b' = a := le_antisymm (hbt ▸ h2) hb
        subst hbb
        rcases lt_or_eq_of_le e3 with e6 | e6
        · exact le_trans hle (key s e2 e6 (lt_of_lt_of_le hlt' e4))
        · exfalso
          have := h.tiles.mem_bounds e2
          exact absurd (lt_of_lt_of_le this.2.1 this.2.2) (by rw [e6, hbt]; exact lt_irrefl _)
    · have e1 : a = a' := le_antisymm (e ▸ hb) ha
      have e2 : a = b' := e1.trans e
      rw [← e1, ← e2]

example : Ex.T.WF ∧ Ex.T.GatesInEnvelopes ∧ Ex.T.Encloses (fun t => t) ∧ (1/2:ℚ) < 3 ∧
    Ex.T.evalItv (Ex.I (1/2) 3) = Ex.I 0 5 ∧ Ex.T.evalItv (Ex.I (1/2) 2) = Ex.I 0 3 :=
  ⟨Ex.T_wf, Ex.T_gc, Ex.T_encl, by decide +kernel, by decide +kernel, by decide +kernel⟩

/-! ## C06 -/

/-- **C06** (partial): the interval version of `invert` keeps every pre-image, provided the search interval is not
a single instant at which a slice starts. Missing: that case, where the loop is not entered, see
`C06_invert_fails`. -/
theorem C06_invert_partial {T : Tube K} (h : T.WF) (hgc : T.GatesInEnvelopes) {f : K → K} (hf : T.Encloses f)
    {y search : Itv K} {t : K} (ht : t ∈ search) (hy : f t ∈ y)
    (hdeg : ∀ s ∈ T.slices, search ≠ Itv.point s.lb) : t ∈ T.invert y search := by
  match search, ht, hdeg with
  | .mk (some a) (some b) hab, ht, hdeg =>
    have ht' : a ≤ t ∧ t ≤ b := ht
    simp only [Tube.invert]
    split_ifs with h0
    · simp
    · push Not at h0
      obtain ⟨a', g', cs', e1, e2, e3, e4, e5, e6, e7, e8, e9, e10⟩ := seek_suffix (g := T.g0) h.tiles h.ne h0.1
      rw [Tube.slices, e1]
      -- the slice that contributes
      have : ∃ s ∈ slicesFrom g' cs', s.lb < b ∧ s.lb ≤ t ∧ t ≤ s.ub := by
        rcases eq_or_lt_of_le hab with e | hlt
        · -- degenerate search
          have hta : t = a := le_antisymm (e ▸ ht'.2) ht'.1
          have hab' : a < T.tf → False ∨ ∃ s ∈ slicesFrom g' cs', s.lb < b ∧ s.lb ≤ t ∧ t ≤ s.ub := by
            intro hlt
            obtain ⟨s, hs, hs1, hs2⟩ := h.tiles.exists_slice (g := T.g0) h0.1 hlt
            right
            refine ⟨s, e8 s hs hs2, ?_, hta ▸ hs1, hta ▸ hs2.le⟩
            rcases lt_or_eq_of_le hs1 with h' | h'
            · exact e ▸ h'
            · exfalso
              apply hdeg s hs
              rw [h']; subst e; rfl
          rcases lt_or_eq_of_le (show a ≤ T.tf from e ▸ h0.2) with hlt | heq
          · exact (hab' hlt).elim False.elim id
          · -- last slice
            obtain ⟨s, hs, hs1, hs2⟩ := e3.exists_slice' (g := g') (t := a) (by
              rcases lt_or_eq_of_le e5 with h' | h'
              · exact h'
              · exfalso; exact absurd (e3.lt e2) (by rw [h', heq]; exact lt_irrefl _)) (le_of_eq heq)
            exact ⟨s, hs, e ▸ hs1, hta ▸ hs1.le, hta ▸ hs2⟩
        · rcases lt_or_eq_of_le ht'.2 with h3 | h3
          · obtain ⟨s, hs, hs1, hs2⟩ := e3.exists_slice (g := g') (le_trans e5 ht'.1) (lt_of_lt_of_le h3 h0.2)
            exact ⟨s, hs, lt_of_le_of_lt hs1 h3, hs1, hs2.le⟩
          · obtain ⟨s, hs, hs1, hs2⟩ := e3.exists_slice' (g := g') (lt_of_le_of_lt e5 (h3 ▸ hlt)) (h3 ▸ h0.2)
            exact ⟨s, hs, h3 ▸ hs1, hs1.le, hs2⟩
      obtain ⟨s, hs, hs1, hs2, hs3⟩ := this
      refine Itv.mem_of_le (le_invertLoop e3 hs hs1) ?_
      refine Slice.invert_sound (hf s (e9 s hs)) (hgc s (e9 s hs)) ?_ hy
      simp only [Itv.mem_inf, Itv.mem_icc]
      exact ⟨ht', hs2, hs3⟩
  | .mk none none _, _, _ => simp [Tube.invert]
  | .mk none (some _) _, _, _ => simp [Tube.invert]
  | .mk (some _) none _, _, _ => simp [Tube.invert]

/-- **C06** does not hold in general: inverting over a single instant where a slice starts always returns the empty
set, whatever the tube (so a pre-image at this instant is lost). -/
theorem C06_invert_fails {T : Tube K} (h : T.WF) {s : Slice K} (hs : s ∈ T.slices) (y : Itv K) :
    T.invert y (Itv.point s.lb) = ⊥ := by
  have hb := h.tiles.mem_bounds hs
  have hlt : s.lb < T.tf := lt_of_lt_of_le hb.2.1 hb.2.2
  simp only [Itv.point, Tube.invert]
  rw [if_neg (by push Not; exact ⟨hb.1, hlt.le⟩)]
  have hhead := seek_lb h.tiles hs rfl
  rw [show T.slices = slicesFrom T.g0 T.cells from rfl]
  generalize seek s.lb (slicesFrom T.g0 T.cells) = l at hhead
  cases l with
  | nil => rfl
  | cons s' ss =>
    rw [List.head?_cons, Option.some.injEq] at hhead
    subst hhead
    simp [invertLoop]

/-- witness: the identity lies in the tube and takes the value 1 at time 1, but `invert([1,1],[1,1])` is empty -/
example : Ex.T.Encloses (fun t => t) ∧ (1:ℚ) ∈ Itv.point (1:ℚ) ∧ Ex.T.invert (Itv.point 1) (Itv.point 1) = ⊥ :=
  ⟨Ex.T_encl, by decide +kernel, by decide +kernel⟩

example : (∀ s ∈ Ex.T.slices, Ex.I 1 3 ≠ Itv.point s.lb) ∧ Ex.T.invert (Ex.I (5/2) 3) (Ex.I 1 3) = Ex.I 1 3 ∧
    Ex.T.invert (Ex.I 4 6) (Ex.I 0 3) = Ex.I 2 3 := by decide +kernel

/-! ## C07 -/

/-- **C07**: the list version of `invert` keeps every pre-image. -/
theorem C07_invert_list {T : Tube K} (h : T.WF) (hgc : T.GatesInEnvelopes) {f : K → K} (hf : T.Encloses f)
    {y search : Itv K} {t : K} (ht : t ∈ search) (hy : f t ∈ y) :
    ∃ I ∈ T.invertList y search, t ∈ I := by
  match search, ht with
  | .mk (some a) (some b) hab, ht =>
    have ht' : a ≤ t ∧ t ≤ b := ht
    simp only [Tube.invertList]
    split_ifs with h0
    · exact ⟨⊤, by simp, by simp⟩
    · push Not at h0
      obtain ⟨a', g', cs', e1, e2, e3, e4, e5, e6, e7, e8, e9, e10⟩ := seek_suffix (g := T.g0) h.tiles h.ne h0.1
      rw [Tube.slices, e1]
      have : ∃ s ∈ slicesFrom g' cs', s.lb ≤ t ∧ t ≤ s.ub := by
        rcases lt_or_eq_of_le (le_trans ht'.2 h0.2) with h3 | h3
        · obtain ⟨s, hs, hs1, hs2⟩ := e3.exists_slice (g := g') (le_trans e5 ht'.1) h3
          exact ⟨s, hs, hs1, hs2.le⟩
        · obtain ⟨s, hs, hs1, hs2⟩ := e3.exists_slice' (g := g') (t := t) (by rw [h3]; exact e3.lt e2) (le_of_eq h3)
          exact ⟨s, hs, hs1.le, hs2⟩
      obtain ⟨s, hs, hs1, hs2⟩ := this
      refine mem_invertListLoop e3 hs (le_trans hs1 ht'.2) ?_
      refine Slice.invert_sound (hf s (e9 s hs)) (hgc s (e9 s hs)) ?_ hy
      simp only [Itv.mem_inf, Itv.mem_icc]
      exact ⟨ht', hs1, hs2⟩
  | .mk none none _, _ => exact ⟨⊤, by simp [Tube.invertList], by simp⟩
  | .mk none (some _) _, _ => exact ⟨⊤, by simp [Tube.invertList], by simp⟩
  | .mk (some _) none _, _ => exact ⟨⊤, by simp [Tube.invertList], by simp⟩

/-- **C07**: the returned intervals are not empty. -/
theorem C07_invert_list_nonempty (T : Tube K) (y search : Itv K) : ∀ I ∈ T.invertList y search, I ≠ ⊥ := by
  have htop : (⊤ : Itv K) ≠ ⊥ := by intro h; cases h
  intro I hI
  match search with
  | .empty => simp [Tube.invertList] at hI
  | .mk (some a) (some b) _ =>
    simp only [Tube.invertList] at hI
    split_ifs at hI
    · rw [List.mem_singleton] at hI; rw [hI]; exact htop
    · exact invertListLoop_nonempty _ _ I hI
  | .mk none none _ => simp only [Tube.invertList, List.mem_singleton] at hI; rw [hI]; exact htop
  | .mk none (some _) _ => simp only [Tube.invertList, List.mem_singleton] at hI; rw [hI]; exact htop
  | .mk (some _) none _ => simp only [Tube.invertList, List.mem_singleton] at hI; rw [hI]; exact htop

example : Ex.T.invertList (Itv.point 1) (Itv.point 1) = [Itv.point 1] ∧
    Ex.T.invertList (Ex.I 0 (1/2)) (Ex.I 0 4) = [Ex.I 0 1] := by decide +kernel

end Codac.Props
