import Verif.C2.Convert
import Verif.Props.Tube2

/-!
# C93: conversions between the tubes of codac and those of codac2
-/

namespace Codac.Props
open Codac Codac.C2

variable {ι K : Type*} [LinearOrder K] [DecidableEq ι]

/-- **C93**: `to_codac2(x)` of a tube of codac returns a tube of codac2 on the same temporal domain, with a gate at each bound of the slices of `x` and
nowhere else, that contains exactly the trajectories of `x` -/
theorem C93_to_codac2 {T : Tube K} (hT : T.WF) (hg : T.GatesInEnvelopes) :
    ∃ l, toC2 T T = some l ∧ WF T.t0 T.tf l ∧ (∀ f, InTube l () f ↔ T.Encloses f) ∧
      ∀ t, GateAt l t ↔ t = T.tf ∨ ∃ s ∈ T.slices, s.lb = t := by
  obtain ⟨l, e, w, h1, h2, h3⟩ := toC2_spec hT hT hg rfl rfl
  refine ⟨l, e, w, fun f => ?_, h3⟩
  rw [inTube_iff]
  exact ⟨h2 (fun s hs => ⟨s, hs, rfl⟩) f, h1 f⟩

/-- **C93**: `to_codac2(x)` of a vector of tubes, for a component `T`, the first component being `D`: no trajectory of `T` is lost; and none is added
when each slice of `T` starts where a slice of `D` does -/
theorem C93_vector_to_codac2 {D T : Tube K} (hD : D.WF) (hT : T.WF) (hg : T.GatesInEnvelopes) (h0 : D.t0 = T.t0) (hf : D.tf = T.tf) :
    ∃ l, toC2 D T = some l ∧ WF T.t0 T.tf l ∧ (∀ f, T.Encloses f → InTube l () f) ∧
      ((∀ s ∈ T.slices, ∃ r ∈ D.slices, r.lb = s.lb) → ∀ f, InTube l () f ↔ T.Encloses f) := by
  obtain ⟨l, e, w, h1, h2, -⟩ := toC2_spec hD hT hg h0 hf
  refine ⟨l, e, w, fun f hf => inTube_iff.mpr (h1 f hf), fun hb f => ?_⟩
  rw [inTube_iff]
  exact ⟨h2 hb f, h1 f⟩

/-- **C93**: `to_codac1(x)` of a tube of codac2, on a temporal domain that is not a single instant, returns a well-formed tube of codac with the slices of
`x` (without its gates) and their codomains, that contains exactly the trajectories of `x`: the gates are not lost, although `set` on the slices
around them overwrites them -/
theorem C93_to_codac1 [NoMinOrder K] [NoMaxOrder K] {l : List (TS K ι K)} {a b : K} (h : WF a b l) (hab : a < b) (k : ι) :
    ∃ T, toC1 k l = some T ∧ T.t0 = a ∧ T.tf = b ∧ T.WF ∧ T.GatesInEnvelopes ∧ (∀ f, T.Encloses f ↔ InTube l k f) ∧
      T.slices.map (fun s => (s.lb, s.ub, s.cod)) = (deleteGates l).map fun s => (s.lb, s.ub, s.val k) := by
  obtain ⟨T, e, h1, h2, h3, h4, h5, h6⟩ := toC1_spec k h hab
  exact ⟨T, e, h1, h2, h3, h4, fun f => (h5 f).trans inTube_iff.symm, h6⟩

/-- **C93**: converting a tube of codac to codac2 and back changes neither its trajectories nor its temporal domain -/
theorem C93_round_trip [NoMinOrder K] [NoMaxOrder K] {T : Tube K} (hT : T.WF) (hg : T.GatesInEnvelopes) :
    ∃ l T', toC2 T T = some l ∧ toC1 () l = some T' ∧ T'.t0 = T.t0 ∧ T'.tf = T.tf ∧ T'.WF ∧ ∀ f, T'.Encloses f ↔ T.Encloses f := by
  obtain ⟨l, e, w, h1, -⟩ := C93_to_codac2 hT hg
  have hlt : T.t0 < T.tf := by
    obtain ⟨s, hs⟩ := List.exists_mem_of_ne_nil _ (show T.slices ≠ [] by
      intro h; apply hT.ne; rw [Tube.slices] at h; exact List.length_eq_zero_iff.mp (by rw [← length_slicesFrom T.g0, h]; rfl))
    obtain ⟨b1, b2, b3⟩ := hT.tiles.mem_bounds hs
    exact b1.trans_lt (b2.trans_le b3)
  obtain ⟨T', e', t0, tf, w', -, h2, -⟩ := C93_to_codac1 w hlt ()
  exact ⟨l, T', e, e', t0, tf, w', fun f => (h2 f).trans (h1 f)⟩

/-- **C93**: converting a tube of codac2 to codac and back: same trajectories, and a gate at each bound of the slices -/
theorem C93_round_trip2 [NoMinOrder K] [NoMaxOrder K] {l : List (TS K ι K)} {a b : K} (h : WF a b l) (hab : a < b) (k : ι) :
    ∃ T l', toC1 k l = some T ∧ toC2 T T = some l' ∧ WF a b l' ∧ ∀ f, InTube l' () f ↔ InTube l k f := by
  obtain ⟨T, e, rfl, rfl, w, hg, h1, -⟩ := C93_to_codac1 h hab k
  obtain ⟨l', e', w', h2, -⟩ := C93_to_codac2 w hg
  exact ⟨T, l', e, e', w', fun f => (h2 f).trans (h1 f)⟩

/-- a tube with two slices -/
def convT : Tube ℚ := ⟨0, 2, Itv.icc 0 1, [⟨0, 1, Itv.icc 0 3, Itv.icc 2 3⟩, ⟨1, 2, Itv.icc 2 6, Itv.icc 5 6⟩]⟩

theorem convT_wf : convT.WF ∧ convT.GatesInEnvelopes := by
  refine ⟨⟨by simp [convT], ⟨rfl, by norm_num, rfl, by norm_num, rfl⟩⟩, ?_⟩
  rw [Tube.gc_def]
  unfold AllSl
  decide +kernel

/-- the conversions of this tube: the values of the slices and gates; then back, the same tube -/
example : (toC2 convT convT).map (valuesOf ()) = some [Itv.icc 0 1, Itv.icc 0 3, Itv.icc 2 3, Itv.icc 2 6, Itv.icc 5 6] := by decide +kernel
example : ((toC2 convT convT).bind (toC1 ())).map (fun T => (T.g0, T.cells.map fun c => (c.cod, c.out))) =
    some (convT.g0, convT.cells.map fun c => (c.cod, c.out)) := by decide +kernel

/-- the second loop of `to_codac1` is needed: the gate `[2,2]` is lost by the first loop, which leaves the intersection of the codomains, and restored by
the second -/
example : ((loop1 () (twoSlices (Itv.icc 0 3) (Itv.icc 2 2) (Itv.icc 2 6)) (oneTube 0 2)).cells.map fun c => c.out) = [Itv.icc 2 3, Itv.icc 2 6] ∧
    (toC1 () (twoSlices (Itv.icc 0 3) (Itv.icc 2 2) (Itv.icc 2 6))).map (fun T => T.cells.map fun c => c.out) = some [Itv.icc 2 2, Itv.icc 2 6] := by
  decide +kernel

/-- **C93** fails for vectors of tubes that are not sliced in the same way: only the slices of the first component are used. With one slice in the first
component, the values of the two slices of another one are merged, and trajectories are added. -/
theorem C93_vector_fails : ∃ D T : Tube ℚ, D.WF ∧ T.WF ∧ T.GatesInEnvelopes ∧ D.t0 = T.t0 ∧ D.tf = T.tf ∧
    ∃ l, toC2 D T = some l ∧ valuesOf () l = [Itv.icc 0 1, Itv.icc 0 6, Itv.icc 5 6] ∧ ∃ f, InTube l () f ∧ ¬ T.Encloses f := by
  have hD : (⟨0, 2, ⊤, [⟨0, 2, ⊤, ⊤⟩]⟩ : Tube ℚ).WF := ⟨by simp, ⟨rfl, by norm_num, rfl⟩⟩
  obtain ⟨l, e, w, -⟩ := C93_vector_to_codac2 hD convT_wf.1 convT_wf.2 rfl rfl
  have hv : (toC2 (⟨0, 2, ⊤, [⟨0, 2, ⊤, ⊤⟩]⟩ : Tube ℚ) convT).map (fun l => l.map fun s => (s.lb, s.ub, s.val ())) =
      some [(0, 0, Itv.icc 0 1), (0, 2, Itv.icc 0 6), (2, 2, Itv.icc 5 6)] := by decide +kernel
  rw [e, Option.map_some, Option.some.injEq] at hv
  refine ⟨_, convT, hD, convT_wf.1, convT_wf.2, rfl, rfl, l, e, ?_, fun t => if t ≤ 1 then 0 else 5, ?_, ?_⟩
  · have := congrArg (List.map fun p => p.2.2) hv
    simpa [valuesOf, Function.comp_def] using this
  · intro s hs t t1 t2
    have hm : (s.lb, s.ub, s.val ()) ∈ [((0 : ℚ), (0 : ℚ), Itv.icc (0 : ℚ) 1), (0, 2, Itv.icc 0 6), (2, 2, Itv.icc 5 6)] := by
      rw [← hv]
      exact List.mem_map.mpr ⟨s, hs, rfl⟩
    simp only [List.mem_cons, Prod.mk.injEq, List.not_mem_nil, or_false] at hm
    rcases hm with ⟨h1, h2, h3⟩ | ⟨h1, h2, h3⟩ | ⟨h1, h2, h3⟩
    · rw [h1] at t1; rw [h2] at t2
      have : t = 0 := le_antisymm t2 t1
      rw [h3, this, Itv.mem_icc]; norm_num
    · rw [h3, Itv.mem_icc]
      beta_reduce
      split_ifs <;> norm_num
    · rw [h1] at t1; rw [h2] at t2
      have : t = 2 := le_antisymm t2 t1
      rw [h3, this, Itv.mem_icc]; norm_num
  · intro hf
    have := (hf ⟨0, 1, Itv.icc 0 3, Itv.icc 0 1, Itv.icc 2 3⟩ (by simp [Tube.slices, convT])).2.1
    rw [Itv.mem_icc] at this
    norm_num at this

/-- **C93**: `to_codac1` of a tube of codac2 reduced to one instant fails on the assertion of the constructor of `codac::Tube` -/
theorem C93_instant_fails : ∃ l : List (TS ℚ Unit ℚ), WF 0 0 l ∧ (∃ f, InTube l () f) ∧ toC1 () l = none := by
  refine ⟨[⟨0, 0, fun _ => Itv.icc 0 1⟩], ⟨by simp, ⟨rfl, le_refl _, rfl⟩, List.pairwise_singleton _ _⟩, ⟨fun _ => 0, ?_⟩, ?_⟩
  · intro s hs t _ _
    rw [List.mem_singleton.mp hs, Itv.mem_icc]; norm_num
  · simp [toC1]

end Codac.Props
