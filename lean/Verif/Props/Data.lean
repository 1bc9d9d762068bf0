import Verif.CN.AddData
import Verif.Tube.Vector
import Verif.Tools
import Mathlib.Data.Rat.Floor

/-! # C48 (`ContractorNetwork::add_data`) and C49 (`Tools::replace_all`) -/

set_option linter.unusedSectionVars false

namespace Codac.Props

variable {K : Type*} [Field K] [LinearOrder K] [IsStrictOrderedRing K]

/-- before any data -/
def dataStart (T : Tube K) : DataState K := ⟨T, Traj.empty, Traj.empty⟩

theorem dataStart_inv {T : Tube K} (hT : T.WF) (hg : T.GatesInEnvelopes) : DataInv [] (dataStart T) :=
  ⟨trajOk_empty, trajOk_empty, rfl, rfl, hT, hg⟩

/-- C48: over any sequence of data, each trajectory of the tube which follows the data (is between the linear interpolations of the lower and of the upper bounds) is kept; the tube
remains well formed on the same time domain. -/
theorem C48_sound {T : Tube K} (hT : T.WF) (hg : T.GatesInEnvelopes) {D : List (K × K × K)} {S : DataState K} (h : DataState.addAll D (dataStart T) = some S) :
    S.tube.WF ∧ S.tube.GatesInEnvelopes ∧ S.tube.t0 = T.t0 ∧ S.tube.tf = T.tf ∧ ∀ f, FollowsData D f → T.Encloses f → S.tube.Encloses f := by
  obtain ⟨h1, h2, h3, h4⟩ := DataState.addAll_inv (dataStart_inv hT hg) h
  exact ⟨h1.wf, h1.gc, h2, h3, h4⟩

/-- C48 (partial): over any sequence of data whose interpolated bounds are in the envelopes of the tube, the tube only shrinks: every trajectory of the final tube was in the initial one.
Missing: data partially outside of the envelopes, see `C48_fails`. -/
theorem C48_partial {T : Tube K} (hT : T.WF) (hg : T.GatesInEnvelopes) {D : List (K × K × K)} {S : DataState K} (h : DataState.addAll D (dataStart T) = some S)
    (hY : ∀ s ∈ T.slices, ∀ u v, s.lb ≤ u → u ≤ s.ub → Interp (D.map fun d => (d.1, d.2.1)) u v ∨ Interp (D.map fun d => (d.1, d.2.2)) u v → v ∈ s.cod) {f : K → K}
    (hf : S.tube.Encloses f) : T.Encloses f := by
  have := DataState.addAll_below (P := []) (dataStart_inv hT hg) h hT (Tube.Below.refl T) hY
  exact this.encloses hf

/-- C48: the data have to be given in increasing order: an exception is thrown exactly when the instant is not after all the previous ones -/
theorem C48_order {T : Tube K} (hT : T.WF) (hg : T.GatesInEnvelopes) {D : List (K × K × K)} {S : DataState K} (h : DataState.addAll D (dataStart T) = some S) (t yl yu : K) :
    S.add t yl yu = none ↔ ∃ d ∈ D, t ≤ d.1 := by
  have inv := (DataState.addAll_inv (dataStart_inv hT hg) h).1
  rw [List.nil_append] at inv
  constructor
  · intro hn
    by_contra hc
    push Not at hc
    unfold DataState.add at hn
    by_cases hp : S.lo.pts = []
    · rw [if_pos hp] at hn; cases hn
    · rw [if_neg hp] at hn
      obtain ⟨a, ha, b, hb, hab, e⟩ := inv.lo.dom.eq_icc (fun h => hp (List.map_eq_nil_iff.mp h))
      have hu : S.lo.dom.ub? = some b := by rw [e, Itv.icc_eq_mk (hab b hb).1]; rfl
      rw [hu] at hn
      rw [inv.loP, List.map_map] at hb
      obtain ⟨d, hd, rfl⟩ := List.mem_map.mp hb
      dsimp only [Function.comp] at hn
      rw [if_neg (not_le.mpr (hc d hd))] at hn
      split at hn
      · cases hn
      · split at hn <;> cases hn
  · rintro ⟨d, hd, hle⟩
    cases e : S.add t yl yu with
    | none => rfl
    | some S' => exact absurd ((DataState.add_inv inv e).2.1 d hd) (not_lt.mpr hle)

/-- C48: the data are used: after the call, the envelope of the slice just before `slice(t)`, if the data cover it, is included in any interval containing the values of the data over the slice -/
theorem C48_contracts {T : Tube K} (hT : T.WF) (hg : T.GatesInEnvelopes) {D : List (K × K × K)} {S S' : DataState K} (h : DataState.addAll D (dataStart T) = some S) {t yl yu : K} (hD : D ≠ [])
    (hS : S.add t yl yu = some S') (h0 : ∃ d ∈ D, T.t0 ≤ d.1) (htf : t < T.tf) {k : Nat} (hk : timeToIndex t S.tube.slices = k + 1) {s : Slice K} (hs : S.tube.slices[k]? = some s)
    (hcov : ∃ d ∈ D, d.1 ≤ s.lb) {Y : Itv K}
    (hY : ∀ u v, s.lb ≤ u → u ≤ s.ub → Interp ((D ++ [(t, yl, yu)]).map fun d => (d.1, d.2.1)) u v ∨ Interp ((D ++ [(t, yl, yu)]).map fun d => (d.1, d.2.2)) u v → v ∈ Y) :
    S'.tube.codAt k ≤ Y := by
  obtain ⟨inv, e0, ef, _⟩ := DataState.addAll_inv (dataStart_inv hT hg) h
  rw [List.nil_append] at inv
  obtain ⟨inv', hlt, _⟩ := DataState.add_inv inv hS
  have hb := inv.wf.tiles.mem_bounds (List.mem_of_getElem? hs)
  -- `t` is not before the end of the slice
  have hst : s.ub ≤ t := by
    obtain ⟨d, hd, hdt⟩ := h0
    have ht0 : S.tube.t0 ≤ t := by rw [e0]; exact hdt.trans (hlt d hd).le
    obtain ⟨s', h1, h2, _⟩ := inv.wf.tiles.timeToIndex_spec (g := S.tube.g0) inv.wf.ne ht0
    change S.tube.slices[timeToIndex t S.tube.slices]? = some s' at h1
    rw [hk] at h1
    exact (inv.wf.tiles.idx_lt (g := S.tube.g0) hs h1 (Nat.lt_succ_self k)).trans h2
  have hdom : Itv.icc s.lb s.ub ≤ S'.lo.dom := by
    obtain ⟨d, hd, hds⟩ := hcov
    have m1 := inv'.lo.dom.1 d.1 (by rw [inv'.loP, List.map_map]; exact List.mem_map.mpr ⟨d, by simp [hd], rfl⟩)
    have m2 := inv'.lo.dom.1 t (by rw [inv'.loP, List.map_map]; exact List.mem_map.mpr ⟨(t, yl, yu), by simp, rfl⟩)
    rw [icc_le_iff hb.2.1.le]
    exact ⟨Itv.mem_of_between m1 m2 hds (hb.2.1.le.trans hst), Itv.mem_of_between m1 m2 (hds.trans hb.2.1.le) hst⟩
  have henv := inv'.env_le hb.2.1.le hdom hY
  have hl := addDataLoop_last (lo := S'.lo) (hi := S'.hi) k S.tube hs hdom
  have : S'.tube = addDataLoop S'.lo S'.hi (k + 1) S.tube := by
    unfold DataState.add at hS
    have hp : S.lo.pts ≠ [] := by rw [inv.loP]; simpa using hD
    rw [if_neg hp] at hS
    cases e : S.lo.dom.ub? with
    | none => rw [e] at hS; cases hS
    | some prev =>
      rw [e] at hS
      dsimp only at hS
      by_cases ht : t ≤ prev
      · rw [if_pos ht] at hS; cases hS
      · rw [if_neg ht] at hS
        obtain ⟨d, hd, hdt⟩ := h0
        have hprev : ¬ prev < S.tube.t0 := by rw [e0]; exact not_lt.mpr (hdt.trans (inv.mem_le e d hd))
        rw [if_neg hprev, if_pos (by rw [ef]; exact htf), Option.some.injEq, hk] at hS
        subst hS
        rfl
  rw [this, hl]
  split
  · exact le_trans ‹_› henv
  · exact henv

/-- tube on `[0,2]`, two slices -/
def dataT : Tube ℚ := ⟨0, 2, Itv.icc 0 5, [⟨0, 1, Itv.icc 0 5, Itv.icc 0 5⟩, ⟨1, 2, Itv.icc 0 5, Itv.icc 0 5⟩]⟩

/-- the tube after the data -/
def dataT' : Tube ℚ := ⟨0, 2, Itv.icc 4 5, [⟨0, 1, Itv.icc 4 10, Itv.icc 4 5⟩, ⟨1, 2, Itv.icc 0 5, Itv.icc 0 5⟩]⟩

/-- C48 fails: the new envelope is not intersected with the old one. Data `[4,10]` on `[0,1]`, envelope `[0,5]`: the envelope becomes `[4,10]`; a trajectory which is not in the tube before
goes through the tube after. -/
theorem C48_fails : (DataState.addAll [(0, 4, 10), (1, 4, 10)] (dataStart dataT)).map DataState.tube = some dataT' ∧
    ∃ f : ℚ → ℚ, dataT'.Encloses f ∧ ¬ dataT.Encloses f := by
  refine ⟨by decide +kernel, fun t => if t = 1/2 then 9 else 5, ?_, ?_⟩
  · have h5 : (5 : ℚ) ∈ Itv.icc (4 : ℚ) 5 := by decide +kernel
    have h5' : (5 : ℚ) ∈ Itv.icc (0 : ℚ) 5 := by decide +kernel
    intro s hs
    rcases List.mem_cons.mp hs with rfl | hs
    · refine ⟨by decide +kernel, by decide +kernel, fun t h1 h2 => ?_⟩
      dsimp only
      split <;> decide +kernel
    · rcases List.mem_cons.mp hs with rfl | hs
      · refine ⟨by decide +kernel, by decide +kernel, fun t h1 h2 => ?_⟩
        dsimp only at h1 ⊢
        rw [if_neg (by intro h; rw [h] at h1; norm_num at h1)]
        exact h5'
      · cases hs
  · intro h
    have := (h ⟨0, 1, Itv.icc 0 5, Itv.icc 0 5, Itv.icc 0 5⟩ (by decide +kernel)).2.2 (1/2) (by norm_num) (by norm_num)
    revert this
    decide +kernel

example : dataT.WF ∧ dataT.GatesInEnvelopes := ⟨⟨by decide, ⟨rfl, by norm_num, rfl, by norm_num, rfl⟩⟩, by
  intro s hs
  rcases List.mem_cons.mp hs with rfl | hs
  · decide +kernel
  · rcases List.mem_cons.mp hs with rfl | hs
    · decide +kernel
    · cases hs⟩

example : ((DataState.addAll [(0, 1, 2), (1/2, 1, 3), (1, 2, 3), (3/2, 2, 4), (5/2, 1, 2)] (dataStart dataT)).map fun S => S.tube.slices.map Slice.cod) = some [Itv.icc 1 3, Itv.icc (3/2) 4] := by
  decide +kernel

/-- C49: for a non-empty search string, `replace_all` ends and gives the text where the occurrences of the search string, from the left and without overlap, are replaced (`Replaced`);
this determines the result -/
theorem C49_replace {α : Type*} [DecidableEq α] (input search format : List α) (hs : search ≠ []) :
    ∃ r, (∀ fuel, input.length < fuel → replaceAll fuel input search format = some r) ∧ Replaced search format input r ∧ ∀ r', Replaced search format input r' → r' = r := by
  obtain ⟨r, h1, h2⟩ := replaceLoop_spec format hs input.length input le_rfl []
  exact ⟨r, fun n hn => h2 n hn, h1, fun r' h' => h'.unique h1⟩

/-- C49: a text without the search string is left unchanged -/
theorem C49_unchanged {α : Type*} [DecidableEq α] (input search format : List α) (hs : search ≠ []) (h : ¬ search <:+: input) (fuel : Nat) (hf : input.length < fuel) :
    replaceAll fuel input search format = some input := by
  obtain ⟨r, h1, _, h3⟩ := C49_replace input search format hs
  rw [h1 fuel hf]
  congr 1
  refine (h3 input (.done ?_)).symm
  intro i hi
  exact h (hi.isInfix.trans (List.drop_suffix i input).isInfix)

/-- C49 fails for an empty search string: the loop never ends -/
theorem C49_empty_fails {α : Type*} [DecidableEq α] (input format : List α) (fuel : Nat) : replaceAll fuel input [] format = none :=
  replaceLoop_empty format fuel input 0 (Nat.zero_le _)

example : replaceAll 10 "aabbab".toList "ab".toList "xyz".toList = some "axyzbxyz".toList := by decide +kernel

end Codac.Props
