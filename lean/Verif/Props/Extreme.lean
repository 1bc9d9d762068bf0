import Verif.Tube.Extreme
import Verif.Tube.Examples
import Verif.Props.TubeOps

/-!
# C145: the wider slice, the steepest slice, the last slice, the index of a slice
-/

namespace Codac.Props
open Codac

/-- **C145**: `index(slice)` is the position of the slice in the tube when it is one of its slices, and `-1` otherwise (a slice of another tube, the null pointer); the slices
of a tube are distinct objects -/
theorem C145_index {qs : List Nat} (hne : qs ≠ []) (hd : qs.Nodup) (p : Nat) :
    (∀ k : Nat, indexOf qs p = k ↔ qs[k]? = some p) ∧ (indexOf qs p = -1 ↔ p ∉ qs) := by
  by_cases h : p ∈ qs
  · obtain ⟨k, hk⟩ := List.mem_iff_getElem?.mp h
    have e : indexOf qs p = k := by unfold indexOf; rw [indexLoop_get qs 0 k hd hk, zero_add]
    refine ⟨fun j => ⟨fun h' => ?_, fun h' => ?_⟩, fun h' => ?_, fun h' => absurd h h'⟩
    · rw [e] at h'
      rw [← Int.ofNat.inj h']; exact hk
    · unfold indexOf; rw [indexLoop_get qs 0 j hd h', zero_add]
    · rw [e] at h'; omega
  · have e : indexOf qs p = -1 := indexLoop_not_mem qs 0 hne h
    refine ⟨fun j => ⟨fun h' => ?_, fun h' => absurd (List.mem_iff_getElem?.mpr ⟨j, h'⟩) h⟩, fun _ => h, fun _ => e⟩
    rw [e] at h'; omega

example : indexOf [10, 20, 30] 30 = 2 ∧ indexOf [10, 20, 30] 0 = -1 := by decide

section
variable {K : Type*} [LinearOrder K]

theorem slices_ne_nil {T : Tube K} (h : T.WF) : T.slices ≠ [] := by
  intro e
  apply h.ne
  rw [Tube.slices] at e
  exact List.length_eq_zero_iff.mp (by rw [← length_slicesFrom T.g0, e]; rfl)

/-- **C145**: `last_slice()` is the slice that ends with the temporal domain -/
theorem C145_last {T : Tube K} (h : T.WF) : ∃ s ∈ T.slices, T.lastSlice = some s ∧ s.ub = T.tf := by
  obtain ⟨s, hs⟩ := Option.ne_none_iff_exists'.mp (fun e => slices_ne_nil h (List.getLast?_eq_none_iff.mp e))
  refine ⟨s, List.mem_of_getLast? hs, by unfold Tube.lastSlice; rw [lastLoop_eq, hs], ?_⟩
  have key : ∀ (cs : List (Cell K)) (g : Itv K) (a : K), Tiles a cs T.tf → ∀ r, (slicesFrom g cs).getLast? = some r → r.ub = T.tf := by
    intro cs
    induction cs with
    | nil => intro g a _ r hr; simp [slicesFrom] at hr
    | cons c cs ih =>
      intro g a ht r hr
      cases cs with
      | nil =>
        simp [slicesFrom] at hr
        obtain ⟨-, -, h3⟩ := ht
        rw [← hr]; exact h3
      | cons c' cs =>
        refine ih c.out c.ub ht.2.2 r ?_
        simpa [slicesFrom] using hr
  exact key T.cells T.g0 T.t0 h.tiles s hs

end

variable {K : Type*} [Field K] [LinearOrder K] [IsStrictOrderedRing K]

/-- **C145**: `wider_slice()` is a slice of the tube, and none lasts longer -/
theorem C145_wider {T : Tube K} (h : T.WF) : ∃ s ∈ T.slices, T.widerSlice = some s ∧ ∀ r ∈ T.slices, r.ub - r.lb ≤ s.ub - s.lb := by
  unfold Tube.widerSlice
  have hb : ∀ r ∈ T.slices, r.lb < r.ub := fun r hr => (h.tiles.mem_bounds hr).2.1
  cases hs : T.slices with
  | nil => exact absurd hs (slices_ne_nil h)
  | cons s ss =>
    have h0 : 0 ≤ s.ub - s.lb := by
      have := hb s (by rw [hs]; simp)
      linarith
    obtain ⟨h1, -, h3⟩ := widerLoop_spec (s :: ss) s 0 h0
    exact ⟨_, h1.elim (fun e => by rw [e]; simp) id, rfl, h3⟩

/-- **C145**: `steepest_slice()` is a slice of the tube; the middle of the gates moves by no more in the other slices (where it is defined) -/
theorem C145_steepest (mid : Itv K → Option K) {T : Tube K} (h : T.WF) :
    ∃ s ∈ T.slices, T.steepestSlice mid = some s ∧ (∀ d, s.rise mid = some d → ∀ r ∈ T.slices, ∀ e, r.rise mid = some e → e ≤ d) ∧
      (s.rise mid = none → ∀ r ∈ T.slices, ∀ e, r.rise mid = some e → e = 0) := by
  unfold Tube.steepestSlice
  cases hs : T.slices with
  | nil => exact absurd hs (slices_ne_nil h)
  | cons s ss =>
    obtain ⟨h1, h2, h3⟩ := steepLoop_spec mid (s :: ss) s 0 fun d hd => Slice.rise_nonneg hd
    exact ⟨_, h1.elim (fun e => by rw [e]; simp) id, rfl, fun d hd => (h2 d hd).2,
      fun hn r hr e he => le_antisymm ((h3 hn).2 r hr e he) (Slice.rise_nonneg he)⟩

theorem steepVec_spec (mid : Itv K → Option K) {x0 : List (Tube K)} : ∀ (x : List (Tube K)) (i : Nat) (best : Option (Nat × Slice K)) (m : K),
    (∀ k, x[k]? = x0[i + k]?) → (∀ T ∈ x, T.WF) → (∀ T ∈ x, ∀ s ∈ T.slices, ∃ d, s.rise mid = some d) → 0 ≤ m →
    (∀ j s, best = some (j, s) → s.rise mid = some m ∧ ∃ T, x0[j]? = some T ∧ s ∈ T.slices) → (best = none → m = 0) →
    ∃ b m', steepVecLoop mid i best m x = some b ∧ m ≤ m' ∧ (b = none → best = none ∧ x = []) ∧
      (∀ j s, b = some (j, s) → s.rise mid = some m' ∧ ∃ T, x0[j]? = some T ∧ s ∈ T.slices) ∧ ∀ T ∈ x, ∀ s ∈ T.slices, ∀ e, s.rise mid = some e → e ≤ m'
  | [], i, best, m, _, _, _, _, hb, _ => ⟨best, m, rfl, le_rfl, fun e => ⟨e, rfl⟩, hb, by simp⟩
  | T :: x, i, best, m, hx, hw, hd, h0, hb, hn => by
    have hx' : ∀ k, x[k]? = x0[i + 1 + k]? := fun k => by
      have := hx (k + 1)
      rw [List.getElem?_cons_succ] at this
      rw [this, show i + (k + 1) = i + 1 + k by omega]
    have hw' : ∀ T ∈ x, T.WF := fun T hT => hw T (by simp [hT])
    have hd' : ∀ T ∈ x, ∀ s ∈ T.slices, ∃ d, s.rise mid = some d := fun T hT => hd T (by simp [hT])
    obtain ⟨s, hs, es, h1, -⟩ := C145_steepest mid (hw T (by simp))
    obtain ⟨d, hsd⟩ := hd T (by simp) s hs
    rw [steepVecLoop, es, Option.bind_some, hsd]
    simp only
    split_ifs with hle
    · obtain ⟨b, m', e1, e2, e3, e4, e5⟩ := steepVec_spec mid x (i + 1) (some (i, s)) d hx' hw' hd' (h0.trans hle) (fun j r e => by
        cases e
        exact ⟨hsd, T, by rw [← Nat.add_zero i, ← hx 0]; rfl, hs⟩) (fun e => by cases e)
      refine ⟨b, m', e1, hle.trans e2, fun e => (by have := (e3 e).1; cases this), e4, fun T' hT' r hr e he => ?_⟩
      rcases List.mem_cons.mp hT' with rfl | hT'
      · exact (h1 d hsd r hr e he).trans e2
      · exact e5 T' hT' r hr e he
    · obtain ⟨b, m', e1, e2, e3, e4, e5⟩ := steepVec_spec mid x (i + 1) best m hx' hw' hd' h0 hb hn
      have hlt := not_le.mp hle
      refine ⟨b, m', e1, e2, fun e => ?_, e4, fun T' hT' r hr e he => ?_⟩
      · have := hn (e3 e).1
        rw [this] at hlt
        exact absurd (Slice.rise_nonneg hsd) (not_le.mpr hlt)
      · rcases List.mem_cons.mp hT' with rfl | hT'
        · exact ((h1 d hsd r hr e he).trans hlt.le).trans e2
        · exact e5 T' hT' r hr e he

/-- **C145**: `steepest_slice()` of a vector of tubes, when the middles of the gates are defined (no gate is empty), is a slice of a component, the steepest of all the
components. Missing: vectors with an empty gate, for which the null pointer may be returned (`C145_vector_fails`). -/
theorem C145_vector_partial (mid : Itv K → Option K) {x : List (Tube K)} (hne : x ≠ []) (hw : ∀ T ∈ x, T.WF) (hd : ∀ T ∈ x, ∀ s ∈ T.slices, ∃ d, s.rise mid = some d) :
    ∃ i s T d, steepestVec mid x = some (some (i, s)) ∧ x[i]? = some T ∧ s ∈ T.slices ∧ s.rise mid = some d ∧
      ∀ T' ∈ x, ∀ r ∈ T'.slices, ∀ e, r.rise mid = some e → e ≤ d := by
  obtain ⟨b, m, e1, -, e3, e4, e5⟩ := steepVec_spec mid (x0 := x) x 0 none 0 (fun k => by rw [Nat.zero_add]) hw hd le_rfl (fun _ _ e => by cases e) (fun _ => rfl)
  cases b with
  | none => exact absurd (e3 rfl).2 hne
  | some p =>
    obtain ⟨h1, T, h2, h3⟩ := e4 p.1 p.2 rfl
    exact ⟨p.1, p.2, T, m, e1, h2, h3, h1, e5⟩

/-! ### The hypotheses are met; the empty gates -/

/-- the middle of a bounded interval -/
def midQ : Itv ℚ → Option ℚ
  | .mk (some a) (some b) _ => some ((a + b) / 2)
  | .mk _ _ _ => some 0
  | .empty => none

/-- the steepest slice of the tube of the examples, and of a vector -/
example : (U.steepestSlice midQ).map (fun s => (s.lb, s.ub)) = some (3/2, 4) ∧ (U.widerSlice).map (fun s => (s.lb, s.ub)) = some (3/2, 4) := by decide +kernel

example : ∃ i s T d, steepestVec midQ [Ex.T, U] = some (some (i, s)) ∧ [Ex.T, U][i]? = some T ∧ s ∈ T.slices ∧ s.rise midQ = some d ∧
    ∀ T' ∈ [Ex.T, U], ∀ r ∈ T'.slices, ∀ e, r.rise midQ = some e → e ≤ d := by
  refine C145_vector_partial midQ (by simp) (fun T hT => ?_) (fun T hT s hs => ?_)
  · simp at hT
    rcases hT with rfl | rfl
    · exact Ex.T_wf
    · exact U_wf
  · have : (s.rise midQ).isSome = true := by
      have hall : ([Ex.T, U].all fun T => T.slices.all fun s => (s.rise midQ).isSome) = true := by decide +kernel
      rw [List.all_eq_true] at hall
      have := hall T hT
      rw [List.all_eq_true] at this
      exact this s hs
    exact Option.isSome_iff_exists.mp this

/-- **C145** fails for a vector of tubes with empty gates (the result of a contraction that proves that there is no solution): `steepest_slice()` returns the null pointer -/
theorem C145_vector_fails : ∃ x : List (Tube ℚ), x ≠ [] ∧ (∀ T ∈ x, T.WF ∧ T.GatesInEnvelopes) ∧ steepestVec midQ x = some none := by
  refine ⟨[⟨0, 1, ⊥, [⟨0, 1, ⊥, ⊥⟩]⟩], by simp, fun T hT => ?_, by decide +kernel⟩
  rw [List.mem_singleton.mp hT]
  refine ⟨⟨by simp, ⟨rfl, by norm_num, rfl⟩⟩, ?_⟩
  rw [Tube.gc_def]
  unfold AllSl
  decide +kernel

end Codac.Props
