import Verif.C2.Assign
import Verif.Props.TDomain

/-!
# C59–C64: setting, intersecting and evaluating the tubes of codac2
-/

set_option linter.unusedSectionVars false

namespace Codac.Props
open Codac Codac.C2

variable {τ ι K : Type*} [LinearOrder τ] [LinearOrder K] [DecidableEq ι]

/-- `f` has values in the intervals `ys`, given slice by slice -/
def InValues (l : List (TS τ ι K)) (ys : List (Itv K)) (f : τ → K) : Prop :=
  ∀ (i : Nat) (s : TS τ ι K) (y : Itv K), l[i]? = some s → ys[i]? = some y → ∀ t, s.lb ≤ t → t ≤ s.ub → f t ∈ y

/-- the values of the tube `k`, slice by slice -/
def valuesOf (k : ι) (l : List (TS τ ι K)) : List (Itv K) := l.map fun s => s.val k

theorem wf_of_same {k : ι} {l l' : List (TS τ ι K)} (h : SameOthers k l l') {a b : τ} (hw : WF a b l) : WF a b l' := by
  refine ⟨fun h0 => hw.ne ?_, h.chain hw.chain, ?_⟩
  · have := h.length
    rw [h0] at this
    exact List.length_eq_zero_iff.mp this.symm
  · have key : ∀ m : List (TS τ ι K), OneGate m ↔ (m.map fun s => (s.lb, s.ub)).Pairwise fun p p' => ¬ (p.1 = p.2 ∧ p'.1 = p'.2 ∧ p.1 = p'.1) := by
      intro m
      rw [List.pairwise_map]
      exact Iff.rfl
    rw [key, h.1, ← key]
    exact hw.gates

theorem inTube_of_same {k : ι} {l l' : List (TS τ ι K)} (h : SameOthers k l l') {k' : ι} (hk : k' ≠ k) {f : τ → K} :
    InTube l' k' f ↔ InTube l k' f := by
  have key : ∀ m : List (TS τ ι K), InTube m k' f ↔
      ∀ p ∈ (m.map fun s => (s.lb, s.ub)).zip (m.map fun s => s.val k'), ∀ t, p.1.1 ≤ t → t ≤ p.1.2 → f t ∈ p.2 := by
    intro m
    rw [List.zip_map']
    simp only [List.mem_map]
    constructor
    · rintro hm p ⟨s, hs, rfl⟩ t t1 t2; exact hm s hs t t1 t2
    · intro hm s hs t t1 t2; exact hm _ ⟨s, hs, rfl⟩ t t1 t2
  rw [key l', h.1, h.2 k' hk, ← key l]

/-! ### C59: one slice, one instant -/

/-- **C59**: setting the codomain of one slice or gate of the tube `k` to `x` replaces what this slice says, keeps what all the other slices
and gates of `k` say, and does not change the other tubes -/
theorem C59_slice {a b : τ} {l : List (TS τ ι K)} (h : WF a b l) {i : Nat} {s : TS τ ι K} (hs : l[i]? = some s) (k : ι) (x : Itv K) :
    WF a b (setSlice k x i l) ∧
    (∀ f, InTube (setSlice k x i l) k f ↔
      (∀ t, s.lb ≤ t → t ≤ s.ub → f t ∈ x) ∧ ∀ j r, j ≠ i → l[j]? = some r → ∀ t, r.lb ≤ t → t ≤ r.ub → f t ∈ r.val k) ∧
    ∀ k' ≠ k, ∀ f, InTube (setSlice k x i l) k' f ↔ InTube l k' f :=
  ⟨wf_of_same (setSlice_same k x i l) h, fun _ => setSlice_encl' hs h.chain, fun _ hk _ => inTube_of_same (setSlice_same k x i l) hk⟩

/-- **C59**: `x(t) = v` and `set(v,t)`, for an instant `t` in or out of the domain: the result contains the functions with a value in `v` at `t` that
the slices around `t` accept, and that the tube contained at the other instants; a former gate at `t` is forgotten -/
theorem C59_instant {t0 tf : τ} {l : List (TS τ ι K)} (h : WF t0 tf l) (t : τ) (k : ι) (v : Itv K) :
    ∃ l', assignAt k v t t l = some l' ∧ WF (min t0 t) (max tf t) l' ∧
      (∀ f, InTube l' k f ↔ f t ∈ v ∧ (∀ s ∈ l, s.lb < s.ub → s.lb ≤ t → t ≤ s.ub → f t ∈ s.val k) ∧
        ∀ t' ≠ t, ∀ s ∈ l, s.lb ≤ t' → t' ≤ s.ub → f t' ∈ s.val k) ∧
      ∀ k' ≠ k, ∀ f, InTube l' k' f ↔ InTube l k' f := by
  obtain ⟨l', e, hc, hf⟩ := assignAt_instant (t := t) h k v
  obtain ⟨l1, i, e1, hs⟩ := sample_spec (t := t) true h
  have e' : l' = setSlice k v i l1 := by
    rw [assignAt, if_pos rfl, e1] at e
    simpa using e.symm
  refine ⟨l', e, by rw [e']; exact wf_of_same (setSlice_same k v i l1) hs.wf, fun f => ?_, fun k' hk f => ?_⟩
  · refine (hf f).trans (and_congr_right fun _ => and_congr_left fun _ => ?_)
    refine forall_congr' fun s => forall_congr' fun hs => ?_
    have := (h.chain.mem hs).2.1
    refine imp_congr_left ⟨fun hg => lt_of_le_of_ne this hg, fun hg => hg.ne⟩
  · rw [e', inTube_of_same (setSlice_same k v i l1) hk, inTube_iff, inTube_iff]
    exact forall_congr' fun t' => hs.same k' t' (f t')

/-- **C59**: an empty codomain propagates to the whole tube: every slice and every gate of `k` becomes empty -/
theorem C59_empty {l : List (TS τ ι K)} {i : Nat} (hi : i < l.length) (k : ι) :
    ∀ s ∈ setSlice k ⊥ i l, s.val k = ⊥ := by
  obtain ⟨s, hs⟩ : ∃ s, l[i]? = some s := ⟨_, List.getElem?_eq_getElem hi⟩
  obtain ⟨s', e1, e2, e3⟩ := getElem?_bounds (setCore_same k ⊥ i l) hs
  have h1 := setCore_le k ⊥ hs e1
  rw [if_pos rfl] at h1
  have hbot : s'.val k = ⊥ := le_bot_iff.mp h1
  -- the neighbours
  obtain ⟨p, q, hl, rfl⟩ : ∃ p q, l = p ++ s :: q ∧ i = p.length := by
    obtain ⟨h1, h2⟩ := List.getElem?_eq_some_iff.mp hs
    exact ⟨l.take i, l.drop (i + 1), by rw [← h2, List.getElem_cons_drop, List.take_append_drop], by simp [h1.le]⟩
  have hE : SliceEmpty k (setCore k ⊥ p.length l) p.length := by
    unfold SliceEmpty
    rw [e1]
    dsimp only
    by_cases hg : s'.IsGate
    · rw [if_pos hg]; exact hbot
    · rw [if_neg hg]
      left
      have hsg : ¬ s.IsGate := fun hh => hg (by unfold TS.IsGate at hh ⊢; rw [e2, e3]; exact hh)
      unfold inputGate
      rw [hl, setCore_mid, if_neg hsg]
      have hlen : (capHead k ⊥ p.reverse).reverse.length = p.length := by simp [capHead_length]
      rw [List.take_append_of_le_length hlen.ge, ← hlen, List.take_length, List.getLast?_reverse]
      cases p.reverse with
      | nil => exact hbot
      | cons r m =>
        simp only [capHead, List.head?_cons]
        split
        · rename_i hr
          rw [capGate_isGate] at hr
          rw [capGate, if_pos hr, TS.put_val, inf_bot_eq]
        · rw [hbot, bot_inf_eq]
  intro r hr
  unfold setSlice at hr
  rw [if_pos hE] at hr
  obtain ⟨r0, _, rfl⟩ := List.mem_map.mp hr
  exact TS.put_val k ⊥ r0

/-! ### C60: the whole tube -/

/-- **C60**, partial: after `set(x)` no value out of `x` is left and the other tubes are as before; when `x` meets the codomain of each slice
and gate, each of them is then exactly `x`. Missing: the same when `x` does not meet some of them, which is false (`C60_set_fails`) -/
theorem C60_set_partial {a b : τ} {l : List (TS τ ι K)} (h : WF a b l) (k : ι) (x : Itv K) :
    WF a b (setTube k x l) ∧ (∀ s ∈ setTube k x l, s.val k ≤ x) ∧ (∀ k' ≠ k, ∀ f, InTube (setTube k x l) k' f ↔ InTube l k' f) ∧
    ((∀ s ∈ l, s.val k ⊓ x ≠ ⊥) → ∀ s ∈ setTube k x l, s.val k = x) :=
  ⟨wf_of_same (setTube_le l).1 h, (setTube_le l).2, fun _ hk _ => inTube_of_same (setTube_le l).1 hk, fun hm => (setTube_meets h hm).2⟩

/-- two slices with a gate between them, one tube, with the values `u`, `g`, `v` -/
def twoSlices (u g v : Itv ℚ) : List (TS ℚ Unit ℚ) := [⟨0, 1, fun _ => u⟩, ⟨1, 1, fun _ => g⟩, ⟨1, 2, fun _ => v⟩]

theorem twoSlices_wf (u g v : Itv ℚ) : WF 0 2 (twoSlices u g v) := by
  refine ⟨by simp [twoSlices], ⟨rfl, by norm_num, rfl, le_refl _, rfl, by norm_num, rfl⟩, ?_⟩
  simp [twoSlices, OneGate, TS.IsGate]

example : ∀ s ∈ twoSlices (Itv.icc 0 3) (Itv.icc 1 3) (Itv.icc 1 4),
    s.val () ⊓ Itv.icc 2 6 ≠ ⊥ := by decide +kernel

/-- **C60** fails in general: a tube of two slices with the values `[0,1]`, on which `[5,6]` is set, becomes empty instead of getting `[5,6]`: the
first slice does not meet the old value of the second one -/
theorem C60_set_fails : ¬ ∀ (a b : ℚ) (l : List (TS ℚ Unit ℚ)) (x : Itv ℚ), WF a b l → x ≠ ⊥ → ∀ s ∈ setTube () x l, s.val () = x := by
  intro h
  have := h 0 2 [⟨0, 1, fun _ => Itv.icc 0 1⟩, ⟨1, 2, fun _ => Itv.icc 0 1⟩] (Itv.icc 5 6)
    ⟨by simp, ⟨rfl, by norm_num, rfl, by norm_num, rfl⟩, by simp [OneGate, TS.IsGate]⟩ (by decide +kernel)
  revert this
  decide +kernel

/-! ### C61: `operator=` between tubes of the same temporal domain -/

/-- **C61**, partial: after `x = y` the tube contains no function out of `y`, and contains those of `y` that were in `x` before; so `x` has exactly
the functions of `y` when each codomain of `y` was included in the one of `x`. Missing: the same whatever the old values of `x`, which is false
(`C61_assign_fails`) -/
theorem C61_assign_partial {a b : τ} {l : List (TS τ ι K)} (h : WF a b l) (k : ι) (ys : List (Itv K)) (hy : ys.length = l.length) :
    WF a b (assignTube k ys l) ∧ (∀ f, InTube (assignTube k ys l) k f → InValues l ys f) ∧
    (∀ f, InTube l k f → InValues l ys f → InTube (assignTube k ys l) k f) ∧
    ((∀ (i : Nat) (s : TS τ ι K) (y : Itv K), l[i]? = some s → ys[i]? = some y → y ≤ s.val k) →
      ∀ f, InTube (assignTube k ys l) k f ↔ InValues l ys f) ∧
    ∀ k' ≠ k, ∀ f, InTube (assignTube k ys l) k' f ↔ InTube l k' f := by
  have hs : SameOthers k l (assignTube k ys l) := foldl_set_same _ l
  refine ⟨wf_of_same hs h, fun f => (assignTube_encl h.chain hy).1, fun f => (assignTube_encl h.chain hy).2, fun hle f => ?_,
    fun k' hk f => inTube_of_same hs hk⟩
  refine ⟨(assignTube_encl h.chain hy).1, fun hf => (assignTube_encl h.chain hy).2 ?_ hf⟩
  intro s hs t t1 t2
  obtain ⟨i, hi⟩ := List.mem_iff_getElem?.mp hs
  have hlt : i < ys.length := by rw [hy]; exact (List.getElem?_eq_some_iff.mp hi).1
  exact Itv.mem_of_le (hle i s _ hi (List.getElem?_eq_getElem hlt)) (hf i s _ hi (List.getElem?_eq_getElem hlt) t t1 t2)

/-- **C61** fails in general: `y` has the values `[0,4]`, `[3,4]` at the gate and `[0,4]`; `x` had `[0,3]` everywhere. After `x = y` the gate of `x`
is `[3,3]`: it was intersected with the old value of the second slice. With `[5,6]` in `y` and `[0,1]` in `x`, `x` becomes empty. -/
theorem C61_assign_fails : (∃ l : List (TS ℚ Unit ℚ), WF 0 2 l ∧
      let ys := [Itv.icc 0 4, Itv.icc 3 4, Itv.icc 0 4]
      valuesOf () (assignTube () ys l) = [Itv.icc 0 4, Itv.icc 3 3, Itv.icc 0 4] ∧
      ∃ f : ℚ → ℚ, InValues l ys f ∧ ¬ InTube (assignTube () ys l) () f) ∧
    ∃ l : List (TS ℚ Unit ℚ), WF 0 2 l ∧
      valuesOf () (assignTube () [Itv.icc 5 6, Itv.icc 5 6, Itv.icc 5 6] l) = [⊥, ⊥, ⊥] := by
  refine ⟨⟨twoSlices (Itv.icc 0 3) (Itv.icc 0 3) (Itv.icc 0 3), twoSlices_wf _ _ _, ?_, fun _ => 4, ?_, ?_⟩,
    twoSlices (Itv.icc 0 1) (Itv.icc 0 1) (Itv.icc 0 1), twoSlices_wf _ _ _, by decide +kernel⟩
  · decide +kernel
  · intro i s y _ hy t _ _
    match i, hy with
    | 0, hy => simp at hy; rw [← hy, Itv.mem_icc]; norm_num
    | 1, hy => simp at hy; rw [← hy, Itv.mem_icc]; norm_num
    | 2, hy => simp at hy; rw [← hy, Itv.mem_icc]; norm_num
    | i + 3, hy => simp at hy
  · intro hf
    have hm : (⟨1, 1, fun _ => Itv.icc 3 3⟩ : TS ℚ Unit ℚ).val () ∈
        valuesOf () (assignTube () [Itv.icc 0 4, Itv.icc 3 4, Itv.icc 0 4]
          (twoSlices (Itv.icc 0 3) (Itv.icc 0 3) (Itv.icc 0 3))) := by decide +kernel
    obtain ⟨s, hs, e⟩ := List.mem_map.mp hm
    have hc := (foldl_set_same (k := ()) (y := fun i _ => [Itv.icc 0 4, Itv.icc 3 4, Itv.icc 0 4].getD i ⊤)
      (List.range 3) (twoSlices (Itv.icc 0 3) (Itv.icc 0 3) (Itv.icc 0 3))).chain (twoSlices_wf _ _ _).chain
    have h2 := (hc.mem hs).2.1
    have := hf s hs s.lb (le_refl _) h2
    dsimp only at this
    rw [e, Itv.mem_icc] at this
    norm_num at this

/-! ### C62: `operator&=` -/

/-- **C62**: `x &= y` for tubes of the same temporal domain keeps exactly the functions of both, and does not change the other tubes. (For `x &= x` the
values of `y` change during the loop but are then the current ones, whose intersection with the former ones is themselves.) -/
theorem C62_inter {a b : τ} {l : List (TS τ ι K)} (h : WF a b l) (k k₂ : ι) :
    let l' := interTube k (valuesOf k₂ l) l
    WF a b l' ∧ (∀ f, InTube l' k f ↔ InTube l k f ∧ InTube l k₂ f) ∧ ∀ k' ≠ k, ∀ f, InTube l' k' f ↔ InTube l k' f := by
  have hs : SameOthers k l (interTube k (valuesOf k₂ l) l) := foldl_set_same _ l
  refine ⟨wf_of_same hs h, fun f => ?_, fun k' hk f => inTube_of_same hs hk⟩
  refine (interTube_encl h.chain (by simp [valuesOf])).trans (and_congr_right fun _ => ?_)
  constructor
  · intro hf s hs t t1 t2
    obtain ⟨i, hi⟩ := List.mem_iff_getElem?.mp hs
    exact hf i s (s.val k₂) hi (by simp [valuesOf, hi]) t t1 t2
  · intro hf i s y hi hy t t1 t2
    simp only [valuesOf, List.getElem?_map, hi, Option.map_some, Option.some.injEq] at hy
    rw [← hy]
    exact hf s (List.mem_of_getElem? hi) t t1 t2

/-- **C62** with the values of a tube on another, equal, temporal domain -/
theorem C62_inter_values {a b : τ} {l : List (TS τ ι K)} (h : WF a b l) (k : ι) (ys : List (Itv K)) (hy : ys.length = l.length) :
    WF a b (interTube k ys l) ∧ (∀ f, InTube (interTube k ys l) k f ↔ InTube l k f ∧ InValues l ys f) ∧
    ∀ k' ≠ k, ∀ f, InTube (interTube k ys l) k' f ↔ InTube l k' f := by
  have hs : SameOthers k l (interTube k ys l) := foldl_set_same _ l
  exact ⟨wf_of_same hs h, fun f => interTube_encl h.chain hy, fun k' hk f => inTube_of_same hs hk⟩

example : valuesOf () (interTube () [Itv.icc 0 4, Itv.icc 1 4, Itv.icc (-1) 2]
    (twoSlices (Itv.icc 1 5) (Itv.icc 1 3) (Itv.icc 1 4))) =
    [Itv.icc 1 4, Itv.icc 1 2, Itv.icc 1 2] := by decide +kernel

/-! ### C63: evaluation on an interval -/

/-- **C63**: `x([a,b])` contains the values on `[a,b]` of the functions of the tube -/
theorem C63_encloses {t0 tf a b : τ} {l : List (TS τ ι K)} (h : WF t0 tf l) (ha : t0 ≤ a) (hb : b ≤ tf) (hab : a < b) {k : ι} {f : τ → K}
    (hf : InTube l k f) {t : τ} (h1 : a ≤ t) (h2 : t ≤ b) : f t ∈ evalItv k a b l := evalItv_encl h ha hb hab hf h1 h2

/-- **C63**: it is the smallest interval that contains the codomains of the slices and gates that `[a,b]` crosses: those that start before `b`, and end
after `a` or are the gate at `a` -/
theorem C63_hull {t0 tf a b : τ} {l : List (TS τ ι K)} (h : WF t0 tf l) (ha : t0 ≤ a) (hb : b ≤ tf) (hab : a < b) (k : ι) (Y : Itv K) :
    evalItv k a b l ≤ Y ↔ ∀ s ∈ l, s.lb < b → (a < s.ub ∨ (s.lb = a ∧ s.ub = a)) → s.val k ≤ Y := by
  rw [evalItv_le h ha hb hab]
  refine forall_congr' fun s => imp_congr_right fun _ => imp_congr_right fun _ => imp_congr_left (or_congr_right ?_)
  unfold TS.IsGate
  constructor
  · rintro ⟨h1, h2⟩; exact ⟨h2, h1 ▸ h2⟩
  · rintro ⟨h1, h2⟩; exact ⟨h1.trans h2.symm, h1⟩

/-- **C63**: outside the domain, everything -/
theorem C63_outside {t0 tf a b : τ} {l : List (TS τ ι K)} (h : WF t0 tf l) (ho : a < t0 ∨ tf < b) (k : ι) : evalItv k a b l = ⊤ := by
  obtain ⟨f, l0, rfl⟩ := List.exists_cons_of_ne_nil h.ne
  obtain ⟨e, he⟩ : ∃ e, (f :: l0).getLast? = some e := ⟨_, List.getLast?_eq_some_getLast (by simp)⟩
  unfold evalItv
  rw [List.head?_cons, he]
  dsimp only
  rw [if_neg]
  rw [h.chain.head, h.chain.last he]
  rintro ⟨h1, h2⟩
  rcases ho with ho | ho
  · exact absurd h1 (not_le.mpr ho)
  · exact absurd h2 (not_le.mpr ho)

example : evalItv () (1/2) 1 (twoSlices (Itv.icc 0 1) (Itv.icc 1 1) (Itv.icc 1 5)) = Itv.icc 0 1 ∧
    evalItv () 1 (3/2) (twoSlices (Itv.icc 0 1) (Itv.icc 1 1) (Itv.icc 1 5)) = Itv.icc 1 5 := by
  decide +kernel

/-! ### C64: assignment on an interval -/

/-- **C64**, partial: `x([a,b]) = v`, for `a < b` in or out of the domain, never accesses a slice out of the list; the functions of the tube with values in
`v` on `[a,b]` stay in it; out of `[a,b]` the tube says at least what it said before; and when the domain goes on after `b`, or has a gate at `b`, no
value out of `v` is left on `[a,b]`. Missing: the same when `b` is the end of the domain or after it (`C64_end_fails`, `C64_beyond_fails`), and that
functions in `v` on `[a,b]` and in the tube elsewhere are in the result (`C64_disjoint_fails`) -/
theorem C64_assign_partial {t0 tf a b : τ} {l : List (TS τ ι K)} (h : WF t0 tf l) (hab : a < b) (k : ι) (v : Itv K) :
    ∃ l', assignAt k v a b l = some l' ∧ WF (min t0 a) (max tf b) l' ∧
      (∀ f : τ → K, InTube l k f → (∀ t, a ≤ t → t ≤ b → f t ∈ v) → InTube l' k f) ∧
      (∀ f : τ → K, InTube l' k f → ∀ t, (t < a ∨ b < t) → ∀ s ∈ l, s.lb ≤ t → t ≤ s.ub → f t ∈ s.val k) ∧
      ((b < tf ∨ ∃ s ∈ l, s.lb = b ∧ s.ub = b) → ∀ f : τ → K, InTube l' k f → ∀ t, a ≤ t → t ≤ b → f t ∈ v) ∧
      ∀ k' ≠ k, ∀ f, InTube l' k' f ↔ InTube l k' f := by
  obtain ⟨l', e, _, h1, h2, h3⟩ := assignAt_interval h hab k v
  obtain ⟨l2, i, m, e', hwf, hsame, _⟩ := assignAt_form h hab k v
  rw [e, Option.some.injEq] at e'
  have hs : SameOthers k l2 l' := by rw [e']; exact foldl_set_same _ l2
  refine ⟨l', e, wf_of_same hs hwf, h1, h2, fun hg => h3 (hg.imp id ?_), fun k' hk f => ?_⟩
  · rintro ⟨s, hs, h1, h2⟩; exact ⟨s, hs, h1.trans h2.symm, h1⟩
  · rw [inTube_of_same hs hk, inTube_iff, inTube_iff]
    exact forall_congr' fun t => hsame k' t (f t)

example : (assignAt () (Itv.icc 2 3) (1/2) 2 (twoSlices (Itv.icc 0 4) (Itv.icc 1 4) (Itv.icc 1 5) ++
      [⟨2, 2, fun _ => Itv.icc 0 5⟩])).map (fun l => l.map fun s => (s.lb, s.ub, s.val ())) =
    some [(0, 1/2, Itv.icc 0 4), (1/2, 1, Itv.icc 2 3), (1, 1, Itv.icc 2 3),
      (1, 2, Itv.icc 2 3), (2, 2, Itv.icc 2 3)] := by decide +kernel

/-- **C64** fails at the end of the domain: two slices `[0,1]`, `[1,2]` with `[0,4]`; after `x([0,2]) = [2,3]` the second slice still has `[0,4]` -/
theorem C64_end_fails : (assignAt () (Itv.icc 2 3) 0 2
      ([⟨0, 1, fun _ => Itv.icc 0 4⟩, ⟨1, 2, fun _ => Itv.icc 0 4⟩] : List (TS ℚ Unit ℚ))).map
        (fun l => l.map fun s => (s.lb, s.ub, s.val ())) =
    some [(0, 0, Itv.icc 2 3), (0, 1, Itv.icc 2 3), (1, 2, Itv.icc 0 4)] := by decide +kernel

/-- **C64** fails after the domain: a slice `[0,1]` with `[0,4]`; after `x([0,2]) = [2,3]` the new slice `[1,2]` is unbounded -/
theorem C64_beyond_fails : (assignAt () (Itv.icc 2 3) 0 2
      ([⟨0, 1, fun _ => Itv.icc 0 4⟩] : List (TS ℚ Unit ℚ))).map (fun l => l.map fun s => (s.lb, s.ub, s.val ())) =
    some [(0, 0, Itv.icc 2 3), (0, 1, Itv.icc 2 3), (1, 2, ⊤)] := by decide +kernel

/-- **C64** fails for values disjoint from the old ones: slices `[0,1]`, `[1,2]`, `[2,3]` with `[0,1]`, `[0,6]`, `[0,6]`. After `x([1,2]) = [5,6]`... the
slice before does not meet `[5,6]`: the tube is empty. With `[0,6]` also before, but `[0,1]` on the second half of `[1,2]` (a slice `[1.5,2]`), all the
slices on `[1,2]` are replaced and the tube should contain the constant `5`; it is empty too. -/
theorem C64_disjoint_fails : ∃ l : List (TS ℚ Unit ℚ), WF 0 3 l ∧
    (∃ f : ℚ → ℚ, (∀ t, 1 ≤ t → t ≤ 2 → f t ∈ Itv.icc 5 6) ∧ ∀ s ∈ l, (s.lb < 1 ∨ 2 < s.ub) → ∀ t, s.lb ≤ t → t ≤ s.ub → f t ∈ s.val ()) ∧
    (assignAt () (Itv.icc 5 6) 1 2 l).map (valuesOf ()) = some [⊥, ⊥, ⊥, ⊥] := by
  refine ⟨[⟨0, 1, fun _ => Itv.icc 0 6⟩, ⟨1, 3/2, fun _ => Itv.icc 0 1⟩, ⟨3/2, 2, fun _ => Itv.icc 0 1⟩,
    ⟨2, 3, fun _ => Itv.icc 0 6⟩],
    ⟨by simp, ⟨rfl, by norm_num, rfl, by norm_num, rfl, by norm_num, rfl, by norm_num, rfl⟩, ?_⟩, ⟨fun _ => 5, ?_, ?_⟩, ?_⟩
  · simp [OneGate, TS.IsGate]; norm_num
  · intro t _ _; rw [Itv.mem_icc]; norm_num
  · intro s hs ho t _ _
    simp only [List.mem_cons, List.not_mem_nil, or_false] at hs
    rcases hs with rfl | rfl | rfl | rfl
    · dsimp only; rw [Itv.mem_icc]; norm_num
    · norm_num at ho
    · norm_num at ho
    · dsimp only; rw [Itv.mem_icc]; norm_num
  · decide +kernel

/-! ### Histories -/

/-- the operations on the tubes of a temporal domain -/
inductive Op (τ ι K : Type*) [LinearOrder K]
  | sample (t : τ) (g : Bool)
  | at (k : ι) (v : Itv K) (a b : τ)
  | set (k : ι) (v : Itv K)
  | slice (k : ι) (v : Itv K) (i : Nat)
  | inter (k k₂ : ι)
  | assign (k k₂ : ι)

/-- the tube modified by an operation -/
def Op.target : Op τ ι K → Option ι
  | .sample _ _ => none
  | .at k _ _ _ => some k
  | .set k _ => some k
  | .slice k _ _ => some k
  | .inter k _ => some k
  | .assign k _ => some k

/-- an operation; `x([a,b])` needs `a ≤ b` (the interval is not empty) -/
def Op.run (l : List (TS τ ι K)) : Op τ ι K → Option (List (TS τ ι K))
  | .sample t g => (C2.sample l t g).map Prod.fst
  | .at k v a b => if a ≤ b then assignAt k v a b l else none
  | .set k v => some (setTube k v l)
  | .slice k v i => some (setSlice k v i l)
  | .inter k k₂ => some (interTube k (valuesOf k₂ l) l)
  | .assign k k₂ => some (assignTube k (valuesOf k₂ l) l)

/-- what the calls require: a non-empty interval, and two tubes for `x = y` (the self-assignment is not modelled) -/
def Op.Valid : Op τ ι K → Prop
  | .at _ _ a b => a ≤ b
  | .assign k k₂ => k ≠ k₂
  | _ => True

theorem op_run {a b : τ} {l : List (TS τ ι K)} (h : WF a b l) (o : Op τ ι K) (ho : o.Valid) :
    ∃ l' a' b', o.run l = some l' ∧ WF a' b' l' ∧ a' ≤ a ∧ b ≤ b' ∧ ∀ k, o.target ≠ some k → ∀ f, InTube l' k f ↔ InTube l k f := by
  have same : ∀ (k : ι) (l' : List (TS τ ι K)), SameOthers k l l' →
      WF a b l' ∧ a ≤ a ∧ b ≤ b ∧ ∀ k', some k ≠ some k' → ∀ f, InTube l' k' f ↔ InTube l k' f := by
    intro k l' hs
    exact ⟨wf_of_same hs h, le_refl _, le_refl _, fun k' hk f => inTube_of_same hs fun e => hk (by rw [e])⟩
  cases o with
  | sample t g =>
    obtain ⟨l', i, e, w, hf⟩ := C45_sample h t g
    exact ⟨l', _, _, by rw [Op.run, e]; rfl, w, min_le_left _ _, le_max_left _ _, fun k _ f => hf k f⟩
  | «at» k v c d =>
    have hcd : c ≤ d := ho
    rcases lt_or_eq_of_le hcd with hlt | rfl
    · obtain ⟨l', e, w, _, _, _, hf⟩ := C64_assign_partial h hlt k v
      exact ⟨l', _, _, by rw [Op.run, if_pos hcd]; exact e, w, min_le_left _ _, le_max_left _ _, fun k' hk f => hf k' (fun e => hk (by rw [e]; rfl)) f⟩
    · obtain ⟨l', e, w, _, hf⟩ := C59_instant h c k v
      exact ⟨l', _, _, by rw [Op.run, if_pos hcd]; exact e, w, min_le_left _ _, le_max_left _ _, fun k' hk f => hf k' (fun e => hk (by rw [e]; rfl)) f⟩
  | set k v => exact ⟨_, a, b, rfl, same k _ (setTube_le l).1⟩
  | slice k v i => exact ⟨_, a, b, rfl, same k _ (setSlice_same k v i l)⟩
  | inter k k₂ => exact ⟨_, a, b, rfl, same k _ (foldl_set_same _ l)⟩
  | assign k k₂ => exact ⟨_, a, b, rfl, same k _ (foldl_set_same _ l)⟩

/-- **C59–C64** over histories: after any sequence of samplings, assignments, settings and intersections of tubes that share a temporal domain, the
slices are adjacent with at most one gate at each instant, the domain has only grown, and a tube that no operation modified contains the same functions -/
theorem C64_history {a b : τ} {l : List (TS τ ι K)} (h : WF a b l) (ops : List (Op τ ι K)) (ho : ∀ o ∈ ops, o.Valid) :
    ∃ l' a' b', ops.foldl (fun r o => r.bind fun l => o.run l) (some l) = some l' ∧ WF a' b' l' ∧ a' ≤ a ∧ b ≤ b' ∧
      ∀ k, (∀ o ∈ ops, o.target ≠ some k) → ∀ f, InTube l' k f ↔ InTube l k f := by
  induction ops using List.reverseRecOn with
  | nil => exact ⟨l, a, b, rfl, h, le_refl _, le_refl _, fun _ _ _ => Iff.rfl⟩
  | append_singleton ops o ih =>
    obtain ⟨l1, a1, b1, e1, w1, h1, h2, h3⟩ := ih fun o ho' => ho o (by simp [ho'])
    obtain ⟨l2, a2, b2, e2, w2, g1, g2, g3⟩ := op_run w1 o (ho o (by simp))
    refine ⟨l2, a2, b2, ?_, w2, g1.trans h1, h2.trans g2, fun k hk f => (g3 k (hk o (by simp)) f).trans (h3 k (fun o ho' => hk o (by simp [ho'])) f)⟩
    rw [List.foldl_append, e1]
    exact e2

example : ∀ o ∈ [Op.at true (Itv.icc 0 1) 0 1, Op.sample 5 true, Op.inter true false, Op.set true ⊤], (o : Op ℚ Bool ℚ).Valid := by
  intro o ho
  simp only [List.mem_cons, List.not_mem_nil, or_false] at ho
  rcases ho with rfl | rfl | rfl | rfl <;> simp [Op.Valid]

end Codac.Props
