import Verif.Paving.TPlaneProof
import Verif.Traj.SampleTerm
import Mathlib.Data.List.TakeWhile

/-!
# The summary of the loops of a t-plane

Source: `src/robotics/loops/codac_TPlane.cpp:298-347`.
-/

set_option linter.unusedSectionVars false

namespace Codac.Summary
open Codac

variable {K : Type*} [Field K] [LinearOrder K]

/-- the keys `it->first` visited for one projection `[lo,hi]` of a loop, codac_TPlane.cpp:311-321 and 332-342: from `lower_bound(lo)`, or from the key
before it when it is not `lo`, while they are not larger than `hi`. `none`: `lower_bound` is `end()`, which the code dereferences. -/
def markTimes (ts : List K) (lo hi : K) : Option (List K) :=
  match ts.dropWhile fun s => decide (s < lo) with
  | [] => none
  | s :: r =>
    let start := if s ≠ lo then
        match (ts.takeWhile fun s => decide (s < lo)).getLast? with
        | some p => p :: s :: r
        | none => s :: r
      else s :: r
    some (start.takeWhile fun s => decide (s ≤ hi))

/-- `traj.set(y, it->first)` over the visited keys, codac_TPlane.cpp:317-321 and 338-342 -/
def mark (y : K) (times : List K) (x : Traj K) : Traj K := times.foldl (fun x s => x.set y s) x

/-- the loops over `i` and `j`, codac_TPlane.cpp:306-323 (`y = 1`) and 326-344 (`y = 2`); the projections `box()[0]`, `box()[1]` of the loops are given
one after the other. `none`: undefined behaviour, or a projection without finite bounds. -/
def markAll (y : K) (ts : List K) : List (Itv K) → Traj K → Option (Traj K)
  | [], x => some x
  | .mk (some lo) (some hi) _ :: R, x => (markTimes ts lo hi).bind fun l => markAll y ts R (mark y l x)
  | _ :: _, _ => none

/-- the projections of the boxes of the loops, in the order of the loops over `i` and `j` -/
def projections (R : List (Box K)) : List (Itv K) := R.flatMap fun b => b.take 2

/-- `traj_loops_summary()`, codac_TPlane.cpp:298-347: `lb`, `ub` are the bounds of `box()[0]`, `detected` and `proven` the boxes of the loops. `none`: the
assertion of `sample` fails (the precision is not positive), or an iterator out of the map is used. -/
def summary (fuel : Nat) (lb ub precision : K) (detected proven : List (Box K)) : Option (Traj K) :=
  (((Traj.empty.set 0 lb).set 0 ub).sample fuel precision).bind fun x =>
    (markAll 1 (x.pts.map Prod.fst) (projections detected) x).bind (markAll 2 (x.pts.map Prod.fst) (projections proven))

/-! ### Proofs -/

/-- the sample `s` is marked for `[lo,hi]`: it is in the interval, or it is the last sample before it -/
def Marked (ts : List K) (lo hi s : K) : Prop := s ∈ ts ∧ s ≤ hi ∧ (lo ≤ s ∨ ∀ s' ∈ ts, s < s' → lo < s')

theorem mem_takeWhile_le {ts : List K} (hs : ts.Pairwise (· < ·)) {hi s : K} :
    s ∈ ts.takeWhile (fun s => decide (s ≤ hi)) ↔ s ∈ ts ∧ s ≤ hi := by
  induction ts with
  | nil => simp
  | cons a ts ih =>
    obtain ⟨h1, h2⟩ := List.pairwise_cons.1 hs
    rw [List.takeWhile_cons]
    by_cases h : a ≤ hi
    · rw [if_pos (by simpa using h), List.mem_cons, ih h2, List.mem_cons]
      constructor
      · rintro (rfl | ⟨h3, h4⟩)
        · exact ⟨.inl rfl, h⟩
        · exact ⟨.inr h3, h4⟩
      · rintro ⟨rfl | h3, h4⟩
        · exact .inl rfl
        · exact .inr ⟨h3, h4⟩
    · rw [if_neg (by simpa using h)]
      constructor
      · intro h3; cases h3
      · rintro ⟨h3, h4⟩
        rcases List.mem_cons.1 h3 with rfl | h3
        · exact absurd h4 h
        · exact absurd ((h1 s h3).le.trans h4) h

theorem split_at {ts : List K} (hs : ts.Pairwise (· < ·)) (lo : K) :
    ∃ A B, ts.takeWhile (fun s => decide (s < lo)) = A ∧ ts.dropWhile (fun s => decide (s < lo)) = B ∧ ts = A ++ B ∧ (∀ s ∈ A, s < lo) ∧ ∀ s ∈ B, lo ≤ s := by
  refine ⟨_, _, rfl, rfl, List.takeWhile_append_dropWhile.symm, fun s h => by simpa using List.mem_takeWhile_imp h, fun s h => ?_⟩
  have hd : (ts.dropWhile (fun s => decide (s < lo))).Pairwise (· < ·) := hs.sublist (List.dropWhile_sublist _)
  cases hb : ts.dropWhile (fun s => decide (s < lo)) with
  | nil => rw [hb] at h; cases h
  | cons b B =>
    have h1 : lo ≤ b := by
      have := List.head_dropWhile_not (fun s => decide (s < lo)) (l := ts) (by rw [hb]; simp)
      simp only [hb, List.head_cons] at this
      simpa using this
    rw [hb] at h hd
    rcases List.mem_cons.1 h with rfl | h
    · exact h1
    · exact h1.trans ((List.pairwise_cons.1 hd).1 s h).le

theorem markTimes_spec {ts : List K} (hs : ts.Pairwise (· < ·)) {lo hi : K} (hlo : lo ≤ hi) (hmax : ∃ s ∈ ts, lo ≤ s) :
    ∃ l, markTimes ts lo hi = some l ∧ ∀ s, s ∈ l ↔ Marked ts lo hi s := by
  obtain ⟨A, B, hA, hB, hAB, ha, hb⟩ := split_at hs lo
  unfold markTimes
  rw [hA, hB]
  cases B with
  | nil =>
    obtain ⟨s, h1, h2⟩ := hmax
    rw [hAB, List.append_nil] at h1
    exact absurd (ha s h1) (not_lt.2 h2)
  | cons b B =>
  have hsB : (b :: B).Pairwise (· < ·) := by rw [hAB] at hs; exact (List.pairwise_append.1 hs).2.1
  have hsAB : ∀ x ∈ A, ∀ y ∈ b :: B, x < y := by rw [hAB] at hs; exact (List.pairwise_append.1 hs).2.2
  have hsA : A.Pairwise (· < ·) := by rw [hAB] at hs; exact (List.pairwise_append.1 hs).1
  have hin : ∀ s ∈ b :: B, s ∈ ts := fun s h => by rw [hAB]; exact List.mem_append_right _ h
  -- without the previous key
  have plain : (∀ s ∈ A, ∃ s' ∈ ts, s < s' ∧ s' ≤ lo) → ∀ s, s ∈ (b :: B).takeWhile (fun s => decide (s ≤ hi)) ↔ Marked ts lo hi s := by
    intro hno s
    rw [mem_takeWhile_le hsB]
    constructor
    · rintro ⟨h1, h2⟩
      exact ⟨hin s h1, h2, .inl (hb s h1)⟩
    · rintro ⟨h1, h2, h3⟩
      rw [hAB] at h1
      rcases List.mem_append.1 h1 with h1 | h1
      · rcases h3 with h3 | h3
        · exact absurd (ha s h1) (not_lt.2 h3)
        · obtain ⟨s', h4, h5, h6⟩ := hno s h1
          exact absurd (h3 s' h4 h5) (not_lt.2 h6)
      · exact ⟨h1, h2⟩
  dsimp only
  by_cases hbl : b ≠ lo
  · rw [if_pos hbl]
    cases hp : A.getLast? with
    | none =>
      rw [List.getLast?_eq_none_iff] at hp
      subst hp
      exact ⟨_, rfl, plain fun s h => by cases h⟩
    | some p =>
      dsimp only
      have hpA : p ∈ A := List.mem_of_getLast? hp
      have hps : (p :: b :: B).Pairwise (· < ·) := List.pairwise_cons.2 ⟨fun y hy => hsAB p hpA y hy, hsB⟩
      have hplast : ∀ s ∈ A, s ≤ p := by
        obtain ⟨A', rfl⟩ := List.getLast?_eq_some_iff.1 hp
        intro s h
        rcases List.mem_append.1 h with h | h
        · exact ((List.pairwise_append.1 hsA).2.2 s h p (by simp)).le
        · rw [List.mem_singleton] at h; exact h.le
      refine ⟨_, rfl, fun s => ?_⟩
      rw [mem_takeWhile_le hps]
      constructor
      · rintro ⟨h1, h2⟩
        rcases List.mem_cons.1 h1 with rfl | h1
        · refine ⟨by rw [hAB]; exact List.mem_append_left _ hpA, h2, .inr fun s' h3 h4 => ?_⟩
          rw [hAB] at h3
          rcases List.mem_append.1 h3 with h3 | h3
          · exact absurd h4 (not_lt.2 (hplast s' h3))
          · rcases List.mem_cons.1 h3 with rfl | h5
            · exact lt_of_le_of_ne (hb s' h3) (Ne.symm hbl)
            · exact lt_of_le_of_lt (hb b (by simp)) ((List.pairwise_cons.1 hsB).1 s' h5)
        · exact ⟨hin s h1, h2, .inl (hb s h1)⟩
      · rintro ⟨h1, h2, h3⟩
        refine ⟨?_, h2⟩
        rw [hAB] at h1
        rcases List.mem_append.1 h1 with h1 | h1
        · rcases h3 with h3 | h3
          · exact absurd (ha s h1) (not_lt.2 h3)
          · rcases lt_or_eq_of_le (hplast s h1) with h4 | h4
            · exact absurd (h3 p (by rw [hAB]; exact List.mem_append_left _ hpA) h4) (not_lt.2 (ha p hpA).le)
            · exact List.mem_cons.2 (.inl h4)
        · exact List.mem_cons_of_mem _ h1
  · rw [if_neg hbl]
    push Not at hbl
    subst hbl
    exact ⟨_, rfl, plain fun s h => ⟨b, hin b (by simp), ha s h, le_rfl⟩⟩

variable [IsStrictOrderedRing K]

/-- the keys are kept, the value of the keys of `times` is `y` -/
theorem mark_spec {y : K} {times : List K} {x : Traj K} (hx : TrajOk x) (ht : ∀ s ∈ times, s ∈ x.pts.map Prod.fst) :
    TrajOk (mark y times x) ∧ (mark y times x).pts.map Prod.fst = x.pts.map Prod.fst ∧
      ∀ s v, (s, v) ∈ (mark y times x).pts ↔ (s ∈ times ∧ v = y) ∨ (s ∉ times ∧ (s, v) ∈ x.pts) := by
  induction times generalizing x with
  | nil => exact ⟨hx, rfl, fun s v => by simp [mark]⟩
  | cons a times ih =>
    have hok := hx.set y a
    have hmem : ∀ s v, (s, v) ∈ (x.set y a).pts ↔ (s = a ∧ v = y) ∨ (s ≠ a ∧ (s, v) ∈ x.pts) := by
      intro s v
      rw [set_pts, mem_setPt hx.sorted, Prod.mk.injEq]
      exact or_congr_right and_comm
    have hkeys : (x.set y a).pts.map Prod.fst = x.pts.map Prod.fst := by
      refine sorted_keys_eq hok.sorted hx.sorted fun k => ?_
      constructor
      · intro h
        obtain ⟨⟨s, v⟩, h1, rfl⟩ := List.mem_map.1 h
        rcases (hmem s v).1 h1 with ⟨rfl, _⟩ | ⟨_, h2⟩
        · exact ht _ (by simp)
        · exact List.mem_map_of_mem h2
      · intro h
        obtain ⟨⟨s, v⟩, h1, rfl⟩ := List.mem_map.1 h
        by_cases hs : s = a
        · exact List.mem_map.2 ⟨(s, y), (hmem s y).2 (.inl ⟨hs, rfl⟩), rfl⟩
        · exact List.mem_map.2 ⟨(s, v), (hmem s v).2 (.inr ⟨hs, h1⟩), rfl⟩
    obtain ⟨h1, h2, h3⟩ := ih (x := x.set y a) hok (fun s hs => by rw [hkeys]; exact ht s (List.mem_cons_of_mem _ hs))
    refine ⟨h1, h2.trans hkeys, fun s v => ?_⟩
    have := h3 s v
    unfold mark at this ⊢
    rw [List.foldl_cons, this, hmem]
    by_cases hs : s ∈ times
    · simp [hs]
    · by_cases hsa : s = a
      · subst hsa
        simp [hs]
      · simp [hs, hsa]

theorem markAll_spec {y : K} {ts : List K} {R : List (Itv K)} {x : Traj K} (hx : TrajOk x) (hk : x.pts.map Prod.fst = ts)
    (hR : ∀ I ∈ R, ∃ lo hi, lo ≤ hi ∧ I = Itv.icc lo hi ∧ ∃ s ∈ ts, lo ≤ s) :
    ∃ x', markAll y ts R x = some x' ∧ TrajOk x' ∧ x'.pts.map Prod.fst = ts ∧
      ∀ s v, (s, v) ∈ x'.pts ↔ ((∃ lo hi, lo ≤ hi ∧ Itv.icc lo hi ∈ R ∧ Marked ts lo hi s) ∧ v = y) ∨
        ((¬ ∃ lo hi, lo ≤ hi ∧ Itv.icc lo hi ∈ R ∧ Marked ts lo hi s) ∧ (s, v) ∈ x.pts) := by
  induction R generalizing x with
  | nil => exact ⟨x, rfl, hx, hk, fun s v => by simp⟩
  | cons I R ih =>
    obtain ⟨lo, hi, hlh, hI, hs⟩ := hR I (by simp)
    have hsort : ts.Pairwise (· < ·) := by rw [← hk]; exact sortedPts_iff.1 hx.sorted
    obtain ⟨l, hl, hmem⟩ := markTimes_spec hsort hlh hs
    obtain ⟨h1, h2, h3⟩ := mark_spec (y := y) (times := l) hx (fun s h => by rw [hk]; exact ((hmem s).1 h).1)
    obtain ⟨x', h4, h5, h6, h7⟩ := ih (x := mark y l x) h1 (h2.trans hk) (fun J hJ => hR J (List.mem_cons_of_mem _ hJ))
    refine ⟨x', ?_, h5, h6, fun s v => ?_⟩
    · subst hI
      rw [Itv.icc_eq_mk hlh]
      show (markTimes ts lo hi).bind _ = _
      rw [hl]
      exact h4
    · have hex : (∃ lo' hi', lo' ≤ hi' ∧ Itv.icc lo' hi' ∈ I :: R ∧ Marked ts lo' hi' s) ↔
          Marked ts lo hi s ∨ ∃ lo hi, lo ≤ hi ∧ Itv.icc lo hi ∈ R ∧ Marked ts lo hi s := by
        constructor
        · rintro ⟨lo', hi', k1, k2, k3⟩
          rcases List.mem_cons.1 k2 with k2 | k2
          · rw [hI, Itv.icc_eq_mk hlh, Itv.icc_eq_mk k1] at k2
            injection k2 with k2 k4
            injection k2 with k2
            injection k4 with k4
            rw [← k2, ← k4]; exact .inl k3
          · exact .inr ⟨lo', hi', k1, k2, k3⟩
        · rintro (k | ⟨lo', hi', k1, k2, k3⟩)
          · exact ⟨lo, hi, hlh, by rw [hI]; simp, k⟩
          · exact ⟨lo', hi', k1, List.mem_cons_of_mem _ k2, k3⟩
      rw [h7, h3, hmem, hex]
      by_cases c1 : ∃ lo hi, lo ≤ hi ∧ Itv.icc lo hi ∈ R ∧ Marked ts lo hi s
      · simp only [c1, true_and, not_true_eq_false, false_and, or_false, or_true]
      · by_cases c2 : Marked ts lo hi s
        · simp only [c1, c2, not_false_eq_true, true_and, false_and, false_or, not_true_eq_false, or_false]
        · simp only [c1, c2, not_false_eq_true, true_and, false_and, false_or]

end Codac.Summary
