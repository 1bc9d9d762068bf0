import Verif.Tube.Model
import Mathlib.Algebra.Order.Group.Abs
import Mathlib.Algebra.Order.Ring.Defs
import Mathlib.Algebra.Field.Basic
import Mathlib.Tactic.Linarith

/-!
# Search of slices: the wider one, the steepest one, the index of a slice

Sources: `src/core/domains/tube/codac_Tube.cpp:404-436, 467-483, 512-523`, `src/core/domains/tube/codac_TubeVector.cpp:650-668`.
Differences of numbers are exact. The middle of an interval (IBEX) is a parameter, `none` when it is not a number (empty interval); a comparison with it is false.
-/

namespace Codac

section index
/-- the loop of `Tube::index(slice)`, codac_Tube.cpp:514-521, on the addresses of the slices: `p` is the address looked for, `i` the counter -/
def indexLoop (p : Nat) : Int → List Nat → Int
  | i, [] => i
  | i, [q] => if q = p then i else -1
  | i, q :: q' :: qs => if q = p then i else indexLoop p (i + 1) (q' :: qs)

/-- `Tube::index(slice)`, codac_Tube.cpp:512-523; `qs` are the addresses of the slices of the tube, in order -/
def indexOf (qs : List Nat) (p : Nat) : Int := indexLoop p 0 qs
end index

section slices
variable {K : Type*} [LinearOrder K]

/-- the loop of `Tube::last_slice()`, codac_Tube.cpp:411-413 (mode without synthesis); `none`: the null pointer is followed -/
def lastLoop : List (Slice K) → Option (Slice K)
  | [] => none
  | [s] => some s
  | _ :: s' :: ss => lastLoop (s' :: ss)

/-- `Tube::last_slice()`, codac_Tube.cpp:404-416 -/
def Tube.lastSlice (T : Tube K) : Option (Slice K) := lastLoop T.slices

variable [Field K]

/-- the loop of `Tube::wider_slice()`, codac_Tube.cpp:428-433 -/
def widerLoop : Slice K → K → List (Slice K) → Slice K
  | best, _, [] => best
  | best, m, s :: ss => if m < s.ub - s.lb then widerLoop s (s.ub - s.lb) ss else widerLoop best m ss

/-- `Tube::wider_slice()`, codac_Tube.cpp:423-436 -/
def Tube.widerSlice (T : Tube K) : Option (Slice K) :=
  match T.slices with
  | [] => none
  | s :: ss => some (widerLoop s 0 (s :: ss))

/-- `fabs(s->output_gate().mid() - s->input_gate().mid())`, codac_Tube.cpp:474, codac_TubeVector.cpp:658; `none`: not a number -/
def Slice.rise (mid : Itv K → Option K) (s : Slice K) : Option K :=
  (mid s.outG).bind fun o => (mid s.inG).map fun i => |o - i|

/-- the loop of `Tube::steepest_slice()`, codac_Tube.cpp:472-480 -/
def steepLoop (mid : Itv K → Option K) : Slice K → K → List (Slice K) → Slice K
  | best, _, [] => best
  | best, m, s :: ss =>
    match s.rise mid with
    | none => steepLoop mid best m ss
    | some d => if m < d then steepLoop mid s d ss else steepLoop mid best m ss

/-- `Tube::steepest_slice()`, codac_Tube.cpp:467-483 -/
def Tube.steepestSlice (mid : Itv K → Option K) (T : Tube K) : Option (Slice K) :=
  match T.slices with
  | [] => none
  | s :: ss => some (steepLoop mid s 0 (s :: ss))

/-- the loop of `TubeVector::steepest_slice()`, codac_TubeVector.cpp:655-665; `none` in the result of the tube: the null pointer is followed. The slice is given with the
index of its component; `none`: the null pointer. -/
def steepVecLoop (mid : Itv K → Option K) : Nat → Option (Nat × Slice K) → K → List (Tube K) → Option (Option (Nat × Slice K))
  | _, best, _, [] => some best
  | i, best, m, T :: x =>
    (T.steepestSlice mid).bind fun s =>
      match s.rise mid with
      | none => steepVecLoop mid (i + 1) best m x
      | some d => if m ≤ d then steepVecLoop mid (i + 1) (some (i, s)) d x else steepVecLoop mid (i + 1) best m x

/-- `TubeVector::steepest_slice()`, codac_TubeVector.cpp:650-668 -/
def steepestVec (mid : Itv K → Option K) (x : List (Tube K)) : Option (Option (Nat × Slice K)) := steepVecLoop mid 0 none 0 x

end slices

/-! ### Lemmas -/

theorem indexLoop_not_mem {p : Nat} : ∀ (qs : List Nat) (i : Int), qs ≠ [] → p ∉ qs → indexLoop p i qs = -1
  | [], _, h, _ => absurd rfl h
  | [q], i, _, h => by
    rw [indexLoop, if_neg]
    rintro rfl
    simp at h
  | q :: q' :: qs, i, _, h => by
    rw [indexLoop, if_neg (by rintro rfl; simp at h)]
    exact indexLoop_not_mem (q' :: qs) (i + 1) (by simp) (fun h' => h (List.mem_cons_of_mem _ h'))

theorem indexLoop_get {p : Nat} : ∀ (qs : List Nat) (i : Int) (k : Nat), qs.Nodup → qs[k]? = some p → indexLoop p i qs = i + k
  | [], _, _, _, h => by simp at h
  | [q], i, 0, _, h => by
    simp at h
    rw [indexLoop, if_pos h]
    simp
  | [q], i, k + 1, _, h => by simp at h
  | q :: q' :: qs, i, 0, _, h => by
    simp at h
    rw [indexLoop, if_pos h]
    simp
  | q :: q' :: qs, i, k + 1, hn, h => by
    rw [List.getElem?_cons_succ] at h
    have hne : q ≠ p := by
      rintro rfl
      exact (List.nodup_cons.mp hn).1 (List.mem_iff_getElem?.mpr ⟨k, h⟩)
    rw [indexLoop, if_neg hne, indexLoop_get (q' :: qs) (i + 1) k (List.nodup_cons.mp hn).2 h]
    push_cast
    ring

section slices
variable {K : Type*} [Field K] [LinearOrder K] [IsStrictOrderedRing K]

omit [Field K] [IsStrictOrderedRing K] in
theorem lastLoop_eq : ∀ ss : List (Slice K), lastLoop ss = ss.getLast?
  | [] => rfl
  | [_] => rfl
  | _ :: s' :: ss => by rw [lastLoop, lastLoop_eq (s' :: ss)]; simp

theorem widerLoop_spec : ∀ (ss : List (Slice K)) (best : Slice K) (m : K), m ≤ best.ub - best.lb →
    (widerLoop best m ss = best ∨ widerLoop best m ss ∈ ss) ∧ m ≤ (widerLoop best m ss).ub - (widerLoop best m ss).lb ∧
      ∀ s ∈ ss, s.ub - s.lb ≤ (widerLoop best m ss).ub - (widerLoop best m ss).lb
  | [], best, m, h => ⟨.inl rfl, h, by simp⟩
  | s :: ss, best, m, h => by
    rw [widerLoop]
    split_ifs with hlt
    · obtain ⟨h1, h2, h3⟩ := widerLoop_spec ss s (s.ub - s.lb) le_rfl
      refine ⟨.inr ?_, hlt.le.trans h2, fun r hr => ?_⟩
      · rcases h1 with h1 | h1
        · rw [h1]; simp
        · exact List.mem_cons_of_mem _ h1
      · rcases List.mem_cons.mp hr with rfl | hr
        · exact h2
        · exact h3 r hr
    · obtain ⟨h1, h2, h3⟩ := widerLoop_spec ss best m h
      refine ⟨h1.imp id (List.mem_cons_of_mem _), h2, fun r hr => ?_⟩
      rcases List.mem_cons.mp hr with rfl | hr
      · exact (not_lt.mp hlt).trans h2
      · exact h3 r hr

omit [IsStrictOrderedRing K] in
theorem steepLoop_spec (mid : Itv K → Option K) : ∀ (ss : List (Slice K)) (best : Slice K) (m : K), (∀ d, best.rise mid = some d → m ≤ d) →
    (steepLoop mid best m ss = best ∨ steepLoop mid best m ss ∈ ss) ∧
      (∀ d, (steepLoop mid best m ss).rise mid = some d → m ≤ d ∧ ∀ s ∈ ss, ∀ e, s.rise mid = some e → e ≤ d) ∧
      ((steepLoop mid best m ss).rise mid = none → best.rise mid = none ∧ ∀ s ∈ ss, ∀ e, s.rise mid = some e → e ≤ m)
  | [], best, m, h => ⟨.inl rfl, fun d hd => ⟨h d hd, by simp⟩, fun hn => ⟨hn, by simp⟩⟩
  | s :: ss, best, m, h => by
    rw [steepLoop]
    cases hs : s.rise mid with
    | none =>
      obtain ⟨h1, h2, h3⟩ := steepLoop_spec mid ss best m h
      refine ⟨h1.imp id (List.mem_cons_of_mem _), fun d hd => ⟨(h2 d hd).1, fun r hr e he => ?_⟩, fun hn => ⟨(h3 hn).1, fun r hr e he => ?_⟩⟩
      · rcases List.mem_cons.mp hr with rfl | hr
        · rw [hs] at he; cases he
        · exact (h2 d hd).2 r hr e he
      · rcases List.mem_cons.mp hr with rfl | hr
        · rw [hs] at he; cases he
        · exact (h3 hn).2 r hr e he
    | some x =>
      simp only
      split_ifs with hlt
      · obtain ⟨h1, h2, h3⟩ := steepLoop_spec mid ss s x (fun d hd => by rw [hs, Option.some.injEq] at hd; exact hd.le)
        refine ⟨.inr ?_, fun d hd => ⟨hlt.le.trans (h2 d hd).1, fun r hr e he => ?_⟩, fun hn => ?_⟩
        · rcases h1 with h1 | h1
          · rw [h1]; simp
          · exact List.mem_cons_of_mem _ h1
        · rcases List.mem_cons.mp hr with rfl | hr
          · rw [hs, Option.some.injEq] at he; rw [← he]; exact (h2 d hd).1
          · exact (h2 d hd).2 r hr e he
        · have := (h3 hn).1
          rw [hs] at this
          cases this
      · obtain ⟨h1, h2, h3⟩ := steepLoop_spec mid ss best m h
        refine ⟨h1.imp id (List.mem_cons_of_mem _), fun d hd => ⟨(h2 d hd).1, fun r hr e he => ?_⟩, fun hn => ⟨(h3 hn).1, fun r hr e he => ?_⟩⟩
        · rcases List.mem_cons.mp hr with rfl | hr
          · rw [hs, Option.some.injEq] at he; rw [← he]; exact (not_lt.mp hlt).trans (h2 d hd).1
          · exact (h2 d hd).2 r hr e he
        · rcases List.mem_cons.mp hr with rfl | hr
          · rw [hs, Option.some.injEq] at he; rw [← he]; exact not_lt.mp hlt
          · exact (h3 hn).2 r hr e he

theorem Slice.rise_nonneg {mid : Itv K → Option K} {s : Slice K} {d : K} (h : s.rise mid = some d) : 0 ≤ d := by
  unfold Slice.rise at h
  rw [Option.bind_eq_some_iff] at h
  obtain ⟨o, -, h⟩ := h
  rw [Option.map_eq_some_iff] at h
  obtain ⟨i, -, rfl⟩ := h
  exact abs_nonneg _

end slices
end Codac
