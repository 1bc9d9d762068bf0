import Verif.Tube.Fold
import Verif.Arith
import Mathlib.Algebra.Order.Archimedean.Basic
import Mathlib.Data.Fintype.Order
import Mathlib.Data.Finite.Defs
import Mathlib.Order.WellFounded

/-! # Construction of tubes from a time step -/

namespace Codac
variable {K : Type*} [Field K] [LinearOrder K] [IsStrictOrderedRing K]

omit [Field K] [IsStrictOrderedRing K] in
theorem buildCells_mono {add : K → K → K} {step tf : K} {n m : Nat} {lb : K} {cs : List (Cell K)}
    (h : buildCells add step tf n lb = some cs) (hm : n ≤ m) : buildCells add step tf m lb = some cs := by
  induction n generalizing m lb cs with
  | zero => simp [buildCells] at h
  | succ n ih =>
    obtain ⟨m, rfl⟩ : ∃ m', m = m' + 1 := ⟨m - 1, by omega⟩
    simp only [buildCells] at h ⊢
    split_ifs with h1
    · rw [if_pos h1] at h
      rw [Option.map_eq_some_iff] at h
      obtain ⟨cs', h2, h3⟩ := h
      rw [ih h2 (by omega)]; simp [h3]
    · rw [if_neg h1] at h; exact h

/-- with the exact addition, the slices tile the time domain; all but the last have the length `step`, and none is longer -/
theorem buildCells_spec {step tf : K} (hs : 0 < step) {n : Nat} {lb : K} (hlb : lb < tf) {cs : List (Cell K)}
    (h : buildCells (· + ·) step tf n lb = some cs) :
    cs ≠ [] ∧ Tiles lb cs tf ∧ (∀ c ∈ cs, c.ub - c.lb ≤ step) ∧ (∀ c ∈ cs.dropLast, c.ub - c.lb = step) ∧
      (∀ c ∈ cs, c.cod = ⊤ ∧ c.out = ⊤) := by
  induction n generalizing lb cs with
  | zero => simp [buildCells] at h
  | succ n ih =>
    simp only [buildCells] at h
    have hle : min (lb + step) tf - lb ≤ step := by
      have := min_le_left (lb + step) tf; linarith
    have hlt : lb < min (lb + step) tf := lt_min (by linarith) hlb
    split_ifs at h with h1
    · rw [Option.map_eq_some_iff] at h
      obtain ⟨cs', h2, rfl⟩ := h
      obtain ⟨g0, g1, g2, g3, g4⟩ := ih h1 h2
      refine ⟨by simp, ⟨rfl, hlt, g1⟩, ?_, ?_, ?_⟩
      · intro c hc
        rcases List.mem_cons.mp hc with rfl | hc
        · exact hle
        · exact g2 c hc
      · intro c hc
        rw [List.dropLast_cons_of_ne_nil g0] at hc
        rcases List.mem_cons.mp hc with rfl | hc
        · have : min (lb + step) tf = lb + step := by
            rcases min_choice (lb + step) tf with e | e
            · exact e
            · rw [e] at h1; exact absurd h1 (lt_irrefl _)
          show min (lb + step) tf - lb = step
          rw [this]; ring
        · exact g3 c hc
      · intro c hc
        rcases List.mem_cons.mp hc with rfl | hc
        · exact ⟨rfl, rfl⟩
        · exact g4 c hc
    · cases h
      have he : min (lb + step) tf = tf := le_antisymm (min_le_right _ _) (not_lt.mp h1)
      refine ⟨by simp, ⟨rfl, hlt, he⟩, ?_, ?_, ?_⟩
      · intro c hc; rw [List.mem_singleton] at hc; subst hc; exact hle
      · simp
      · intro c hc; rw [List.mem_singleton] at hc; subst hc; exact ⟨rfl, rfl⟩

/-- the loop stops -/
theorem buildCells_total [Archimedean K] {step tf : K} (hs : 0 < step) (lb : K) :
    ∃ n cs, buildCells (· + ·) step tf n lb = some cs := by
  obtain ⟨n, hn⟩ := Archimedean.arch (tf - lb) hs
  have : ∀ (n : Nat) (lb : K), tf - lb ≤ n • step → ∃ m cs, buildCells (· + ·) step tf m lb = some cs := by
    intro n
    induction n with
    | zero =>
      intro lb h
      refine ⟨1, [⟨lb, min (lb + step) tf, ⊤, ⊤⟩], ?_⟩
      rw [zero_nsmul] at h
      simp only [buildCells]
      rw [if_neg]
      rw [not_lt]; exact le_min (by linarith) (le_refl _)
    | succ n ih =>
      intro lb h
      by_cases h1 : min (lb + step) tf < tf
      · have he : min (lb + step) tf = lb + step := by
          rcases min_choice (lb + step) tf with e | e
          · exact e
          · rw [e] at h1; exact absurd h1 (lt_irrefl _)
        obtain ⟨m, cs, hm⟩ := ih (min (lb + step) tf) (by rw [he]; rw [succ_nsmul] at h; linarith)
        refine ⟨m + 1, ⟨lb, min (lb + step) tf, ⊤, ⊤⟩ :: cs, ?_⟩
        simp only [buildCells]
        rw [if_pos h1, hm]; rfl
      · refine ⟨1, [⟨lb, min (lb + step) tf, ⊤, ⊤⟩], ?_⟩
        simp only [buildCells]
        rw [if_neg h1]
  exact this n lb hn

omit [Field K] [IsStrictOrderedRing K] in
/-- when the addition of the step is absorbed (as `1e17 + 1.` in floating point), the loop never ends -/
theorem buildCells_absorbed {add : K → K → K} {step tf lb : K} (h : add lb step = lb) (hlb : lb < tf) (n : Nat) :
    buildCells add step tf n lb = none := by
  induction n with
  | zero => rfl
  | succ n ih =>
    have he : min (add lb step) tf = lb := by rw [h]; exact min_eq_left hlb.le
    simp only [buildCells]
    rw [he, if_pos hlb, ih]; rfl

omit [Field K] [IsStrictOrderedRing K] in
/-- any addition of which the step is never absorbed: the slices tile the time domain -/
theorem buildCells_tiles {add : K → K → K} {step tf : K} {n : Nat} {lb : K}
    (hp : ∀ t, lb ≤ t → t < tf → t < add t step) (hlb : lb < tf) {cs : List (Cell K)}
    (h : buildCells add step tf n lb = some cs) :
    cs ≠ [] ∧ Tiles lb cs tf ∧ (∀ c ∈ cs, c.ub ≤ add c.lb step) ∧ (∀ c ∈ cs.dropLast, c.ub = add c.lb step) ∧
      (∀ c ∈ cs, c.cod = ⊤ ∧ c.out = ⊤) := by
  induction n generalizing lb cs with
  | zero => simp [buildCells] at h
  | succ n ih =>
    simp only [buildCells] at h
    have hle : min (add lb step) tf ≤ add lb step := min_le_left _ _
    have hlt : lb < min (add lb step) tf := lt_min (hp lb (le_refl _) hlb) hlb
    split_ifs at h with h1
    · rw [Option.map_eq_some_iff] at h
      obtain ⟨cs', h2, rfl⟩ := h
      obtain ⟨g0, g1, g2, g3, g4⟩ := ih (fun t ht => hp t (le_trans hlt.le ht)) h1 h2
      refine ⟨by simp, ⟨rfl, hlt, g1⟩, ?_, ?_, ?_⟩
      · intro c hc
        rcases List.mem_cons.mp hc with rfl | hc
        · exact hle
        · exact g2 c hc
      · intro c hc
        rw [List.dropLast_cons_of_ne_nil g0] at hc
        rcases List.mem_cons.mp hc with rfl | hc
        · rcases min_choice (add lb step) tf with e | e
          · exact e
          · rw [e] at h1; exact absurd h1 (lt_irrefl _)
        · exact g3 c hc
      · intro c hc
        rcases List.mem_cons.mp hc with rfl | hc
        · exact ⟨rfl, rfl⟩
        · exact g4 c hc
    · cases h
      have he : min (add lb step) tf = tf := le_antisymm (min_le_right _ _) (not_lt.mp h1)
      refine ⟨by simp, ⟨rfl, hlt, he⟩, ?_, ?_, ?_⟩
      · intro c hc; rw [List.mem_singleton] at hc; subst hc; exact hle
      · simp
      · intro c hc; rw [List.mem_singleton] at hc; subst hc; exact ⟨rfl, rfl⟩

omit [Field K] [IsStrictOrderedRing K] in
/-- on a finite set of numbers, an addition of which the step is never absorbed makes the loop stop -/
theorem buildCells_total_finite [Finite K] {add : K → K → K} {step tf : K} (lb : K) (hlb : lb < tf)
    (hp : ∀ t, lb ≤ t → t < tf → t < add t step) : ∃ n cs, buildCells add step tf n lb = some cs := by
  induction lb using WellFoundedGT.induction with
  | ind lb ih =>
    by_cases h1 : min (add lb step) tf < tf
    · have h3 : lb < min (add lb step) tf := lt_min (hp lb (le_refl _) hlb) hlb
      obtain ⟨n, cs, hn⟩ := ih _ h3 h1 (fun t ht => hp t (le_trans h3.le ht))
      refine ⟨n + 1, ⟨lb, min (add lb step) tf, ⊤, ⊤⟩ :: cs, ?_⟩
      simp only [buildCells]
      rw [if_pos h1, hn]; rfl
    · refine ⟨1, [⟨lb, min (add lb step) tf, ⊤, ⊤⟩], ?_⟩
      simp only [buildCells]
      rw [if_neg h1]

end Codac
