import Mathlib.Data.List.Basic
import Mathlib.Data.List.Infix

/-!
# `Tools::replace_all`

Models `/repo/src/core/tools/codac_Tools.cpp:22-35`. Strings are lists of characters of any type.
-/

namespace Codac

variable {α : Type*} [DecidableEq α]

/-- `std::string::find` from the beginning of `l`, whose position in the text is `i` -/
def findAt (p : List α) : List α → Nat → Option Nat
  | [], i => if p.isPrefixOf [] then some i else none
  | a :: l, i => if p.isPrefixOf (a :: l) then some i else findAt p l (i + 1)

/-- `input.find(search, pos)`; `none` stands for `npos` -/
def findFrom (input p : List α) (pos : Nat) : Option Nat := if pos ≤ input.length then findAt p (input.drop pos) pos else none

/-- the loop of `Tools::replace_all`, codac_Tools.cpp:26-34; `none`: not finished with the given number of iterations -/
def replaceLoop (search format : List α) : Nat → List α → Nat → Option (List α)
  | 0, _, _ => none
  | n + 1, input, index =>
    match findFrom input search index with
    | none => some input
    | some i => replaceLoop search format n (input.take i ++ format ++ input.drop (i + search.length)) (i + format.length)

/-- `Tools::replace_all`, codac_Tools.cpp:22-35 -/
def replaceAll (fuel : Nat) (input search format : List α) : Option (List α) := replaceLoop search format fuel input 0

/-- specification: `r` is `l` where the occurrences of `search`, taken from the left and not overlapping, are replaced by `format` -/
inductive Replaced (search format : List α) : List α → List α → Prop
  | done {l : List α} : (∀ i, ¬ search <+: l.drop i) → Replaced search format l l
  | step {pre rest r : List α} : (∀ i, i < pre.length → ¬ search <+: (pre ++ search ++ rest).drop i) → Replaced search format rest r →
      Replaced search format (pre ++ search ++ rest) (pre ++ format ++ r)

theorem findAt_spec {p : List α} (hp : p ≠ []) (l : List α) (i : Nat) :
    (findAt p l i = none ∧ ∀ k, ¬ p <+: l.drop k) ∨ ∃ pre rest, l = pre ++ p ++ rest ∧ findAt p l i = some (i + pre.length) ∧ ∀ k, k < pre.length → ¬ p <+: l.drop k := by
  induction l generalizing i with
  | nil =>
    left
    refine ⟨?_, ?_⟩
    · rw [findAt]
      cases p with
      | nil => exact absurd rfl hp
      | cons => rfl
    · intro k hk
      simp only [List.drop_nil, List.prefix_nil] at hk
      exact hp hk
  | cons a l ih =>
    rw [findAt]
    by_cases h : p.isPrefixOf (a :: l) = true
    · rw [if_pos h]
      obtain ⟨rest, hr⟩ := List.isPrefixOf_iff_prefix.mp h
      exact .inr ⟨[], rest, by simpa using hr.symm, rfl, by simp⟩
    · rw [if_neg h]
      have h0 : ¬ p <+: a :: l := fun hh => h (List.isPrefixOf_iff_prefix.mpr hh)
      rcases ih (i + 1) with ⟨h1, h2⟩ | ⟨pre, rest, h1, h2, h3⟩
      · refine .inl ⟨h1, fun k => ?_⟩
        cases k with
        | zero => exact h0
        | succ k => exact h2 k
      · refine .inr ⟨a :: pre, rest, by rw [h1]; rfl, by rw [h2]; simp [Nat.add_assoc, Nat.add_comm 1], fun k hk => ?_⟩
        cases k with
        | zero => exact h0
        | succ k => exact h3 k (by simpa using hk)

theorem replaceLoop_spec {search : List α} (format : List α) (hs : search ≠ []) :
    ∀ (m : Nat) (rest : List α), rest.length ≤ m → ∀ (done : List α), ∃ r, Replaced search format rest r ∧
      ∀ n, rest.length < n → replaceLoop search format n (done ++ rest) done.length = some (done ++ r) := by
  intro m
  induction m with
  | zero =>
    intro rest hm done
    have : rest = [] := List.length_eq_zero_iff.mp (Nat.le_zero.mp hm)
    subst this
    refine ⟨[], .done (by intro k hk; simp only [List.drop_nil, List.prefix_nil] at hk; exact hs hk), fun n hn => ?_⟩
    cases n with
    | zero => cases hn
    | succ n =>
      rw [replaceLoop, findFrom, if_pos (by simp)]
      have : List.drop done.length (done ++ []) = [] := by simp
      rw [this]
      cases search with
      | nil => exact absurd rfl hs
      | cons => rfl
  | succ m ih =>
    intro rest hm done
    have hf : findFrom (done ++ rest) search done.length = findAt search rest done.length := by
      rw [findFrom, if_pos (by simp)]; simp
    rcases findAt_spec hs rest done.length with ⟨h1, h2⟩ | ⟨pre, rest', h1, h2, h3⟩
    · refine ⟨rest, .done h2, fun n hn => ?_⟩
      cases n with
      | zero => cases hn
      | succ n => rw [replaceLoop, hf, h1]
    · subst h1
      have hl : 0 < search.length := List.length_pos_iff.mpr hs
      obtain ⟨r, hr, hn⟩ := ih rest' (by simp only [List.length_append] at hm; omega) (done ++ pre ++ format)
      refine ⟨pre ++ format ++ r, .step h3 hr, fun n hlt => ?_⟩
      cases n with
      | zero => cases hlt
      | succ n =>
        rw [replaceLoop, hf, h2]
        have e1 : (done ++ (pre ++ search ++ rest')).take (done.length + pre.length) = done ++ pre := by
          have : done ++ (pre ++ search ++ rest') = (done ++ pre) ++ (search ++ rest') := by simp
          rw [this, ← List.length_append, List.take_left]
        have e2 : (done ++ (pre ++ search ++ rest')).drop (done.length + pre.length + search.length) = rest' := by
          have : done ++ (pre ++ search ++ rest') = (done ++ pre ++ search) ++ rest' := by simp
          rw [this, ← List.length_append, ← List.length_append, List.drop_left]
        have := hn n (by simp only [List.length_append] at hlt; omega)
        simp only [List.length_append] at this
        simp only [e1, e2]
        rw [this]
        simp

omit [DecidableEq α] in
theorem Replaced.unique {search format : List α} {l r : List α} (h : Replaced search format l r) : ∀ {r'}, Replaced search format l r' → r = r' := by
  induction h with
  | @done l h =>
    intro r' h'
    cases h' with
    | done => rfl
    | @step pre rest _ _ _ => exact absurd ⟨rest, by simp⟩ (h pre.length)
  | @step pre rest r h hr ih =>
    intro r' h'
    generalize hl : pre ++ search ++ rest = l at h'
    cases h' with
    | done h2 => subst hl; exact absurd ⟨rest, by simp⟩ (h2 pre.length)
    | @step pre' rest' r' h2 hr' =>
      have hlen : pre.length = pre'.length := by
        rcases Nat.lt_trichotomy pre.length pre'.length with h3 | h3 | h3
        · exact absurd ⟨rest, by rw [← hl]; simp⟩ (h2 pre.length h3)
        · exact h3
        · exact absurd ⟨rest', by rw [hl]; simp⟩ (h pre'.length h3)
      rw [List.append_assoc, List.append_assoc] at hl
      obtain ⟨rfl, hl2⟩ := List.append_inj hl hlen
      have := List.append_cancel_left hl2
      subst this
      rw [ih hr']

/-- with an empty search string the loop never ends -/
theorem replaceLoop_empty (format : List α) : ∀ (n : Nat) (input : List α) (i : Nat), i ≤ input.length → replaceLoop [] format n input i = none := by
  intro n
  induction n with
  | zero => intro input i _; rfl
  | succ n ih =>
    intro input i hi
    have hf : findFrom input [] i = some i := by
      rw [findFrom, if_pos hi]
      cases input.drop i <;> rfl
    rw [replaceLoop, hf]
    dsimp only
    refine ih _ _ ?_
    simp only [List.length_append, List.length_take, List.length_drop, List.length_nil]
    omega

end Codac
