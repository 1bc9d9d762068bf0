import Verif.Traj.Assign
import Mathlib.Data.Rat.Floor

/-!
# C139 — assignment of vectors of trajectories and of tubes
-/

set_option linter.unusedSectionVars false

namespace Codac.Props
open Codac.Assign

variable {V α : Type*} [DecidableEq V]

/-- C139: the assignment of another vector is defined (no deleted array is read or deleted), copies its components, changes no other vector, and leaves no array without
vector -/
theorem C139_assign (d : α) {m : Mem V α} (hm : m.Ok) {a b : V} (hab : a ≠ b) :
    ∃ m', assign d m a b = some m' ∧ m'.Ok ∧ m'.value a = m.value b ∧ (∀ v, v ≠ a → m'.value v = m.value v) ∧
      (m'.vars a).n = (m.vars b).n ∧ ∀ v, v ≠ a → (m'.vars v).n = (m.vars v).n := by
  obtain ⟨la, ha, _⟩ := hm.own a
  obtain ⟨lb, hb, hbn⟩ := hm.own b
  have hba : (m.vars b).blk ≠ (m.vars a).blk := fun e => hab (hm.inj b a e).symm
  have hbf : (m.vars b).blk ≠ m.next := (hm.fresh b).ne
  have haf : (m.vars a).blk ≠ m.next := (hm.fresh a).ne
  have e1 : (Function.update (Function.update m.heap (m.vars a).blk none) m.next (some (List.replicate (m.vars b).n d))) (m.vars b).blk = some lb := by
    rw [Function.update_of_ne hbf, Function.update_of_ne hba, hb]
  have hloop := copyLoop_other (src := (m.vars b).blk) (dst := m.next) hbf (m.vars b).n e1 (Function.update_self _ _ _) hbn.ge (by simp)
  have hlb : lb.take (m.vars b).n ++ (List.replicate (m.vars b).n d).drop (m.vars b).n = lb := by
    rw [← hbn, List.take_length]; simp
  rw [hlb, Function.update_idem] at hloop
  have hres : assign d m a b = some ⟨Function.update m.vars a ⟨(m.vars b).n, m.next⟩, Function.update (Function.update m.heap (m.vars a).blk none) m.next (some lb), m.next + 1⟩ := by
    unfold assign
    rw [if_neg (by rw [ha]; simp)]
    simp only
    rw [Function.update_of_ne hab.symm, hloop]
    rfl
  have hother : ∀ v, v ≠ a → (Function.update (Function.update m.heap (m.vars a).blk none) m.next (some lb)) (m.vars v).blk = m.heap (m.vars v).blk := by
    intro v hv
    rw [Function.update_of_ne (hm.fresh v).ne, Function.update_of_ne fun e => hv (hm.inj v a e)]
  refine ⟨_, hres, ⟨?_, ?_, ?_, ?_⟩, ?_, ?_, ?_, ?_⟩
  · intro v
    by_cases hv : v = a
    · subst hv
      exact ⟨lb, by simp only [Function.update_self], by simp only [Function.update_self]; exact hbn⟩
    · simp only [Function.update_of_ne hv, hother v hv]
      exact hm.own v
  · intro v w e
    by_cases hv : v = a <;> by_cases hw : w = a
    · rw [hv, hw]
    · subst hv
      simp only [Function.update_self, Function.update_of_ne hw] at e
      exact absurd e.symm (hm.fresh w).ne
    · subst hw
      simp only [Function.update_self, Function.update_of_ne hv] at e
      exact absurd e (hm.fresh v).ne
    · simp only [Function.update_of_ne hv, Function.update_of_ne hw] at e
      exact hm.inj v w e
  · intro v
    by_cases hv : v = a
    · subst hv; simp only [Function.update_self]; omega
    · simp only [Function.update_of_ne hv]
      exact Nat.lt_succ_of_lt (hm.fresh v)
  · intro i hi
    by_cases h1 : i = m.next
    · exact ⟨a, by simp only [Function.update_self, h1]⟩
    · simp only [Function.update_of_ne h1] at hi
      by_cases h2 : i = (m.vars a).blk
      · rw [h2, Function.update_self] at hi; exact absurd rfl hi
      · rw [Function.update_of_ne h2] at hi
        obtain ⟨v, hv⟩ := hm.all i hi
        have hva : v ≠ a := fun e => h2 (by rw [← hv, e])
        exact ⟨v, by simp only [Function.update_of_ne hva, hv]⟩
  · simp only [Mem.value, Function.update_self, hb]
  · intro v hv
    simp only [Mem.value, Function.update_of_ne hv, hother v hv]
  · simp only [Function.update_self]
  · intro v hv
    simp only [Function.update_of_ne hv]

/-- the meaning of a sequence of assignments -/
def valuesAfter : List (V × V) → (V → Option (List α)) → V → Option (List α)
  | [], e => e
  | (a, b) :: os, e => valuesAfter os (Function.update e a (e b))

/-- C139: any sequence of assignments between distinct vectors is defined and the vectors behave as values, without leak -/
theorem C139_history_partial (d : α) : ∀ (os : List (V × V)) {m : Mem V α}, m.Ok → (∀ o ∈ os, o.1 ≠ o.2) →
    ∃ m', run d os m = some m' ∧ m'.Ok ∧ ∀ v, m'.value v = valuesAfter os m.value v
  | [], m, hm, _ => ⟨m, rfl, hm, fun _ => rfl⟩
  | (a, b) :: os, m, hm, ho => by
    obtain ⟨m1, h1, h2, h3, h4, _⟩ := C139_assign d hm (ho (a, b) List.mem_cons_self)
    obtain ⟨m2, k1, k2, k3⟩ := C139_history_partial d os h2 fun o h => ho o (List.mem_cons_of_mem _ h)
    have he : m1.value = Function.update m.value a (m.value b) := by
      funext v
      by_cases hv : v = a
      · subst hv; rw [Function.update_self, h3]
      · rw [Function.update_of_ne hv, h4 v hv]
    refine ⟨m2, by rw [run, h1]; exact k1, k2, fun v => ?_⟩
    rw [k3 v, he]
    rfl

/-- C139: `x = x` replaces all the components by default ones: the values are lost -/
theorem C139_self_fails (d : α) {m : Mem V α} (hm : m.Ok) (a : V) :
    ∃ m', assign d m a a = some m' ∧ m'.value a = some (List.replicate (m.vars a).n d) := by
  obtain ⟨la, ha, _⟩ := hm.own a
  have hl := copyLoop_self (b := m.next) (r := List.replicate (m.vars a).n d) (m.vars a).n
    (h := Function.update (Function.update m.heap (m.vars a).blk none) m.next (some (List.replicate (m.vars a).n d))) (Function.update_self _ _ _) (by simp)
  have hres : assign d m a a = some ⟨Function.update m.vars a ⟨(m.vars a).n, m.next⟩,
      Function.update (Function.update m.heap (m.vars a).blk none) m.next (some (List.replicate (m.vars a).n d)), m.next + 1⟩ := by
    unfold assign
    rw [if_neg (by rw [ha]; simp)]
    simp only [Function.update_self]
    rw [hl]
    rfl
  exact ⟨_, hres, by simp only [Mem.value, Function.update_self]⟩

/-! ## a concrete case -/

/-- two vectors of 2 and 3 components -/
def twoVecs : Mem Bool Nat where
  vars v := if v then ⟨3, 1⟩ else ⟨2, 0⟩
  heap i := if i = 0 then some [1, 2] else if i = 1 then some [7, 8, 9] else none
  next := 2

example : twoVecs.Ok where
  own v := by cases v <;> exact ⟨_, rfl, rfl⟩
  inj v w := by cases v <;> cases w <;> simp [twoVecs]
  fresh v := by cases v <;> decide
  all i h := by
    by_cases h0 : i = 0
    · exact ⟨false, h0.symm⟩
    by_cases h1 : i = 1
    · exact ⟨true, h1.symm⟩
    exact absurd (by simp [twoVecs, h0, h1]) h

example : (assign 0 twoVecs false true).map (fun m => (m.value false, m.value true)) = some (some [7, 8, 9], some [7, 8, 9]) ∧
    (assign 0 twoVecs true true).map (fun m => m.value true) = some (some [0, 0, 0]) := by decide

end Codac.Props
