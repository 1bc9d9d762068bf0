import Verif.Traj.TrajLifeProofs

/-!
# C140 — programs on trajectories: construction, copy, assignment, sampling, destruction
-/

set_option linter.unusedSectionVars false

namespace Codac.Props
open Codac.TrajLife

variable {V F P D : Type*} [DecidableEq V]

/-- C140: a program which has a meaning (`meaning` lists what is excluded) reads and deletes no deleted function, and its trajectories have the values of the meaning:
an assignment or a copy gives the value of the source and changes nothing else -/
theorem C140_history_partial (nil : P) (sampF : D → F → P) (sampP : D → P → P) (os : List (Op V F P D)) {e : V → Option (Val F P × Stale)}
    (he : meanings sampF sampP false os (fun _ => none) = some e) :
    ∃ m, run nil sampF sampP os start = some m ∧ ∀ v, m.value v = (e v).map Prod.fst := by
  obtain ⟨m, h1, h2⟩ := run_rel nil sampF sampP os (start_rel false) he
  exact ⟨m, h1, h2.value⟩

/-- C140: when moreover no trajectory by function which was assigned points is destroyed, the functions in memory are those of the trajectories which still exist: none
is left at the end -/
theorem C140_no_leak_partial (nil : P) (sampF : D → F → P) (sampP : D → P → P) (os : List (Op V F P D)) {e : V → Option (Val F P × Stale)}
    (he : meanings sampF sampP true os (fun _ => none) = some e) :
    ∃ m, run nil sampF sampP os start = some m ∧ (∀ p, m.heap p ≠ none → ∃ v o, m.vars v = some o ∧ o.fn = some p) ∧
      ((∀ v, e v = none) → ∀ p, m.heap p = none) := by
  obtain ⟨m, h1, h2⟩ := run_rel nil sampF sampP os (start_rel true) he
  refine ⟨m, h1, h2.own rfl, fun hn p => ?_⟩
  by_contra hp
  obtain ⟨v, o, hv, _⟩ := h2.own rfl p hp
  have hg := h2.good v
  rw [hv, hn v] at hg
  cases hg

/-! ## concrete cases -/

/-- sampling of the function `f` (a number) -/
def sampNum (d f : Nat) : List Nat := [f, f + d]

/-- a program on three trajectories: by function, copied, sampled, assigned -/
def goodProg : List (Op Nat Nat (List Nat) Nat) :=
  [.newFn 0 5, .copy 1 0, .sample 1 2, .newMap 2 [7], .assign 2 1, .newFn 3 9, .assign 0 3, .assign 1 2, .destroy 3, .destroy 2]

example : (meanings sampNum (fun _ l => l) true goodProg fun _ => none).isSome = true := by decide

example : ((run [] sampNum (fun _ l => l) goodProg start).map fun m => ((m.vars 0).map fun o => (o.fn, deref m.heap o.fn), (m.vars 1).map fun o => o.pts)) =
    some (some (some 3, some 9), some [5, 7]) := by decide

/-- C140: `x = x` for a trajectory defined by a function reads the deleted function -/
theorem C140_self_fails : run (V := Nat) [] sampNum (fun _ l => l) [.newFn 0 5, .assign 0 0] start = none := by
  rfl

/-- C140: after `x.sample(dt)`, the assignment of a trajectory defined by a function deletes the function of `x` a second time -/
theorem C140_sampled_fails : run (V := Nat) [] sampNum (fun _ l => l) [.newFn 0 5, .sample 0 1, .newFn 1 6, .assign 0 1] start = none := by
  rfl

/-- C140: a trajectory defined by a function, assigned points, then destroyed: its function stays in memory -/
theorem C140_leak_fails : (run (V := Nat) [] sampNum (fun _ l => l) [.newFn 0 5, .newMap 1 [1], .assign 0 1, .destroy 0, .destroy 1] start).map
    (fun m => (m.heap 0, (m.vars 0).isNone, (m.vars 1).isNone)) = some (some 5, true, true) := by
  rfl

end Codac.Props
