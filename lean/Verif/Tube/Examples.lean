import Verif.Tube.Locate
import Mathlib.Algebra.Order.Field.Rat

/-! # A concrete tube over ℚ, used to check that the hypotheses of the theorems are satisfiable -/

namespace Codac.Ex
open Codac

/-- a closed interval with rational bounds -/
abbrev I (a b : ℚ) : Itv ℚ := Itv.icc a b

/-- three slices `[0,1]`, `[1,2]`, `[2,4]` with non trivial gates -/
def T : Tube ℚ where
  t0 := 0
  tf := 4
  g0 := I 0 1
  cells := [⟨0, 1, I 0 2, I 1 2⟩, ⟨1, 2, I 1 3, I 2 3⟩, ⟨2, 4, I 2 5, I 4 5⟩]

theorem T_wf : T.WF := ⟨by simp [T], by simp [T, Tiles]; norm_num⟩

theorem T_gc : T.GatesInEnvelopes := by
  intro s hs
  have : s = ⟨0, 1, I 0 2, I 0 1, I 1 2⟩ ∨ s = ⟨1, 2, I 1 3, I 1 2, I 2 3⟩ ∨ s = ⟨2, 4, I 2 5, I 2 3, I 4 5⟩ := by
    simpa [T, Tube.slices, slicesFrom] using hs
  rcases this with rfl | rfl | rfl <;> decide +kernel

/-- the identity lies in the tube -/
theorem T_encl : T.Encloses (fun t => t) := by
  intro s hs
  have : s = ⟨0, 1, I 0 2, I 0 1, I 1 2⟩ ∨ s = ⟨1, 2, I 1 3, I 1 2, I 2 3⟩ ∨ s = ⟨2, 4, I 2 5, I 2 3, I 4 5⟩ := by
    simpa [T, Tube.slices, slicesFrom] using hs
  rcases this with rfl | rfl | rfl <;> refine ⟨by decide +kernel, by decide +kernel, ?_⟩ <;> intro t h1 h2 <;> simp <;>
    constructor <;> simp at h1 h2 <;> linarith

end Codac.Ex
