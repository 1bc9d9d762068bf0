import Verif.Tube.Model

/-!
# Tubes: specification vocabulary

Written without reference to the evaluation or update functions of the model.
-/

namespace Codac
variable {K : Type*} [LinearOrder K]

/-- the function `f` goes through the slice: it is in the gates at the bounds and in the envelope in between -/
def Slice.Encloses (s : Slice K) (f : K → K) : Prop :=
  f s.lb ∈ s.inG ∧ f s.ub ∈ s.outG ∧ ∀ t, s.lb < t → t < s.ub → f t ∈ s.cod

/-- the trajectory `f` lies in the tube: it goes through each slice -/
def Tube.Encloses (T : Tube K) (f : K → K) : Prop := ∀ s ∈ T.slices, s.Encloses f

/-- the list of slices starts at `a`, ends at `b`; each slice is non-degenerate and starts where the previous ends -/
def Tiles (a : K) : List (Cell K) → K → Prop
  | [], b => a = b
  | c :: cs, b => c.lb = a ∧ c.lb < c.ub ∧ Tiles c.ub cs b

/-- well-formed tube: at least one slice, the slices tile the time domain -/
structure Tube.WF (T : Tube K) : Prop where
  ne : T.cells ≠ []
  tiles : Tiles T.t0 T.cells T.tf

/-- each gate is included in the envelopes of the slices around it -/
def Tube.GatesInEnvelopes (T : Tube K) : Prop :=
  ∀ s ∈ T.slices, s.inG ≤ s.cod ∧ s.outG ≤ s.cod

end Codac
