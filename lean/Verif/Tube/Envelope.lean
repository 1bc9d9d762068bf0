import Verif.Tube.Misc
import Verif.Tube.Build
import Mathlib.Tactic.Linarith

/-!
# Polygon envelope of a tube

Models `Tube::polygon_envelope` (`/repo/src/core/domains/tube/codac_Tube.cpp`). Vertices are pairs (time, value).
-/

set_option linter.unusedSectionVars false

namespace Codac.Envelope
variable {K : Type*} [LinearOrder K]

/-- time domain and codomain of a slice whose codomain is bounded -/
structure Bar (K : Type*) where
  lb : K
  ub : K
  lo : K
  hi : K

/-- the bounds read from a slice, `none` when one is infinite -/
def barOf (s : Slice K) : Option (Bar K) :=
  match s.cod with
  | .mk (some l) (some h) _ => some ⟨s.lb, s.ub, l, h⟩
  | _ => none

/-- the same for all slices -/
def bars : List (Slice K) → Option (List (Bar K))
  | [] => some []
  | s :: ss => (barOf s).bind fun b => (bars ss).map (b :: ·)

/-- the first loop, codac_Tube.cpp:262-272 -/
def upper (bs : List (Bar K)) : List (K × K) := bs.flatMap fun b => [(b.lb, b.hi), (b.ub, b.hi)]

/-- the second loop, codac_Tube.cpp:274-280, from the last slice to the first one -/
def lower (bs : List (Bar K)) : List (K × K) := bs.reverse.flatMap fun b => [(b.ub, b.lo), (b.lb, b.lo)]

/-- `Tube::polygon_envelope`, codac_Tube.cpp:254-283; `none`: a vertex is at infinity (a slice is unbounded) -/
def polygonEnvelope (T : Tube K) : Option (List (K × K)) :=
  if T.isEmpty then some [] else (bars T.slices).map fun bs => upper bs ++ lower bs

end Codac.Envelope
