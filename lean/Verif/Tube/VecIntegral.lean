import Verif.Tube.VecParts
import Verif.Tube.Integral
import Verif.Tube.Misc
import Verif.Tube.PolyModel

/-!
# Vectors of tubes: integrals, primitive, interpolation, truncation, overlaps, volume

Source: `src/core/domains/tube/codac_TubeVector.cpp`. A `TubeVector` is the list of its components; `none`: an assert is violated.
-/

namespace Codac.TuVec
open Codac

section order
variable {K : Type*} [LinearOrder K]

/-- `tdomain().is_superset(t)` for `t = [a,b]`, `a ≤ b`; `tdomain()` asserts that the components have the same temporal domain, codac_TubeVector.cpp:203-209 -/
def within (x : List (Tube K)) (a b : K) : Bool :=
  match tdomain x with
  | some d => decide (d.1 ≤ a) && decide (b ≤ d.2)
  | none => false

/-- `truncate_tdomain(t)`, codac_TubeVector.cpp:841-846; the asserts are those of each component (codac_Tube.cpp:1250-1251) -/
def truncate (x : List (Tube K)) (a b : K) : Option (List (Tube K)) :=
  TVec.allM (fun T : Tube K => if a < b ∧ T.t0 ≤ a ∧ b ≤ T.tf then some (T.truncate a b) else none) x

end order

section field
variable {K : Type*} [Field K] [LinearOrder K]

/-- `integral(t)` with an interval `[a,b]`, codac_TubeVector.cpp:935-942, and with an instant (`a = b`), codac_TubeVector.cpp:926-933 -/
def integral (A : IArith K) (x : List (Tube K)) (a b : K) : Option (Box K) :=
  if within x a b = true then some (x.map fun T => T.integral A a b) else none

/-- `integral(t1, t2)`, codac_TubeVector.cpp:944-952 -/
def integral2 (A : IArith K) (x : List (Tube K)) (a1 b1 a2 b2 : K) : Option (Box K) :=
  if within x a1 b1 = true ∧ within x a2 b2 = true then some (x.map fun T => T.integral2 A a1 b1 a2 b2) else none

/-- `partial_integral(t)`, codac_TubeVector.cpp:954-966 -/
def partialIntegral (A : IArith K) (x : List (Tube K)) (a b : K) : Option (Box K × Box K) :=
  if within x a b = true then some (x.map fun T => (T.partialIntegral A a b).1, x.map fun T => (T.partialIntegral A a b).2) else none

/-- `partial_integral(t1, t2)`, codac_TubeVector.cpp:968-981 -/
def partialIntegral2 (A : IArith K) (x : List (Tube K)) (a1 b1 a2 b2 : K) : Option (Box K × Box K) :=
  if within x a1 b1 = true ∧ within x a2 b2 = true then
    some (x.map fun T => (T.partialIntegral2 A a1 b1 a2 b2).1, x.map fun T => (T.partialIntegral2 A a1 b1 a2 b2).2)
  else none

/-- `primitive(c)`, codac_TubeVector.cpp:178-185: a copy of the vector set to `[-oo,oo]`, `c` at the initial instant, `CtcDeriv` forward on each component
(codac_CtcDeriv.cpp:110-118); `B` is `BOUNDED_INFINITY` -/
def primitive (A : IArith K) (B : K) (x : List (Tube K)) (c : Box K) : Option (List (Tube K)) :=
  if x.length = c.length ∧ tdomain x ≠ none then TVec.allM (fun p : Tube K × Itv K => p.1.primitive A B p.2) (x.zip c) else none

/-- `primitive()`, codac_TubeVector.cpp:172-176: null at the initial instant -/
def primitive0 (A : IArith K) (B : K) (x : List (Tube K)) : Option (List (Tube K)) := primitive A B x (List.replicate x.length (Itv.point 0))

/-- `interpol(t, v)` with an interval `[a,b]`, codac_TubeVector.cpp:407-418 -/
def interpolV (A : IArith K) (x v : List (Tube K)) (a b : K) : Option (Box K) :=
  if within x a b = true ∧ x.length = v.length ∧ tdomain x = tdomain v then TVec.allM (fun p : Tube K × Tube K => p.1.interpolV A p.2 a b) (x.zip v) else none

/-- the loop of `overlaps`, codac_TubeVector.cpp:760-763; `none`: the index is out of the other vector -/
def overlapsLoop (ratio : K) : List (Tube K) → List (Tube K) → Option Bool
  | [], _ => some true
  | _ :: _, [] => none
  | T :: x, Y :: y => if T.overlaps Y ratio then overlapsLoop ratio x y else some false

/-- `overlaps(x, ratio)`, codac_TubeVector.cpp:757-764: the sizes are not compared -/
def overlaps (x y : List (Tube K)) (ratio : K) : Option Bool :=
  if tdomain x ≠ none ∧ tdomain x = tdomain y then overlapsLoop ratio x y else none

/-- `volume()`, codac_TubeVector.cpp:333-339; `none`: infinity; exact sums -/
def volume (x : List (Tube K)) : Option K := x.foldlM (fun acc T => T.volume.map fun v => acc + v) 0

end field

end Codac.TuVec
