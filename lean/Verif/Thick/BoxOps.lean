import Verif.Thick.Box

/-!
# Thick boxes: construction, intersection, inner parts

Models `/repo/src/unsupported/thickset/codac_ThickBox.h:26-36` and `codac_ThickBox_impl.hpp:33-71, 106-119, 136-141`.
-/

set_option linter.unusedSectionVars false

namespace Codac.ThickBox

variable {K : Type*} [Field K] [LinearOrder K] [IsStrictOrderedRing K]

/-- `ThickBox(lb, ub)`, codac_ThickBox.h:26-30, for boxes of the same dimension -/
def ofBoxes (L U : Box K) : ThickBox K := List.zipWith ThickItv.ofItvs L U

/-- `ThickBox(box)`, codac_ThickBox.h:32-36 -/
def ofBox (X : Box K) : ThickBox K := X.map ThickItv.ofItv

/-- `lb` and `ub`, codac_ThickBox_impl.hpp:58-71 -/
def lbBox (T : ThickBox K) : Box K := T.map ThickItv.lb
def ubBox (T : ThickBox K) : Box K := T.map ThickItv.ub

/-- the loop of `inter`, codac_ThickBox_impl.hpp:109-113, with the components already computed and the size; `none`: the sizes differ -/
def interLoop (cap : K) (n : Nat) : ThickBox K → ThickBox K → ThickBox K → Option (ThickBox K)
  | [], [], res => some res
  | t :: T, u :: U, res => if (ThickItv.inter cap t u).isEmpty then some (ofBox (List.replicate n ⊥)) else interLoop cap n T U (res ++ [ThickItv.inter cap t u])
  | _, _, _ => none

/-- `inter`, `&`, codac_ThickBox_impl.hpp:106-119 -/
def inter (cap : K) (T U : ThickBox K) : Option (ThickBox K) := interLoop cap T.length T U []

/-- `is_empty`, codac_ThickBox_impl.hpp:136-141 -/
def isEmpty : ThickBox K → Bool
  | [] => false
  | t :: T => if t.isEmpty then true else isEmpty T

/-- `subset_ext`, codac_ThickBox_impl.hpp:33-41 -/
def subsetExt (T : ThickBox K) : Box K × Bool :=
  (T.map ThickItv.subset, T.foldl (fun s t => s && !t.subset.isEmpty) true)

/-- a component of `inner_box`, codac_ThickBox_impl.hpp:48-52; `none` for an empty thick interval (the bounds of an empty interval are not numbers) -/
def innerItv (t : ThickItv K) : Option (Itv K × Bool) :=
  if t.subset.isEmpty then
    match t.lb, t.ub with
    | .mk a b _, .mk c d _ => some (Itv.ofBounds (Itv.maxLo a c) (Itv.minHi b d), true)
    | _, _ => none
  else some (t.subset, false)

/-- `inner_box`, codac_ThickBox_impl.hpp:44-55 -/
def innerBox (T : ThickBox K) : Option (List (Itv K × Bool)) := T.mapM innerItv

end Codac.ThickBox
