import Verif.Thick.FastSivia
import Verif.Thick.Box

/-!
# The contractor on the translations which map a thick set on another one, and `NbIteration`

Python module, python/src/unsupported/thickset/codac_thickset.cpp.
-/

namespace Codac.TPav

open TNode

section
variable {K : Type*} [Field K] [LinearOrder K] [IsStrictOrderedRing K]

/-- `ThickAEqualB::is_AsubsetB`, python/src/unsupported/thickset/codac_thickset.cpp:270-293. `testT` is the test of `ThickTranslateInPaving` for the paving
`A_lb` (the labels of `A` changed by `opLower`) and `dX`; `testB` is `B.contains`; `X0` the box of `B`. -/
def subsetTest (testT testB : Box K → TB) (mid : Box K → List K) (bis : Box K → Box K × Box K) (eps : K) (fuel : Nat) (X0 : Box K) : Option TB :=
  (fastSivia (fun b => (testT b).opLower.opRestrict (testB b).opUpper) mid bis eps TB.opInter fuel (leaf X0 .maybe)).map fun lb =>
    if lb.checkEmpty = .in_ then .out else .unk

/-- `ThickAEqualB::test`, python/src/unsupported/thickset/codac_thickset.cpp:296-304. `moveA dX` is the test of the translation of `A_lb` by `dX`,
`moveB` the same for `B`. -/
def equalTest (moveA moveB : Box K → Box K → TB) (testA testB : Box K → TB) (mid : Box K → List K) (bis : Box K → Box K × Box K) (eps : K) (fuel : Nat)
    (XA XB dX : Box K) : Option TB :=
  (subsetTest (moveA dX) testB mid bis eps fuel XB).bind fun b1 =>
    (subsetTest (moveB (negBox dX)) testA mid bis eps fuel XA).map fun b2 => b1.opAnd b2

/-- the loop of `CtcAEqualB::contract`, python/src/unsupported/thickset/codac_thickset.cpp:321-336. `fuel` bounds the number of iterations -/
def equalLoop (test : Box K → Option TB) (bis : Box K → Box K × Box K) (eps : K) : Nat → List (Box K) → Box K → Option (Box K)
  | _, [], R => some R
  | 0, _ :: _, _ => none
  | fuel + 1, X :: L, R =>
    if ThickBox.boxSubset X R then equalLoop test bis eps fuel L R
    else (test X).bind fun t =>
      if t = .unk then
        if SPav.maxDiamGt eps X then equalLoop test bis eps fuel (L ++ [(bis X).1, (bis X).2]) R
        else equalLoop test bis eps fuel L (R.hull X)
      else equalLoop test bis eps fuel L R

/-- `CtcAEqualB::contract`, python/src/unsupported/thickset/codac_thickset.cpp:318-338; the dimension is 2 in the code -/
def equalContract (test : Box K → Option TB) (bis : Box K → Box K × Box K) (eps : K) (n fuel : Nat) (X0 : Box K) : Option (Box K) :=
  (equalLoop test bis eps fuel [X0] (Box.empty n)).map X0.inter

/-- the loop of `NbIteration`, python/src/unsupported/thickset/codac_thickset.cpp:352-362. The head of the list is the top of the stack. -/
def nbLoop (test : Box K → TB) (bis : Box K → Box K × Box K) (eps : K) : Nat → List (Box K) → Nat → Option Nat
  | _, [], n => some n
  | 0, _ :: _, _ => none
  | fuel + 1, X :: s, n =>
    if goOn eps X (test X) then nbLoop test bis eps fuel ((bis X).2 :: (bis X).1 :: s) (n + 1) else nbLoop test bis eps fuel s (n + 1)

/-- `NbIteration`, python/src/unsupported/thickset/codac_thickset.cpp:348-364 -/
def nbIteration (test : Box K → TB) (bis : Box K → Box K × Box K) (eps : K) (fuel : Nat) (X0 : Box K) : Option Nat :=
  nbLoop test bis eps fuel [X0] 0

end

end Codac.TPav
