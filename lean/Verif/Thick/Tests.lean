import Verif.Thick.BoxOps
import Verif.Thick.Disk

/-!
# Thick tests of functions, translations and sectors

Models `/repo/src/unsupported/thickset/codac_ThickTest.h:111-201`, `codac_ThickTest.cpp:140-181, 197-203` and `codac_ThickFunction.h:18-32`.
A function evaluated by IBEX is a parameter `F : Box K → Box K`.
-/

set_option linter.unusedSectionVars false

namespace Codac

variable {K : Type*} [Field K] [LinearOrder K] [IsStrictOrderedRing K]

/-- `ThinInverse::test`, codac_ThickTest.h:116-118 -/
def thinInverse (F : Box K → Box K) (t : ThickTest (Box K)) : ThickTest (Box K) := fun box => t (F box)

/-- `ThinfIn::test`, codac_ThickTest.h:132-140 -/
def thinFIn (F : Box K → Box K) (y : Box K) : ThickTest (Box K) := fun box =>
  if ThickBox.boxSubset (F box) y then .in_
  else if ThickBox.boxDisjoint (F box) y then .out
  else .unk

/-- `ThickFunction::eval`, codac_ThickFunction.h:30-32 -/
def thickEval (Fl Fu : Box K → Box K) (box : Box K) : ThickBox K := ThickBox.ofBoxes (Fl box) (Fu box)

/-- `ThickfIn::test`, codac_ThickTest.h:146-169, codac_ThickTest.cpp:140-154 -/
def thickFIn (Fl Fu : Box K → Box K) (y : Box K) : ThickTest (Box K) := fun box => (thickEval Fl Fu box).isInside y

/-- `box + v` for a vector `v` (IBEX) -/
def addVec (A : IArith K) (X : Box K) (v : List K) : Box K := List.zipWith (fun I x => A.add I (Itv.point x)) X v

/-- `ThickTranslateInBox::test`, codac_ThickTest.h:171-182; `dX` is given by its bounds, assumed to be finite -/
def translateInBox (A : IArith K) (dX : List (K × K)) (y : Box K) : ThickTest (Box K) := fun box =>
  (ThickBox.ofBoxes (addVec A box (dX.map Prod.fst)) (addVec A box (dX.map Prod.snd))).isInside y

/-- `vmin` of `testPlan`, codac_ThickTest.cpp:168-176; `ux`, `uy` are the cosine and the sine computed by IBEX, `[a,b] × [c,d]` is the position -/
def planMin (A : IArith K) (a b c d : K) (ux uy X0 X1 : Itv K) : Itv K :=
  A.sub (ThickItv.minItv (A.mul ux (A.sub X1 (.point d))) (A.mul ux (A.sub X1 (.point c)))) (ThickItv.maxItv (A.mul uy (A.sub X0 (.point b))) (A.mul uy (A.sub X0 (.point a))))

/-- `vmax` of `testPlan`, codac_ThickTest.cpp:168-177 -/
def planMax (A : IArith K) (a b c d : K) (ux uy X0 X1 : Itv K) : Itv K :=
  A.sub (ThickItv.maxItv (A.mul ux (A.sub X1 (.point d))) (A.mul ux (A.sub X1 (.point c)))) (ThickItv.minItv (A.mul uy (A.sub X0 (.point b))) (A.mul uy (A.sub X0 (.point a))))

/-- `ThickSector::testPlan`, codac_ThickTest.cpp:167-181; `M` is the largest double -/
def testPlan (A : IArith K) (M a b c d : K) (ux uy X0 X1 : Itv K) : TB :=
  (ThickItv.ofItvs (planMin A a b c d ux uy X0 X1) (planMax A a b c d ux uy X0 X1)).isInside (Itv.icc 0 M)

/-- `ThickSector::test`, codac_ThickTest.cpp:197-203; `u1`, `u2` are the directions of the two sides, `D` the disk -/
def sectorTest (O : DiskOps K) (M : K) (D : ThickDisk K) (u1 u2 : Itv K × Itv K) (X0 X1 : Itv K) : TB :=
  ((testPlan O.A M D.a D.b D.c D.d u1.1 u1.2 X0 X1).opAnd (testPlan O.A M D.a D.b D.c D.d u2.1 u2.2 X0 X1).opNot).opAnd (D.test O X0 X1)

end Codac
