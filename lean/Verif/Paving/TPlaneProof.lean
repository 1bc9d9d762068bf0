import Verif.Paving.TPlane
import Verif.Paving.Degree

/-!
# `TPlane`: proofs of loops

Models `/repo/src/robotics/loops/codac_TPlane.cpp:92-97, 214-276`.
-/

set_option linter.unusedSectionVars false

namespace Codac

variable {K : Type*} [Field K] [LinearOrder K] [IsStrictOrderedRing K]

/-- one component of `p([t2]) - p([t1])` -/
def TPlaneArgs.move (D : TPlaneArgs K) (I J : Itv K) (i : Fin 2) : Itv K := D.A.sub ((D.p i).evalItv J) ((D.p i).evalItv I)

/-- one component of the inclusion functions `f_p`, codac_TPlane.cpp:223-226, and `f_pv`, 217-221, on `[a1,b1]×[a2,b2]` -/
def TPlaneArgs.inclBounds (D : TPlaneArgs K) (a1 b1 a2 b2 : K) (i : Fin 2) : Itv K :=
  match D.v with
  | none => D.move (.icc a1 b1) (.icc a2 b2) i
  | some v => (v i).integral2 D.A a1 b1 a2 b2 ⊓ D.move (.icc a1 b1) (.icc a2 b2) i

/-- the function given to `zero_proven`, codac_TPlane.cpp:230-240; it is called with the boxes of leaves of the plane, which are bounded -/
def TPlaneArgs.incl (D : TPlaneArgs K) (X : Box K) : Itv K × Itv K :=
  match X with
  | [.mk (some a1) (some b1) _, .mk (some a2) (some b2) _] => (D.inclBounds a1 b1 a2 b2 0, D.inclBounds a1 b1 a2 b2 1)
  | _ => (⊤, ⊤)  -- not reachable

/-- `compute_proofs`, codac_TPlane.cpp:230-266: the detected loops for which `zero_proven` holds; `none`: an assert is violated. The plane is `P`, its detected
loops are `R`. -/
def TPlaneArgs.computeProofs (D : TPlaneArgs K) (P : Paving K) : List (List (Paving.Leaf K)) → Option (List (List (Paving.Leaf K)))
  | [] => some []
  | s :: R => (Deg.Subset.zeroProven D.incl ⟨s, P⟩).bind fun b => (D.computeProofs P R).map fun l => if b then s :: l else l

/-- `compute_loops`, codac_TPlane.cpp:92-97: detections (with the extraction of the connected subsets, line 211), then proofs. The plane, the detected and the proven
loops; `fuel` is for the recursion, `fuel'` for the subsets. -/
def Paving.computeLoops (bis : Box K → Box K × Box K) (fuel fuel' : Nat) (P : Paving K) (D : TPlaneArgs K) :
    Option (Paving K × List (List (Paving.Leaf K)) × List (List (Paving.Leaf K))) :=
  (P.computeDetections bis fuel D).bind fun Q => (connectedSubsets fuel' 5 0 [] Q 0 Q []).bind fun R => (D.computeProofs Q R).map fun S => (Q, R, S)

end Codac
