import Verif.Arith
import Verif.Thick.Boolean

/-!
# Explored area of a swath sensor (`SweepTest`)

Models `/repo/src/unsupported/thickset/codac_sweepTest.h` and `codac_sweepTest.cpp`: a robot whose position `(x,y)`, heading vector `(ux,uy)` and sensor
half-length `L` are known slice by slice only (one interval per slice and per quantity) sees, at each instant, the points `p` with
`v1 = ux (p₂-y) - uy (p₁-x) = 0` and `v2 = L - |ux (p₁-x) + uy (p₂-y)| ≥ 0`. `SweepTest` tells whether a box is inside or outside the area seen.

Simplifications, for the whole file: the five sequences of intervals have the same length (the constructors do not check it), so they are one list of slices; a
range of indices `{{i0,i1}}` is the pair `(i0, i1+1)`, so that the range `{{0,-1}}` of an empty sequence is `(0,0)`; a comparison with a bound of an empty
interval is false (IBEX bounds of the empty set are not numbers). The arithmetic of IBEX is a parameter with the inclusion property (`IArith`).
`test_exist_v2`, `genFunction`, `getBounds`, `check_function`, `check_function2` and `genV1_1` are called from nothing that is compiled in; not modelled.
-/

set_option linter.unusedSectionVars false

namespace Codac.Sweep
variable {K : Type*} [Field K] [LinearOrder K] [IsStrictOrderedRing K]

/-- what is known of one slice: `x[i]`, `y[i]`, `ux[i]`, `uy[i]`, `L[i]`, codac_sweepTest.h:38-42 -/
structure Sl (K : Type*) [LinearOrder K] where
  x : Itv K
  y : Itv K
  ux : Itv K
  uy : Itv K
  l : Itv K

/-- the box, `IntervalVector X` of size 2, codac_sweepTest.cpp:26 -/
structure Bx (K : Type*) [LinearOrder K] where
  p : Itv K
  q : Itv K

/-- `X.ub() <= 0` -/
def ubLe0 : Itv K → Bool
  | .mk _ (some b) _ => decide (b ≤ 0)
  | _ => false

/-- `X.ub() < 0` -/
def ubLt0 : Itv K → Bool
  | .mk _ (some b) _ => decide (b < 0)
  | _ => false

/-- `X.ub() >= 0` -/
def ubGe0 : Itv K → Bool
  | .mk _ (some b) _ => decide (0 ≤ b)
  | .mk _ none _ => true
  | .empty => false

/-- `X.lb() >= 0` -/
def lbGe0 : Itv K → Bool
  | .mk (some a) _ _ => decide (0 ≤ a)
  | _ => false

/-- `X.lb() < 0` -/
def lbLt0 : Itv K → Bool
  | .mk (some a) _ _ => decide (a < 0)
  | .mk none _ _ => true
  | .empty => false

/-- `enum {POSITIF, ZERO, NEGATIF}`, codac_sweepTest.h:73 -/
inductive Sgn | pos | zero | neg
  deriving DecidableEq

/-- `get_sign`, codac_sweepTest.h:75-79 -/
def getSign (X : Itv K) : Sgn := if ubLe0 X then .neg else if lbGe0 X then .pos else .zero

/-- `enum {IDLE, SIGN_PLUS, SIGN_MOINS, ZERO_PLUS, ZERO_MOINS}`, codac_sweepTest.h:72 -/
inductive St | idle | plus | minus | zeroPlus | zeroMinus
  deriving DecidableEq

/-- variables of the loop of `extract_zeros`, codac_sweepTest.cpp:611-618 -/
structure Scan where
  st : St
  i0 : Nat
  T : List (Nat × Nat)
  T2 : List (Nat × Nat)

/-- body of the loop of `extract_zeros`, codac_sweepTest.cpp:620-674 -/
def scanStep (c : Scan) (i : Nat) (s : Sgn) : Scan :=
  match c.st, s with
  | .idle, .zero => c
  | .idle, .pos => { c with st := .plus, T2 := if c.i0 ≠ i then c.T2 ++ [(c.i0, i + 1)] else c.T2 }
  | .idle, .neg => { c with st := .minus, T2 := if c.i0 ≠ i then c.T2 ++ [(c.i0, i + 1)] else c.T2 }
  | .plus, .zero => { c with i0 := i - 1, st := .zeroPlus }
  | .plus, .neg => { c with T := c.T ++ [(i - 1, i + 1)], st := .minus }
  | .plus, .pos => c
  | .zeroPlus, .neg => { c with T := c.T ++ [(c.i0, i + 1)], st := .minus }
  | .zeroPlus, .pos => { c with T2 := c.T2 ++ [(c.i0, i + 1)], st := .plus }
  | .zeroPlus, .zero => c
  | .minus, .zero => { c with i0 := i - 1, st := .zeroMinus }
  | .minus, .pos => { c with T := c.T ++ [(i - 1, i + 1)], st := .plus }
  | .minus, .neg => c
  | .zeroMinus, .pos => { c with T := c.T ++ [(c.i0, i + 1)], st := .plus }
  | .zeroMinus, .neg => { c with T2 := c.T2 ++ [(c.i0, i + 1)], st := .minus }
  | .zeroMinus, .zero => c

/-- the loop of `extract_zeros` after `i` slices, codac_sweepTest.cpp:611-619 -/
def scan (f : List (Itv K)) : Nat → Scan
  | 0 => ⟨.idle, 0, [], []⟩
  | i + 1 => scanStep (scan f i) i (getSign (f.getD i .empty))

/-- `extract_zeros`, codac_sweepTest.cpp:608-677: the ranges with a change of sign, and the other ranges where the sign is not known -/
def extractZeros (f : List (Itv K)) : List (Nat × Nat) × List (Nat × Nat) :=
  let c := scan f f.length
  (c.T, if c.st = .zeroMinus ∨ c.st = .zeroPlus ∨ c.st = .idle then c.T2 ++ [(c.i0, f.length)] else c.T2)

/-- the slices of a range, `for(int j = T[i][0]; j <= T[i][1]; j++)` -/
def part {α : Type*} (l : List α) (r : Nat × Nat) : List α := (l.drop r.1).take (r.2 - r.1)

/-- `is_inside`, codac_sweepTest.h:82-95 -/
def isInside (v2 : List (Itv K)) (T : List (Nat × Nat)) : Bool := T.any (fun r => (part v2 r).all lbGe0)

/-- `is_outside`, codac_sweepTest.h:99-109 -/
def isOutside (v2 : List (Itv K)) (T : List (Nat × Nat)) : Bool := T.all (fun r => (part v2 r).all (fun X => !ubGe0 X))

/-- `ibex::abs`, exact -/
def absI : Itv K → Itv K
  | .empty => .empty
  | .mk lo hi h =>
    if lbGe0 (.mk lo hi h) then .mk lo hi h
    else if ubLe0 (.mk lo hi h) then Itv.neg (.mk lo hi h)
    else .ofBounds (some 0) (Itv.maxHi (Itv.negB lo) hi)

/-- one value of `genV1`, codac_sweepTest.cpp:416-427 -/
def v1Of (A : IArith K) (X : Bx K) (s : Sl K) : Itv K := A.sub (A.mul s.ux (A.sub X.q s.y)) (A.mul s.uy (A.sub X.p s.x))

/-- one value of `genV2`, codac_sweepTest.cpp:511-522 -/
def v2Of (A : IArith K) (X : Bx K) (s : Sl K) : Itv K :=
  A.sub s.l (absI (A.add (A.mul s.ux (A.sub X.p s.x)) (A.mul s.uy (A.sub X.q s.y))))

/-! ## the second stage -/

/-- `X.lb()` as an operand; an infinite number makes the operation empty -/
def ptLo : Itv K → Itv K
  | .mk (some a) _ _ => .point a
  | _ => .empty

/-- `X.ub()` as an operand; an infinite number makes the operation empty -/
def ptHi : Itv K → Itv K
  | .mk _ (some b) _ => .point b
  | _ => .empty

/-- `ibex::min` of two intervals -/
def minI : Itv K → Itv K → Itv K
  | .mk l h _, .mk l' h' _ => .ofBounds (Itv.minLo l l') (Itv.minHi h h')
  | _, _ => .empty

/-- `ibex::max` of two intervals -/
def maxI : Itv K → Itv K → Itv K
  | .mk l h _, .mk l' h' _ => .ofBounds (Itv.maxLo l l') (Itv.maxHi h h')
  | _, _ => .empty

/-- `ibex::sign` -/
def signI (X : Itv K) : Itv K :=
  match X with
  | .empty => .empty
  | .mk lo hi h =>
    if ubLt0 (.mk lo hi h) then .point (-1)
    else if lbGe0 (.mk lo hi h) ∧ ¬ (0 : K) ∈ Itv.mk lo hi h then .point 1
    else .ofBounds (some (-1)) (some 1)

/-- `min( min( U.ub()*P, U.ub()*Q), min( U.lb()*P, U.lb()*Q))`, codac_sweepTest.cpp:453-463, 546-555 -/
def min4 (A : IArith K) (U P Q : Itv K) : Itv K :=
  minI (minI (A.mul (ptHi U) P) (A.mul (ptHi U) Q)) (minI (A.mul (ptLo U) P) (A.mul (ptLo U) Q))

/-- `max( max( U.ub()*P, U.ub()*Q), max( U.lb()*P, U.lb()*Q))`, same lines -/
def max4 (A : IArith K) (U P Q : Itv K) : Itv K :=
  maxI (maxI (A.mul (ptHi U) P) (A.mul (ptHi U) Q)) (maxI (A.mul (ptLo U) P) (A.mul (ptLo U) Q))

/-- one value of `v1_moins`, `genV1`, codac_sweepTest.cpp:430-464 -/
def v1Minus (A : IArith K) (X : Bx K) (s : Sl K) : Itv K :=
  A.sub (min4 A s.ux (A.sub X.q (ptLo s.y)) (A.sub X.q (ptHi s.y))) (max4 A s.uy (A.sub X.p (ptLo s.x)) (A.sub X.p (ptHi s.x)))

/-- one value of `v1_plus`, `genV1`, codac_sweepTest.cpp:430-465 -/
def v1Plus (A : IArith K) (X : Bx K) (s : Sl K) : Itv K :=
  A.sub (max4 A s.ux (A.sub X.q (ptLo s.y)) (A.sub X.q (ptHi s.y))) (min4 A s.uy (A.sub X.p (ptLo s.x)) (A.sub X.p (ptHi s.x)))

/-- `sum_m`, codac_sweepTest.cpp:541-558 -/
def sumMinus (A : IArith K) (X : Bx K) (s : Sl K) : Itv K :=
  A.add (min4 A s.ux (A.sub X.p (ptLo s.x)) (A.sub X.p (ptHi s.x))) (min4 A s.uy (A.sub X.q (ptLo s.y)) (A.sub X.q (ptHi s.y)))

/-- `sum_p`, codac_sweepTest.cpp:541-559 -/
def sumPlus (A : IArith K) (X : Bx K) (s : Sl K) : Itv K :=
  A.add (max4 A s.ux (A.sub X.p (ptLo s.x)) (A.sub X.p (ptHi s.x))) (max4 A s.uy (A.sub X.q (ptLo s.y)) (A.sub X.q (ptHi s.y)))

/-- one value of the parameter `v2_moins` of `genV2`, codac_sweepTest.cpp:564; `test_exist_v` receives it in `v2p` (line 155) -/
def v2High (A : IArith K) (X : Bx K) (s : Sl K) : Itv K :=
  A.sub s.l (A.mul (maxI (.point 0) (signI (A.mul (sumMinus A X s) (sumPlus A X s)))) (minI (absI (sumMinus A X s)) (absI (sumPlus A X s))))

/-- one value of the parameter `v2_plus` of `genV2`, codac_sweepTest.cpp:565; `test_exist_v` receives it in `v2m` (line 155) -/
def v2Low (A : IArith K) (X : Bx K) (s : Sl K) : Itv K :=
  A.sub s.l (maxI (absI (sumMinus A X s)) (absI (sumPlus A X s)))

/-- `keep_constant_sign`, codac_sweepTest.h:112-120 (`f[0]` of an empty sequence is not read by `test`) -/
def keepSign (f : List (Itv K)) (upper : Bool) : Bool :=
  let neg : Itv K → Bool := fun X => if upper then ubLt0 X else lbLt0 X
  let isNeg := neg (f.getD 0 .empty)
  f.all (fun X => neg X == isNeg && !decide ((0 : K) ∈ X))

/-- `exist_t`, codac_sweepTest.h:131-137 -/
def existT (A : IArith K) (X : Bx K) (l : List (Sl K)) : Bool :=
  l.any (fun s => ubLe0 (v1Minus A X s) && lbGe0 (v1Plus A X s) && lbGe0 (v2High A X s))

/-- `b1 || b2 || b3` for one range, codac_sweepTest.cpp:160-168 -/
def rangeOut (A : IArith K) (X : Bx K) (l : List (Sl K)) : Bool :=
  keepSign (l.map (v1Plus A X)) true || keepSign (l.map (v1Minus A X)) false || (l.map (v2Low A X)).all (fun Y => !ubGe0 Y)

/-- `test_exist_v`, codac_sweepTest.cpp:145-184 -/
def testExist (A : IArith K) (X : Bx K) (S : List (Sl K)) (T : List (Nat × Nat)) : TB :=
  let isIn := T.any (fun r => existT A X (part S r))
  let isOut := T.all (fun r => rangeOut A X (part S r))
  if isIn ∧ isOut then .maybe
  else if ¬ isIn ∧ isOut then .maybeOut
  else if isIn ∧ ¬ isOut then .maybeIn
  else .unk

/-- `Interval::diam` (`none` = infinite) -/
def diam : Itv K → Option K
  | .empty => some 0
  | .mk (some a) (some b) _ => some (b - a)
  | .mk _ _ _ => none

/-- `X.max_diam() <= x[x.size()-1].diam()*5`, codac_sweepTest.cpp:108 -/
def smallBox (X : Bx K) (S : List (Sl K)) : Bool :=
  match S.getLast? with
  | none => false
  | some s => decide (Itv.hiLeHi (Itv.maxHi (diam X.p) (diam X.q)) ((diam s.x).map (fun d => d * 5)))

/-! ## the test -/

/-- what `fast_test` does with one range of the limits: `none` when it returns `IN`, else the new ranges and whether the range is out,
codac_sweepTest.cpp:75-100 -/
def rangeTest (A : IArith K) (X : Bx K) (S : List (Sl K)) (r : Nat × Nat) : Option (List (Nat × Nat) × Bool) :=
  let v1 := (part S r).map (v1Of A X)
  let v2 := (part S r).map (v2Of A X)
  let z := extractZeros v1
  if ¬ z.1.isEmpty ∧ isInside v2 z.1 then none
  else some ((z.1 ++ z.2).map (fun t => (t.1 + r.1, t.2 + r.1)), isOutside v2 (z.1 ++ z.2))

/-- the loop of `fast_test`: `none` when it returns `IN`, else `T_new` and the number of ranges which are not out, codac_sweepTest.cpp:66-101 -/
def rangesTest (A : IArith K) (X : Bx K) (S : List (Sl K)) : List (Nat × Nat) → Option (List (Nat × Nat) × Nat)
  | [] => some ([], 0)
  | r :: T =>
    match rangeTest A X S r with
    | none => none
    | some (t, o) =>
      match rangesTest A X S T with
      | none => none
      | some (t', n) => some (t ++ t', if o then n else n + 1)

/-- a bound of a range after the two lines which change it, codac_sweepTest.cpp:132-135 -/
def shake (n : Nat) (b : Nat) : Nat := min (n - 1) ((b - 1) + 1)

/-- the limits at the end of `fast_test`, codac_sweepTest.cpp:129-137 -/
def newLimits (n : Nat) (T : List (Nat × Nat)) : List (Nat × Nat) := T.map (fun r => (shake n r.1, shake n (r.2 - 1) + 1))

/-- `fast_test`: the answer, and the limits as they are left, codac_sweepTest.cpp:63-141. The return of line 119 leaves the limits as they were when the answer
is a single value; `is_singleton` is true of `IN`, `OUT`, `MAYBE`, codac_ThickBoolean.h. -/
def fastTest (A : IArith K) (X : Bx K) (S : List (Sl K)) (T : List (Nat × Nat)) : TB × List (Nat × Nat) :=
  match rangesTest A X S T with
  | none => (.in_, T)
  | some (T', n) =>
    if n = 0 then (.out, T)
    else
      let res := if smallBox X S then testExist A X S T' else .unk
      (res, if res = .maybe then T else newLimits S.length T')

/-- `test`, codac_sweepTest.cpp:26-33; the lines after the first return are never reached -/
def test (A : IArith K) (X : Bx K) (S : List (Sl K)) : TB := (fastTest A X S [(0, S.length)]).1

end Codac.Sweep
