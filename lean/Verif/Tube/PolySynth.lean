import Verif.Arith
import Verif.Tube.Model
import Mathlib.Algebra.BigOperators.Group.List.Basic

/-!
# The polynomial synthesis of a tube: model

Sources: `src/core/domains/tube/codac_TubePolynomialSynthesis.{h,cpp}`, `codac_Tube.cpp:655-694` (evaluation), 1506-1530 and 1624-1640.

The numbers are those of an ordered field: no rounding. The least squares (Eigen) are a parameter `fit`. Drawings and memory are left out.
-/

namespace Codac
namespace PSyn

variable {K : Type*} [Field K] [LinearOrder K] [IsStrictOrderedRing K]

/-- `Polynomial`, codac_TubePolynomialSynthesis.h:26-39, its coefficients in the order of `coeff` (`offset` stays 0) -/
structure Poly (K : Type*) where
  c0 : K
  c1 : K
  c2 : K

/-- `Polynomial::f` on a number, codac_TubePolynomialSynthesis.h:32-38 -/
def Poly.at (p : Poly K) (t : K) : K := p.c0 + p.c1 * t + p.c2 * t ^ 2

/-- `PolynomialFactoredForm`, codac_TubePolynomialSynthesis.h:41-45 -/
structure Fact (K : Type*) where
  a : K
  b : K
  c : K
  offset : K
deriving DecidableEq

/-- `sqr` of an interval (IBEX), exact -/
def sqr (X : Itv K) : Itv K :=
  match X with
  | .empty => ⊥
  | .mk (some l) (some h) _ =>
    if 0 ≤ l then .icc (l ^ 2) (h ^ 2) else if h ≤ 0 then .icc (h ^ 2) (l ^ 2) else .icc 0 (max (l ^ 2) (h ^ 2))
  | _ => .ofBounds (some 0) none

/-- `PolynomialFactoredForm::f`, codac_TubePolynomialSynthesis.h:47-50 -/
def Fact.f (p : Fact K) (t : Itv K) : Itv K :=
  Itv.add (Itv.add (Itv.mul (.point p.c) (sqr (Itv.sub t (.point p.a)))) (.point p.b)) (.point p.offset)

/-- the bound of an envelope that is read, codac_TubePolynomialSynthesis.cpp:132,135: `none` if it is not a number -/
def boundOf (upper : Bool) (X : Itv K) : Option K := if upper then X.ub? else X.lb?

/-- the loop of `get_bounds` on the slices from `slice(tdomain.lb())` on, codac_TubePolynomialSynthesis.cpp:125-137, with `tdomain = [a,b]` -/
def boundsLoop (upper : Bool) (a b : K) : List (Slice K) → Option (List (K × K))
  | [] => some []
  | s :: ss =>
    if max s.lb a ≤ min s.ub b then
      (boundOf upper s.cod).bind fun y => (boundsLoop upper a b ss).map fun l => (max s.lb a, y) :: (min s.ub b, y) :: l
    else some []

/-- `get_bounds`, codac_TubePolynomialSynthesis.cpp:122-140, with its assertion -/
def getBounds (T : Tube K) (upper : Bool) (a b : K) : Option (List (K × K)) :=
  (boundsLoop upper a b (seek a T.slices)).bind fun l => if l.length > 3 then some l else none

/-- the loop on the offset, codac_TubePolynomialSynthesis.cpp:178-185 -/
def offsetOf (upper : Bool) (p : Poly K) : List (K × K) → K
  | [] => 0
  | d :: l => l.foldl (fun o e => if upper then max o (e.2 - p.at e.1) else min o (e.2 - p.at e.1)) (d.2 - p.at d.1)

/-- `polynomial_factoredform`, codac_TubePolynomialSynthesis.cpp:154-188; `none` if an assertion fails -/
def factored (fit : List (K × K) → Poly K) (T : Tube K) (upper : Bool) (a b : K) : Option (Fact K) :=
  (getBounds T upper a b).bind fun l =>
    let p := fit l
    if p.c2 ≠ 0 then
      let α := -p.c1 / (2 * p.c2)
      let β := p.at α
      let x := if a = α then b else a
      some ⟨α, β, (p.at x - β) / (x - α) ^ 2, offsetOf upper p l⟩
    else none

/-- `TubePolynomialTreeSynthesis`, codac_TubePolynomialSynthesis.h:78-84: the domain and the polynomial of a leaf, the domain and the subtrees of a node -/
inductive PTree (K : Type*)
  | leaf (a b : K) (p : Fact K)
  | node (a b : K) (l r : PTree K)

/-- outcome of the constructor: not finished with the number of calls allowed, an assertion fails, or a tree -/
inductive Res (K : Type*)
  | more
  | fail
  | ok (t : PTree K)

/-- the assembly of the two subtrees -/
def Res.join (a b : K) : Res K → Res K → Res K
  | .ok l, .ok r => .ok (.node a b l r)
  | .fail, _ => .fail
  | .ok _, .fail => .fail
  | _, _ => .more

/-- the constructor of `TubePolynomialTreeSynthesis`, codac_TubePolynomialSynthesis.cpp:48-77: `LargestFirst::bisect` (IBEX) cuts at the ratio `r`
(0.45 by default). The recursion is bounded by the first argument. -/
def build (fit : List (K × K) → Poly K) (r eps : K) (T : Tube K) (upper : Bool) : Nat → K → K → Res K
  | 0, _, _ => .more
  | n + 1, a, b =>
    match factored fit T upper a b with
    | none => .fail
    | some p =>
      if |p.offset| > eps ∧ timeToIndex b T.slices > timeToIndex a T.slices + 3 then
        Res.join a b (build fit r eps T upper n a (a + r * (b - a))) (build fit r eps T upper n (a + r * (b - a)) b)
      else .ok (.leaf a b p)

/-- `TubePolynomialTreeSynthesis::operator()`, codac_TubePolynomialSynthesis.cpp:88-101 -/
def PTree.eval : PTree K → Itv K → Itv K
  | .leaf a b p, t =>
    if !t.intersects (.icc a b) then ⊥ else if Itv.icc a b ≤ t then p.f (.icc a b) else p.f (t ⊓ .icc a b)
  | .node a b l r, t => if !t.intersects (.icc a b) then ⊥ else l.eval t ⊔ r.eval t

/-- `TubePolynomialSynthesis`: the trees of the lower and of the upper bounds, codac_TubePolynomialSynthesis.cpp:22-28 -/
structure Synth (K : Type*) where
  lower : PTree K
  upper : PTree K

/-- `TubePolynomialSynthesis::operator()`, codac_TubePolynomialSynthesis.cpp:43-46 -/
def Synth.eval (S : Synth K) (t : Itv K) : Itv K := S.lower.eval t ⊔ S.upper.eval t

/-- a tube and its polynomial synthesis (`m_polynomial_synthesis`, with the mode POLYNOMIAL) -/
structure PTube (K : Type*) [LinearOrder K] where
  tube : Tube K
  synth : Synth K

/-- `Tube::enable_synthesis(SynthesisMode::POLYNOMIAL, eps)`, codac_Tube.cpp:1506-1519 and 1624-1629. `none`: an assertion fails, or not finished with
the number of calls allowed. -/
def enable (fit : List (K × K) → Poly K) (r eps : K) (n : Nat) (T : Tube K) : Option (PTube K) :=
  match build fit r eps T false n T.t0 T.tf, build fit r eps T true n T.t0 T.tf with
  | .ok l, .ok u => some ⟨T, l, u⟩
  | _, _ => none

/-- `Tube::operator()(const Interval&)` in the mode POLYNOMIAL, codac_Tube.cpp:655-678 -/
def PTube.evalItv (X : PTube K) (t : Itv K) : Itv K :=
  match t with
  | .empty => ⊥
  | .mk (some a) (some b) _ =>
    if a < X.tube.t0 ∨ b > X.tube.tf then ⊤
    else if a = b then X.tube.evalAt a
    else X.synth.eval t
  | _ => ⊤

/-- `Tube::codomain` in the mode POLYNOMIAL, codac_Tube.cpp:623-626 and 1555-1558 -/
def PTube.codomain (X : PTube K) : Itv K := X.synth.eval (.icc X.tube.t0 X.tube.tf)

/-- `Tube::set(const Interval&, int)`, codac_Tube.cpp:1161-1166, in the mode POLYNOMIAL: the slices have no reference to the synthesis
(`m_synthesis_reference` is the one of the tree, codac_Slice.cpp:455-459), which remains as it was -/
def PTube.setIdx (X : PTube K) (y : Itv K) (k : Nat) : PTube K := ⟨X.tube.setIdx y k, X.synth⟩

end PSyn
end Codac
