import Verif.Thick.Paving

/-!
# `ThickPaving::FastSivia`, and the erosion and dilation of the Python module

The loop works on nodes of the tree taken in a queue, and stops at the first node labelled `IN`. The nodes of the queue are written here as the paths
from the root: `false` for `left()`, `true` for `right()`.
-/

namespace Codac.TPav

open TNode

section
variable {K : Type*} [LinearOrder K]

/-- the node pointed at by a path, `PNode::left` and `PNode::right`, codac_PNode_impl.hpp:82-92 -/
def TNode.at? : TNode K → List Bool → Option (TNode K)
  | t, [] => some t
  | leaf _ _, _ :: _ => none
  | node _ _ l _, false :: p => l.at? p
  | node _ _ _ r, true :: p => r.at? p

/-- the tree after a change of the node pointed at by a path -/
def TNode.put : TNode K → List Bool → TNode K → TNode K
  | _, [], s => s
  | leaf b v, _ :: _, _ => leaf b v
  | node b v l r, false :: p, s => node b v (l.put p s) r
  | node b v l r, true :: p, s => node b v l (r.put p s)

/-- `PNode::setValue`, codac_PNode_impl.hpp:94-103: the children are left as they are -/
def TNode.setValue : TNode K → TB → TNode K
  | leaf b _, w => leaf b w
  | node b _ l r, w => node b w l r

/-- `bisect` of a leaf, then `setValue`; a node which has children keeps them: codac_ThickPaving.cpp:1338-1345, 1353 -/
def TNode.cutWith (bis : Box K → Box K × Box K) : TNode K → TB → TNode K
  | leaf b v, w => node b w (leaf (bis b).1 v) (leaf (bis b).2 v)
  | node b _ l r, w => node b w l r

end

section
variable {K : Type*} [Field K] [LinearOrder K] [IsStrictOrderedRing K]

/-- the condition of the `break` of `ThickPaving::FastSivia`: the box is `IN`, or the test of its middle is, codac_ThickPaving.cpp:1323-1328 -/
def stopsAt (test : Box K → TB) (mid : Box K → List K) (op : TB → TB → TB) (b : Box K) (v : TB) : Bool :=
  decide (op v (test b) = .in_) || decide (test ((mid b).map Itv.point) = .in_)

/-- the loop of `ThickPaving::FastSivia`, codac_ThickPaving.cpp:1317-1355. `fuel` bounds the number of iterations -/
def fastSivLoop (test : Box K → TB) (mid : Box K → List K) (bis : Box K → Box K × Box K) (eps : K) (op : TB → TB → TB) :
    Nat → List (List Bool) → TNode K → Option (TNode K)
  | _, [], t => some t
  | 0, _ :: _, _ => none
  | fuel + 1, p :: L, t =>
    (t.at? p).bind fun n =>
      if stopsAt test mid op n.box n.value then some (t.put p (n.setValue .in_))
      else if goOn eps n.box (op n.value (test n.box)) then
        fastSivLoop test mid bis eps op fuel (L ++ [p ++ [false], p ++ [true]]) (t.put p (n.cutWith bis (op n.value (test n.box))))
      else fastSivLoop test mid bis eps op fuel L (t.put p (leaf n.box (op n.value (test n.box))))

/-- `ThickPaving::FastSivia`, codac_ThickPaving.cpp:1312-1359; the version with a `ThickTest` (1305-1310) is the same -/
def fastSivia (test : Box K → TB) (mid : Box K → List K) (bis : Box K → Box K × Box K) (eps : K) (op : TB → TB → TB) (fuel : Nat) (t : TNode K) :
    Option (TNode K) := fastSivLoop test mid bis eps op fuel [[]] t

/-- `ThickErode::test`, python/src/unsupported/thickset/codac_thickset.cpp:158-183. `testA` is the test of `A`, `testB` the test of `B` after
`setParams(X)`, `eps` the value of `max(X.max_diam()/8, eps_max)`. The count of the leaves is left out. -/
def erodeTest (testA testB : Box K → TB) (mid : Box K → List K) (bis : Box K → Box K × Box K) (eps : K) (fuel : Nat) (X0 : Box K) : Option TB :=
  (fastSivia (fun b => (testB b).opLower.opRestrict (testA b)) mid bis eps TB.opInter fuel (leaf X0 .maybe)).bind fun lb =>
    (fastSivia (fun b => (testB b).opUpper.opRestrict (testA b)) mid bis eps TB.opInter fuel (leaf X0 .maybe)).map fun ub =>
      if ub.checkEmpty = .out then .in_ else if lb.checkEmpty = .in_ then .out else .unk

/-- `- box`, the opposite of the intervals (IBEX) -/
def negBox (b : Box K) : Box K := b.map fun
  | .empty => .empty
  | .mk lo hi _ => Itv.ofBounds (hi.map Neg.neg) (lo.map Neg.neg)

/-- `ThickDilate::test`, `ThickNot`, `ThickMinus`, python/src/unsupported/thickset/codac_thickset.cpp:185-216 -/
def dilateTest (testA testB : Box K → TB) (mid : Box K → List K) (bis : Box K → Box K × Box K) (eps : K) (fuel : Nat) (X0 : Box K) : Option TB :=
  (erodeTest (fun b => (testA b).opNot) (fun b => testB (negBox b)) mid bis eps fuel X0).map TB.opNot

end

end Codac.TPav
