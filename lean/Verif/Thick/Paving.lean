import Verif.Thick.Boolean
import Verif.Paving.SepPavingProofs
import Verif.Arith

/-!
# Thick pavings

Models `/repo/src/unsupported/thickset/codac_ThickPaving.cpp`, `codac_ThickPaving.h` and `codac_PNode_impl.hpp`.

A thick paving is a binary tree of boxes; each node has a thick boolean. Only the drawing functions, `FastSivia`, `USivia`, the commented
functions and the distance contractor are left out.
-/

set_option linter.unusedSectionVars false

namespace Codac.TPav

open SPav

/-- `PNode<ThickBoolean>`: the box of the node, its value, and its two children when it has some, codac_PNode.h, codac_PNode_impl.hpp:16-18 -/
inductive TNode (K : Type*) [LinearOrder K] where
  | leaf (b : Box K) (v : TB)
  | node (b : Box K) (v : TB) (l r : TNode K)

section
variable {K : Type*} [LinearOrder K]

namespace TNode

/-- `PNode::getBox`, codac_PNode_impl.hpp:56-60 -/
def box : TNode K → Box K
  | leaf b _ => b
  | node b _ _ _ => b

/-- `PNode::value`, codac_PNode_impl.hpp:62-66 -/
def value : TNode K → TB
  | leaf _ v => v
  | node _ v _ _ => v

/-- the leaves, from left to right -/
def leaves : TNode K → List (Box K × TB)
  | leaf b v => [(b, v)]
  | node _ _ l r => l.leaves ++ r.leaves

/-- number of nodes -/
def size : TNode K → Nat
  | leaf _ _ => 1
  | node _ _ l r => 1 + l.size + r.size

/-- `PNode::reunite`, codac_PNode_impl.hpp:116-141 (`ThickPaving::Reunite`, codac_ThickPaving.cpp:205-209); the returned boolean is left out -/
def reunite : TNode K → TNode K
  | leaf b v => leaf b v
  | node b _ l r =>
    match l.reunite, r.reunite with
    | leaf bl vl, leaf br vr => if vl = vr then leaf b vl else node b (vl.opUnion vr) (leaf bl vl) (leaf br vr)
    | l', r' => node b (l'.value.opUnion r'.value) l' r'

/-- the loop of `ThickPaving::change`, codac_ThickPaving.cpp:157-168; the order of the leaves does not matter -/
def mapLeaves (op : TB → TB) : TNode K → TNode K
  | leaf b v => leaf b (op v)
  | node b v l r => node b v (l.mapLeaves op) (r.mapLeaves op)

/-- `ThickPaving::change`, codac_ThickPaving.cpp:156-171 -/
def change (op : TB → TB) (t : TNode K) : TNode K := (t.mapLeaves op).reunite

/-- `ThickPaving::is_empty`, codac_ThickPaving.h:120-130; the tree is also reunited -/
def isEmpty (t : TNode K) : Bool := decide (t.reunite.value = .out)

/-- the loop of `ThickPaving::check_empty`: is a leaf labelled `IN`, codac_ThickPaving.h:136-151; the order does not matter -/
def hasIn : TNode K → Bool
  | leaf _ v => decide (v = .in_)
  | node _ _ l r => l.hasIn || r.hasIn

/-- `ThickPaving::check_empty`, codac_ThickPaving.h:132-153 -/
def checkEmpty (t : TNode K) : TB := if t.isEmpty then .out else if t.reunite.hasIn then .in_ else .unk

end TNode

open TNode

/-- the loop of `ThickPaving::contains`, codac_ThickPaving.cpp:310-328; `fuel` bounds the number of iterations -/
def labelLoop (X : Box K) : Nat → List (TNode K) → TB → Option TB
  | _, [], res => some res
  | 0, _ :: _, _ => none
  | fuel + 1, leaf b v :: L, res => if isFlat (b.inter X) then labelLoop X fuel L res else labelLoop X fuel L (res.opUnion v)
  | fuel + 1, node b _ l r :: L, res => if isFlat (b.inter X) then labelLoop X fuel L res else labelLoop X fuel (L ++ [l, r]) res

/-- `ThickPaving::contains`, codac_ThickPaving.cpp:308-332 -/
def contains (t : TNode K) (X : Box K) : Option TB :=
  (labelLoop X t.size [t] .empty).map fun res => if X.isSubset t.box then res else TB.maybe.opUnion res

/-- the loops of `ThickPaving::ctcOutside` (`drop` is `OUT`) and `ctcInside` (`drop` is `IN`), codac_ThickPaving.cpp:90-105, 113-128 -/
def hullLoop (drop : TB) (X : Box K) : Nat → List (TNode K) → Box K → Option (Box K)
  | _, [], res => some res
  | 0, _ :: _, _ => none
  | fuel + 1, leaf b v :: L, res =>
    if isFlat (b.inter X) then hullLoop drop X fuel L res else hullLoop drop X fuel L (if v = drop then res else res.hull b)
  | fuel + 1, node b _ l r :: L, res =>
    if isFlat (b.inter X) then hullLoop drop X fuel L res else hullLoop drop X fuel (L ++ [l, r]) res

/-- `ThickPaving::ctcOutside` and `ctcInside`, codac_ThickPaving.cpp:86-107, 109-130 -/
def ctcDrop (drop : TB) (t : TNode K) (X : Box K) : Option (Box K) :=
  if X.isSubset t.box then (hullLoop drop X t.size [t] (Box.empty X.length)).map X.inter else some X

/-- `ThickPaving::ctcOutside`, codac_ThickPaving.cpp:86-107 -/
def ctcOutside (t : TNode K) (X : Box K) : Option (Box K) := ctcDrop .out t X

/-- `ThickPaving::ctcInside`, codac_ThickPaving.cpp:109-130 -/
def ctcInside (t : TNode K) (X : Box K) : Option (Box K) := ctcDrop .in_ t X

end

section
variable {K : Type*} [Field K] [LinearOrder K] [IsStrictOrderedRing K]

open TNode

/-- `T + b` and `T - b` for boxes (IBEX): empty when one of the two is -/
def zipBox (f : Itv K → Itv K → Itv K) (X Y : Box K) : Box K :=
  if X.isEmpty || Y.isEmpty then X.setEmpty else List.zipWith f X Y

/-- the body of the loop of `ThickPaving::ctcTransform` on a leaf labelled `IN`, codac_ThickPaving.cpp:143-147 -/
def transformLeaf (A : IArith K) (B : TNode K) (b : Box K) (T : Box K) : Option (Box K) :=
  (ctcOutside B (zipBox A.add T b)).map fun Y => T.inter (zipBox A.sub Y b)

/-- the loop of `ThickPaving::ctcTransform`, codac_ThickPaving.cpp:136-152 -/
def transformLoop (A : IArith K) (B : TNode K) : Nat → List (TNode K) → Box K → Option (Box K)
  | _, [], T => some T
  | 0, _ :: _, _ => none
  | fuel + 1, leaf b v :: L, T => if v = .in_ then (transformLeaf A B b T).bind (transformLoop A B fuel L) else transformLoop A B fuel L T
  | fuel + 1, node _ _ l r :: L, T => transformLoop A B fuel (L ++ [l, r]) T

/-- `ThickPaving::ctcTransform`, codac_ThickPaving.cpp:133-153 -/
def ctcTransform (A : IArith K) (t B : TNode K) (T : Box K) : Option (Box K) := transformLoop A B t.size [t] T

/-- the new value of a node in `ThickPaving::Sivia`, codac_ThickPaving.cpp:1171-1182 -/
def newValue (test : Box K → TB) (eps : K) (op : TB → TB → TB) (b : Box K) (v : TB) : TB :=
  if op v (test b) = .empty ∧ maxDiamGt eps b = true then .unk else op v (test b)

/-- is the node cut in `ThickPaving::Sivia`, codac_ThickPaving.cpp:1187 -/
def goOn (eps : K) (b : Box K) (w : TB) : Bool := !w.isSingleton && maxDiamGt eps b

/-- `ThickPaving::Sivia`, codac_ThickPaving.cpp:1155-1200. The nodes are taken one after the other in a queue, and the work on a node uses
only the box and the value of this node: it is written here as a recursion on the tree. The children created by `bisect` have the value
of the node before it is updated (codac_PNode_impl.hpp:143-152). `fuel` bounds the depth of the tree. `Sivia_visu` (568-635) is the same with drawings. -/
def sivia (test : Box K → TB) (bis : Box K → Box K × Box K) (eps : K) (op : TB → TB → TB) : Nat → TNode K → Option (TNode K)
  | 0, _ => none
  | fuel + 1, leaf b v =>
    if goOn eps b (newValue test eps op b v) then
      (sivia test bis eps op fuel (leaf (bis b).1 v)).bind fun l =>
        (sivia test bis eps op fuel (leaf (bis b).2 v)).bind fun r => some (node b (newValue test eps op b v) l r)
    else some (leaf b (newValue test eps op b v))
  | fuel + 1, node b v l r =>
    if goOn eps b (newValue test eps op b v) then
      (sivia test bis eps op fuel l).bind fun l' =>
        (sivia test bis eps op fuel r).bind fun r' => some (node b (newValue test eps op b v) l' r')
    else some (leaf b (newValue test eps op b v))

/-- the constructor `ThickPaving(p, pdc, eps, op)`, codac_ThickPaving.cpp:41-58 -/
def build (test : Box K → TB) (bis : Box K → Box K × Box K) (eps : K) (op : TB → TB → TB) (fuel : Nat) (p : Box K) : Option (TNode K) :=
  sivia test bis eps op fuel (leaf p .maybe)

/-- `vali_mid` in `ThickPaving::erode`, codac_ThickPaving.cpp:1385, 1425 -/
def midValue (test : Box K → TB) (mid : Box K → List K) (b : Box K) : TB :=
  if (test b).isSingleton then test b else test ((mid b).map Itv.point)

/-- the first loop of `ThickPaving::erode`, codac_ThickPaving.cpp:1381-1405, as a recursion on the tree (see `sivia`), with `find_in`. The loop stops at
the first node which sets `find_in`; the tree is used afterwards only when no node does. -/
def erode1 (test : Box K → TB) (mid : Box K → List K) (bis : Box K → Box K × Box K) (eps : K) : Nat → TNode K → Option (TNode K × Bool)
  | 0, _ => none
  | fuel + 1, t =>
    if (midValue test mid t.box).opUpper = .in_ then some (t, true)
    else if goOn eps t.box (test t.box).opUpper then
      match t with
      | leaf b v =>
        (erode1 test mid bis eps fuel (leaf (bis b).1 v)).bind fun l =>
          (erode1 test mid bis eps fuel (leaf (bis b).2 v)).bind fun r => some (node b (test b) l.1 r.1, l.2 || r.2)
      | node b _ l r =>
        (erode1 test mid bis eps fuel l).bind fun l => (erode1 test mid bis eps fuel r).bind fun r => some (node b (test b) l.1 r.1, l.2 || r.2)
    else some (leaf t.box (test t.box), false)

/-- the second loop of `ThickPaving::erode`, codac_ThickPaving.cpp:1411-1448, from a tree reduced to its root: does it return `OUT` -/
def erode2 (test : Box K → TB) (mid : Box K → List K) (bis : Box K → Box K × Box K) (eps : K) : Nat → Box K → Option Bool
  | 0, _ => none
  | fuel + 1, b =>
    if test b = .in_ ∨ (midValue test mid b).opLower = .in_ then some true
    else if goOn eps b (test b).opLower then
      (erode2 test mid bis eps fuel (bis b).1).bind fun x => (erode2 test mid bis eps fuel (bis b).2).bind fun y => some (x || y)
    else some false

/-- `ThickPaving::erode`, codac_ThickPaving.cpp:1374-1450: the returned value -/
def erode (test : Box K → TB) (mid : Box K → List K) (bis : Box K → Box K × Box K) (eps : K) (fuel : Nat) (t : TNode K) : Option TB :=
  (erode1 test mid bis eps fuel t).bind fun p =>
    if !p.2 && decide (p.1.checkEmpty = .out) then some .in_
    else (erode2 test mid bis eps fuel t.box).map fun f => if f then .out else .unk

end

end Codac.TPav
