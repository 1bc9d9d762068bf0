import Verif.Paving.Model
import Verif.Sivia.Term

/-!
# `SepPaving`

Models `/repo/src/unsupported/paving/codac_PSetNode_impl.cpp` and `codac_SepPaving.cpp`: pavings built with a separator, each node of
the tree with two boxes `m_box_in` (what may be outside the set) and `m_box_out` (what may be inside). The bisector, the difference of
boxes and the middle of a box (IBEX) are parameters. The files (`save`, `load`), the visitors and `bisect_max` (no effect: the body of
`bisect_around` is a comment, codac_PSetNode_impl.cpp:223-258) are not modelled.
-/

set_option linter.unusedSectionVars false

namespace Codac
namespace SPav

variable {K : Type*} [Field K] [LinearOrder K] [IsStrictOrderedRing K]

/-- `PSetNode`, codac_PSetNode.h:189-193: a node has no child or two (`bisect`, `removeNode` and `clear` set both pointers) -/
inductive PNode (K : Type*) [LinearOrder K] where
  | leaf (i o : Box K)
  | node (i o : Box K) (l r : PNode K)

namespace PNode

/-- `m_box_in` -/
def inn : PNode K → Box K
  | leaf i _ => i
  | node i _ _ _ => i

/-- `m_box_out` -/
def out : PNode K → Box K
  | leaf _ o => o
  | node _ o _ _ => o

/-- `m_box_in & m_box_out` -/
def meet (t : PNode K) : Box K := t.inn.inter t.out

/-- `PSetNode::is_empty`, codac_PSetNode_impl.cpp:128-130 -/
def isEmpty (t : PNode K) : Bool := t.meet.isEmpty

/-- the same node with other boxes -/
def withBoxes (i o : Box K) : PNode K → PNode K
  | leaf _ _ => leaf i o
  | node _ _ l r => node i o l r

/-- the boxes of a node intersected with two boxes -/
def interBoxes (bi bo : Box K) (t : PNode K) : PNode K := t.withBoxes (t.inn.inter bi) (t.out.inter bo)

/-- number of nodes -/
def size : PNode K → Nat
  | leaf _ _ => 1
  | node _ _ l r => 1 + l.size + r.size

end PNode

/-- `ibex::BoolInterval` -/
inductive Ans where
  | yes | no | maybe | empty
  deriving DecidableEq

/-- `IntervalVector::contains(Vector)` (IBEX), for a point of the dimension of the box -/
def contains : Box K → List K → Bool
  | [], [] => true
  | I :: X, a :: p => decide (a ∈ I) && contains X p
  | _, _ => false

/-- `PSetNode::isInside`, codac_PSetNode_impl.cpp:186-210 -/
def isInside : PNode K → List K → Ans
  | .leaf i o, p =>
    match contains i p, contains o p with
    | true, false => .no
    | false, true => .yes
    | true, true => .maybe
    | false, false => .empty
  | .node i o l r, p =>
    match contains i p, contains o p with
    | true, false => .no
    | false, true => .yes
    | true, true =>
      if contains l.inn p || contains l.out p then isInside l p
      else if contains r.inn p || contains r.out p then isInside r p
      else .maybe
    | false, false => .empty

/-- `diam() <= p` for an interval (IBEX) -/
def diamLe (p : K) : Itv K → Bool
  | .empty => decide (0 ≤ p)
  | .mk (some a) (some b) _ => decide (b - a ≤ p)
  | .mk _ _ _ => false

/-- `max_diam() > p` (IBEX) -/
def maxDiamGt (p : K) (X : Box K) : Bool := !X.all (diamLe p)

/-- `SepPaving::Sivia`, codac_SepPaving.cpp:179-202. The nodes are taken one after the other in a queue, and the work on a node uses
only the boxes of this node: it is written here as a recursion on the tree. `fuel` bounds the depth of the tree. -/
def sivia (sep : Box K → Box K → Box K × Box K) (bis : Box K → Box K × Box K) (eps : K) : Nat → PNode K → Option (PNode K)
  | 0, _ => none
  | fuel + 1, t =>
    let i := (sep t.inn t.out).1
    let o := (sep t.inn t.out).2
    let x := i.inter o
    if !x.isEmpty && maxDiamGt eps x then
      match t with
      | .leaf _ _ =>
        let b := bis (o.inter i)
        (sivia sep bis eps fuel (.leaf b.1 b.1)).bind fun l => (sivia sep bis eps fuel (.leaf b.2 b.2)).map fun r => .node i o l r
      | .node _ _ l r => (sivia sep bis eps fuel l).bind fun l' => (sivia sep bis eps fuel r).map fun r' => .node i o l' r'
    else some (t.withBoxes i o)

/-- the constructor `SepPaving(p, sep, eps)`, codac_SepPaving.cpp:42-49 -/
def build (sep : Box K → Box K → Box K × Box K) (bis : Box K → Box K × Box K) (eps : K) (fuel : Nat) (p : Box K) : Option (PNode K) :=
  sivia sep bis eps fuel (.leaf p p)

/-- the loop of `SepPaving::separate` that computes `xborder`, codac_SepPaving.cpp:140-155; `fuel` bounds the number of iterations -/
def borderLoop (X : Box K) : Nat → List (PNode K) → Box K → Option (Box K)
  | _, [], xb => some xb
  | 0, _ :: _, _ => none
  | fuel + 1, .leaf i o :: L, xb => borderLoop X fuel L (xb.hull (X.inter (i.inter o)))
  | fuel + 1, .node _ _ l r :: L, xb =>
    let xl := l.meet.inter X
    let xr := r.meet.inter X
    let L1 := if !xl.isEmpty && !xl.isSubset xb then L ++ [l] else L
    let L2 := if !xr.isEmpty && !xr.isSubset xb then L1 ++ [r] else L1
    borderLoop X fuel L2 xb

/-- one removed box in `SepPaving::separate`, codac_SepPaving.cpp:162-174 -/
def classify (mid : Box K → List K) (t : PNode K) (r : Box K × Box K) (b : Box K) : Box K × Box K :=
  match isInside t (mid b) with
  | .yes => (r.1, r.2.hull b)
  | .no => (r.1.hull b, r.2)
  | .empty => (r.1.hull b, r.2)
  | .maybe => (r.1.hull b, r.2.hull b)

/-- `SepPaving::separate`, codac_SepPaving.cpp:131-176: the new `xin` and `xout` -/
def separate (diff : Box K → Box K → List (Box K)) (mid : Box K → List K) (t : PNode K) (xin xout : Box K) : Option (Box K × Box K) :=
  let X0 := xin.hull xout
  let X := xin.inter xout
  (borderLoop X t.size [t] (Box.empty xin.length)).map fun xb =>
    (diff X0 xb).foldl (classify mid t) (xin.inter xb, xout.inter xb)

/-- the children of a node -/
def children : PNode K → Option (PNode K × PNode K)
  | .leaf _ _ => none
  | .node _ _ l r => some (l, r)

/-- a node with these children -/
def mkNode (i o : Box K) : Option (PNode K × PNode K) → PNode K
  | none => .leaf i o
  | some (l, r) => .node i o l r

/-- `PSetNode::reunite`, codac_PSetNode_impl.cpp:132-183, with `removeNode`, 103-126 -/
def reunite (diff : Box K → Box K → List (Box K)) : PNode K → PNode K
  | .leaf i o => .leaf i o
  | .node i o l r =>
    let l' := reunite diff l
    let r' := reunite diff r
    let X0 := i.hull o
    let cin := diff X0 i
    let cout := diff X0 o
    let i' := cout.foldl (fun a b => a.hull b) (l'.inn.hull r'.inn)
    let o' := cin.foldl (fun a b => a.hull b) (l'.out.hull r'.out)
    if l'.isEmpty then
      if r'.isEmpty then .leaf i' o' else mkNode i' o' (children r')
    else if r'.isEmpty then mkNode i' o' (children l')
    else
      let X := i'.inter o'
      .node i' o' (l'.interBoxes X X) (r'.interBoxes X X)

/-- `IntervalVector::is_flat` (IBEX) -/
def isFlat (X : Box K) : Bool := X.isEmpty || X.any Itv.isDegenerated

/-- a box emptied when it is flat, codac_SepPaving.cpp:238-243 -/
def dropFlat (X : Box K) : Box K := if isFlat X then X.setEmpty else X

/-- `SepPaving::Sivia_ops`, codac_SepPaving.cpp:204-251, as a recursion on the tree (see `sivia`). The flag of the result is not in the
code: it is false when a non-empty flat box has been emptied (238-243), or when the largest width of a node with children is exactly
`eps` (neither the test of line 227 nor the one of line 247 holds). -/
def ops (sep : Box K → Box K → Box K × Box K) (bis : Box K → Box K × Box K) (eps : K) (inter : Bool) : Nat → PNode K → Option (PNode K × Bool)
  | 0, _ => none
  | fuel + 1, t =>
    let X0 := t.inn.hull t.out
    let s := sep X0 X0
    let i := if inter then t.inn.hull s.1 else t.inn.inter s.1
    let o := if inter then t.out.inter s.2 else t.out.hull s.2
    let X := i.inter o
    if !X.isEmpty && maxDiamGt eps X then
      let b := bis (o.inter i)
      let c := match t with
        | .leaf _ _ => (PNode.leaf b.1 b.1, PNode.leaf b.2 b.2)
        | .node _ _ l r => (l, r)
      let l1 := c.1.interBoxes t.inn t.out
      let r1 := c.2.interBoxes t.inn t.out
      let r2 := r1.withBoxes (dropFlat r1.inn) (dropFlat r1.out)
      let ok := (r1.inn.isEmpty || !isFlat r1.inn) && (r1.out.isEmpty || !isFlat r1.out)
      (ops sep bis eps inter fuel l1).bind fun l' => (ops sep bis eps inter fuel r2).map fun r' => (.node i o l'.1 r'.1, ok && l'.2 && r'.2)
    else if X.isEmpty || Box.maxDiamLt eps X then some (.leaf i o, true)
    else some (t.withBoxes i o, match t with | .leaf _ _ => true | .node _ _ _ _ => false)

end SPav
end Codac
