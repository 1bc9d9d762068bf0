import Verif.Paving.Model
import Mathlib.Algebra.Field.Defs
import Mathlib.Data.Int.Basic

/-!
# The topological degree on a connected subset of a paving: model

Sources: `src/core/paving/codac_ConnectedSubset.cpp`, `codac_ConnectedSubset_degree.cpp`, `codac_Paving.cpp:198-233`. The boxes have two components.
`none`: an assertion fails (or a bound used as a number is infinite).
-/

namespace Codac

variable {K : Type*} [LinearOrder K]

/-- `Paving::get_pavings_intersecting(val, b, …, true)`, codac_Paving.cpp:198-220: the intersections reduced to a point are left out -/
def Paving.intersectingWide (val : SetValue) (b : Box K) (tree : Nat) (path : List Bool) : Paving K → List (Leaf K)
  | leaf b' v => if (Box.inter b b').isEmpty || (Box.inter b b').all Itv.isDegenerated then [] else
      if v.meets val then [⟨tree, path, b', v⟩] else []
  | node b' _ l r => if (Box.inter b b').isEmpty || (Box.inter b b').all Itv.isDegenerated then [] else
      l.intersectingWide val b tree (path ++ [false]) ++ r.intersectingWide val b tree (path ++ [true])

namespace Deg

/-- a connected subset: `m_v_subset_items`, codac_ConnectedSubset.h:247, and the paving `get_paving()`, codac_ConnectedSubset.cpp:47-51 -/
structure Subset (K : Type*) [LinearOrder K] where
  items : List (Paving.Leaf K)
  root : Paving K

/-- `ConnectedSubset::box()`: the hull computed by the constructor, codac_ConnectedSubset.cpp:20-27 -/
def Subset.box (S : Subset K) : Box K := S.items.foldl (fun b u => Box.hull b u.box) (Box.empty 2)

/-- `Interval::is_interior_subset` (IBEX) -/
def interiorSub : Itv K → Itv K → Bool
  | .empty, _ => true
  | .mk .., .empty => false
  | .mk l h _, .mk l' h' _ =>
    (match l', l with | none, _ => true | some a', some a => decide (a' < a) | some _, none => false) &&
      (match h', h with | none, _ => true | some b', some b => decide (b < b') | some _, none => false)

/-- `ConnectedSubset::is_strictly_included_in_paving`, codac_ConnectedSubset.cpp:34-37. `IntervalVector::is_strict_interior_subset` (IBEX): interior
subset, and not equal. -/
def Subset.strictlyIncluded (S : Subset K) : Bool :=
  (List.zipWith interiorSub S.box S.root.box).all id && S.box != S.root.box

/-- the items and their neighbours that share a side, codac_ConnectedSubset.cpp:75-89: with `value_boundary = UNKNOWN` and `value_out = OUT`, the
values of all the calls -/
def Subset.pairs (S : Subset K) : List (Paving.Leaf K × Paving.Leaf K) :=
  S.items.flatMap fun u =>
    if u.value.meets .UNKNOWN then
      ((S.root.neighbours .OUT [] 0 u).filter fun c => !(Box.inter u.box c.box).all Itv.isDegenerated).map fun c => (u, c)
    else []

/-- `ConnectedSubset::get_boundary`, codac_ConnectedSubset.cpp:70-93 -/
def Subset.boundary (S : Subset K) : List (Box K) := S.pairs.map fun p => Box.inter p.1.box p.2.box

/-- `ConnectedSubset::box_dimension`, codac_ConnectedSubset_degree.cpp:238-245 -/
def boxDim (b : Box K) : Nat := b.countP fun I => !I.isDegenerated

/-- `get_cofaces` of an edge, codac_ConnectedSubset_degree.cpp:222-229 (and the assertion on its dimension, 164): the box without solution on its other
side -/
def Subset.coface (S : Subset K) (b : Box K) : Option (Box K) :=
  match S.root.intersectingWide .OUT b 0 [] with
  | [c] => if boxDim c.box = 2 then some c.box else none
  | _ => none

/-- `get_cofaces` of a point, codac_ConnectedSubset_degree.cpp:195-220: the two edges of the boundary, on the box `cc` if there are exactly two edges
on this box. (`max_diam` is used on boxes that contain the point.) -/
def Subset.cofaces (S : Subset K) (v cc : Box K) : Option (List (Box K)) :=
  let t := S.boundary.filter fun bi => Box.intersects bi v
  let t2 := t.filter fun bi => !(Box.inter cc bi).all Itv.isDegenerated
  let l := if t2.length = 2 then t2 else t
  if l.length = 2 then some l else none

section
variable [Zero K]

/-- sign of a component, codac_ConnectedSubset_degree.cpp:153: the middle of an interval without 0 has the sign of its bounds -/
def sign (I : Itv K) : Int :=
  if (0 : K) ∈ I then 0 else match I.lb? with
    | some a => if 0 < a then 1 else -1
    | none => -1

end

/-- the update of a sign, codac_ConnectedSubset_degree.cpp:167-172, with its assertion -/
def merge1 (a b : Int) : Option Int := if b = 0 then some a else if a ≠ 0 ∧ a ≠ b then none else some b

/-- the two components -/
def merge (a b : Int × Int) : Option (Int × Int) := (merge1 a.1 b.1).bind fun x => (merge1 a.2 b.2).map fun y => (x, y)

section
variable [Zero K] (F : Box K → Itv K × Itv K)

/-- `sign_vector` of a box, codac_ConnectedSubset_degree.cpp:149-154; `F` is the function given by the user, with two components -/
def signBox (c : Box K) : Int × Int := (sign (F c).1, sign (F c).2)

/-- `sign_vector` of an edge, codac_ConnectedSubset_degree.cpp:156-174 -/
def Subset.signEdge (S : Subset K) (b : Box K) : Option (Int × Int) := (S.coface b).bind fun c => merge (0, 0) (signBox F c)

/-- `sign_vector` of a point, codac_ConnectedSubset_degree.cpp:156-174 -/
def Subset.signPoint (S : Subset K) (v cc : Box K) : Option (Int × Int) :=
  (S.cofaces v cc).bind fun l => l.foldlM (fun a e => if boxDim e = 1 then (S.signEdge F e).bind (merge a) else none) (0, 0)

/-- `compute_local_degree` of a point, codac_ConnectedSubset_degree.cpp:100-115 with `k = 0` -/
def Subset.localPoint (S : Subset K) (v cc : Box K) : Option Int :=
  (S.signPoint F v cc).map fun s => if s.2 ≠ 1 then 0 else if s = (1, 1) then 1 else 0

/-- the two faces of a segment, codac_ConnectedSubset_degree.cpp:121-136 -/
def faces : Box K → Option (Box K × Box K)
  | [I, J] =>
    if I.isDegenerated then
      (match J.lb?, J.ub? with | some a, some b => some ([I, .point a], [I, .point b]) | _, _ => none)
    else
      (match I.lb?, I.ub? with | some a, some b => some ([.point a, J], [.point b, J]) | _, _ => none)
  | _ => none

/-- `compute_local_degree` of an edge, codac_ConnectedSubset_degree.cpp:100-140 with `k = 1` -/
def Subset.localEdge (S : Subset K) (b cc : Box K) : Option Int :=
  (S.signEdge F b).bind fun s =>
    if s.1 ≠ 1 then some 0
    else (faces b).bind fun p => (S.localPoint F p.1 cc).bind fun l => (S.localPoint F p.2 cc).map fun u => -l + u

end

/-- `ConnectedSubset::orientation(b, c, 1)`, codac_ConnectedSubset_degree.cpp:74-98. A degenerated component is compared through its bound. The two
assertions on a string never fail. -/
def orientation : Box K → Box K → Int
  | [I, J], [X, Y] =>
    let j := if X.isDegenerated then 0 else 1
    if !X.isDegenerated && I.isDegenerated && decide (I.lb? = X.lb?) then (-1) ^ j
    else if !X.isDegenerated && I.isDegenerated && decide (I.lb? = X.ub?) then (-1) ^ (j + 1)
    else if !Y.isDegenerated && J.isDegenerated && decide (J.lb? = Y.lb?) then (-1) ^ (j + 1)
    else if !Y.isDegenerated && J.isDegenerated && decide (J.lb? = Y.ub?) then (-1) ^ (j + 2)
    else 0
  | _, _ => 0

section
variable [Zero K] (F : Box K → Itv K × Itv K)

/-- the loop of `topological_degree`, codac_ConnectedSubset_degree.cpp:53-61 -/
def Subset.degreeLoop (S : Subset K) : List (Box K) → Int → Option Int
  | [], d => some d
  | b :: bs, d => if boxDim b = 1 then
      (S.coface b).bind fun c => (S.localEdge F b c).bind fun l => S.degreeLoop bs (d + orientation b c * l)
    else none

/-- `ConnectedSubset::topological_degree`, codac_ConnectedSubset_degree.cpp:38-64 -/
def Subset.degree (S : Subset K) : Option Int :=
  if !S.strictlyIncluded then some 0
  else if S.boundary.length < 4 then none
  else S.degreeLoop F S.boundary 0

/-- `ConnectedSubset::zero_proven`, codac_ConnectedSubset_degree.cpp:22-25 -/
def Subset.zeroProven (S : Subset K) : Option Bool := (S.degree F).map fun d => d != 0

end

end Deg
end Codac
