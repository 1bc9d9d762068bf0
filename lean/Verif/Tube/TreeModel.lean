import Verif.Tube.Integral

/-!
# The binary-tree synthesis of a tube

Source: `src/core/domains/tube/codac_TubeTreeSynthesis.{h,cpp}`; notifications sent by the slice setters in
`src/core/domains/slice/codac_Slice.cpp:443-518`.

A leaf points to a slice, represented here by the index of the slice in the tube; parent pointers become the position
in the tree.  The caches and their flags are part of the state, as the queries of the code modify them.
-/

set_option linter.unusedSectionVars false

namespace Codac

/-- the cached values of a node, codac_TubeTreeSynthesis.h: `m_codomain`, `m_codomain_bounds`, `m_partial_primitive`,
`m_values_update_needed`, `m_integrals_update_needed` -/
structure Cache (K : Type*) [LinearOrder K] where
  cod : Itv K
  bnd : Itv K × Itv K
  prim : Itv K × Itv K
  vneed : Bool
  ineed : Bool
deriving DecidableEq

/-- `TubeTreeSynthesis`: a leaf refers to the slice of index `k`; `[lb,ub]` is `m_tdomain`, `n` is `m_nb_slices` -/
inductive TTree (K : Type*) [LinearOrder K] where
  | leaf (k : Nat) (lb ub : K) (c : Cache K)
  | node (lb ub : K) (n : Nat) (c : Cache K) (l r : TTree K)
deriving DecidableEq

namespace TTree
section
variable {K : Type*} [LinearOrder K]

/-- default member values: a default `Interval` is the whole line, both flags are raised -/
def initCache : Cache K := ⟨⊤, (⊤, ⊤), (⊤, ⊤), true, true⟩

def lb : TTree K → K
  | leaf _ a _ _ => a
  | node a _ _ _ _ _ => a

def ub : TTree K → K
  | leaf _ _ b _ => b
  | node _ b _ _ _ _ => b

/-- `nb_slices()`, codac_TubeTreeSynthesis.cpp:77-80 -/
def nb : TTree K → Nat
  | leaf _ _ _ _ => 1
  | node _ _ n _ _ _ => n

def cache : TTree K → Cache K
  | leaf _ _ _ c => c
  | node _ _ _ c _ _ => c

/-- The constructor, codac_TubeTreeSynthesis.cpp:18-58, on the slices of indices `k0, ..., kf`;
`kmid = k0 + ceil(n/2) - 1`, so that the first subtree has `(n+1)/2` slices. -/
def build (k0 : Nat) (ss : List (Slice K)) (h : ss ≠ []) : TTree K :=
  if hn : ss.length ≤ 1 then leaf k0 (ss.head h).lb (ss.head h).ub initCache
  else
    let m := (ss.length + 1) / 2
    let l := build k0 (ss.take m) (by
      intro h'; have := congrArg List.length h'; simp only [List.length_take, List.length_nil] at this; omega)
    let r := build (k0 + m) (ss.drop m) (by
      intro h'; have := congrArg List.length h'; simp only [List.length_drop, List.length_nil] at this; omega)
    node (min l.lb r.lb) (max l.ub r.ub) ss.length initCache l r
termination_by ss.length
decreasing_by
  · simp only [List.length_take]; omega
  · simp only [List.length_drop]; omega

/-- `time_to_index(t)`, codac_TubeTreeSynthesis.cpp:203-218 -/
def timeToIndex (t : K) : TTree K → Nat
  | leaf _ _ b _ => if t = b then 1 - 1 else 0
  | node _ b n _ l r =>
    if t = b then n - 1
    else if t < l.ub then timeToIndex t l
    else timeToIndex t r + l.nb

/-- `slice(int)`, codac_TubeTreeSynthesis.cpp:226-243: the index of the slice pointed to by the leaf that is reached -/
def sliceIdx (i : Nat) : TTree K → Nat
  | leaf k _ _ _ => k
  | node _ _ n _ l r => if i < (n + 1) / 2 then sliceIdx i l else sliceIdx (i - (n + 1) / 2) r

/-- `slice(double)`, codac_TubeTreeSynthesis.cpp:251-266 -/
def sliceAtTime (t : K) : TTree K → Nat
  | leaf k _ _ _ => k
  | node _ _ _ _ l r => if t < l.ub then sliceAtTime t l else sliceAtTime t r

/-! ### Cached values -/

/-- `request_values_update()` called by the slice of index `k` on its leaf, codac_TubeTreeSynthesis.cpp:268-277; the
second component tells whether the parent is notified -/
def reqValues (k : Nat) : TTree K → TTree K × Bool
  | leaf k' a b c =>
    if k = k' then
      if c.vneed then (leaf k' a b c, false) else (leaf k' a b { c with vneed := true }, true)
    else (leaf k' a b c, false)
  | node a b n c l r =>
    let l' := reqValues k l
    let r' := reqValues k r
    if (l'.2 || r'.2) && !c.vneed then (node a b n { c with vneed := true } l'.1 r'.1, true)
    else (node a b n c l'.1 r'.1, false)

/-- `update_values()`, codac_TubeTreeSynthesis.cpp:322-350; `sl k` is the current slice of index `k` -/
def updateValues (sl : Nat → Slice K) : TTree K → TTree K
  | leaf k a b c =>
    if c.vneed then
      let s := sl k
      leaf k a b { c with
        cod := s.cod
        bnd := (bound s.cod.lb? ⊔ bound s.inG.lb? ⊔ bound s.outG.lb?, bound s.cod.ub? ⊔ bound s.inG.ub? ⊔ bound s.outG.ub?)
        vneed := false }
    else leaf k a b c
  | node a b n c l r =>
    if c.vneed then
      let l' := updateValues sl l
      let r' := updateValues sl r
      node a b n { c with
        cod := l'.cache.cod ⊔ r'.cache.cod
        bnd := (l'.cache.bnd.1 ⊔ r'.cache.bnd.1, l'.cache.bnd.2 ⊔ r'.cache.bnd.2)
        vneed := false } l' r'
    else node a b n c l r
where
  /-- a bound seen as an interval; an infinite bound is not a real number and gives the empty interval -/
  bound (x : Option K) : Itv K := match x with | some x => .point x | none => ⊥

/-- `codomain()` called on a node, codac_TubeTreeSynthesis.cpp:139-144. `n` is the node in the current tree and `n'` the
same node after `root()->update_values()`; the flag tells whether this update takes place. -/
def codomainOf (n n' : TTree K) : Itv K × Bool := if n.cache.vneed then (n'.cache.cod, true) else (n.cache.cod, false)

/-- `operator()(const Interval&)` for `[a,b]` with `a < b`, codac_TubeTreeSynthesis.cpp:82-112; `ev` is the evaluation
of the tube at an instant. As in `codomainOf`, the two trees are traversed together; once an update has taken place
the updated tree is the current one, whose nodes are not flagged and whose unflagged nodes are those of the old one. -/
def evalItv (ev : K → Itv K) (a b : K) : TTree K → TTree K → Itv K × Bool
  | leaf k x y c, n' =>
    if a < x ∨ y < b then (⊤, false)
    else if a = b then (ev a, false)
    else codomainOf (leaf k x y c) n'
  | node x y n c l r, n' =>
    if a < x ∨ y < b then (⊤, false)
    else if a = b then (ev a, false)
    else if a = x ∧ b = y then codomainOf (node x y n c l r) n'
    else
      match n' with
      | leaf _ _ _ _ => (⊤, false)   -- not reachable: same shape
      | node _ _ _ _ l' r' =>
        -- intersection of `[a,b]` with the domains of the subtrees; an empty one counts as degenerate
        let b1 := min b l.ub
        let a2 := max a r.lb
        if b1 ≤ a ∧ ¬ (b ≤ a2) then evalItv ev a2 b r r'
        else if b ≤ a2 ∧ ¬ (b1 ≤ a) then evalItv ev a b1 l l'
        else
          let p := evalItv ev a b1 l l'
          let q := evalItv ev a2 b r r'
          (p.1 ⊔ q.1, p.2 || q.2)

/-- `codomain_bounds()` of the root, codac_TubeTreeSynthesis.cpp:146-151 -/
def bounds (sl : Nat → Slice K) (root : TTree K) : (Itv K × Itv K) × TTree K :=
  let root' := if root.cache.vneed then updateValues sl root else root
  (root'.cache.bnd, root')

/-- `invert(y, [a,b])`, codac_TubeTreeSynthesis.cpp:114-137, on a tree whose values are up to date. `n` holds the node.
The test of line 125 compares bounds; it returns the same `search_tdomain` as the recursion would enclose. -/
def invert (y : Itv K) : TTree K → Itv K → Itv K
  | leaf _ x z c, S =>
    if S.isEmpty then ⊥
    else if exceeds S x z then ⊤
    else if c.cod.intersects y then S
    else ⊥
  | node x z _ c l r, S =>
    if S.isEmpty then ⊥
    else if exceeds S x z then ⊤
    else if c.cod.intersects y then
      if between c.bnd y then S
      else invert y l (S ⊓ .icc l.lb l.ub) ⊔ invert y r (S ⊓ .icc r.lb r.ub)
    else ⊥
where
  /-- `codomain_bounds().first.ub() < y.lb() && codomain_bounds().second.lb() > y.ub()` -/
  between (p : Itv K × Itv K) (y : Itv K) : Bool :=
    match p.1.ub?, y.lb?, p.2.lb?, y.ub? with
    | some u, some l, some l', some u' => decide (u < l ∧ u' < l')
    | _, _, _, _ => false

end

section
variable {K : Type*} [Field K] [LinearOrder K] [IsStrictOrderedRing K]

/-- `request_integrals_update(propagate)` on the leaf of the slice of index `k` and on its ancestors,
codac_TubeTreeSynthesis.cpp:279-287; second component: the parent is notified -/
def reqIntegral1 (k : Nat) : TTree K → TTree K × Bool
  | leaf k' a b c =>
    if k = k' then
      if c.ineed then (leaf k' a b c, false) else (leaf k' a b { c with ineed := true }, true)
    else (leaf k' a b c, false)
  | node a b n c l r =>
    let l' := reqIntegral1 k l
    let r' := reqIntegral1 k r
    if (l'.2 || r'.2) && !c.ineed then (node a b n { c with ineed := true } l'.1 r'.1, true)
    else (node a b n c l'.1 r'.1, false)

/-- the flag `m_integrals_update_needed` of the leaf of index `k` -/
def leafIneed (k : Nat) : TTree K → Bool
  | leaf k' _ _ c => if k = k' then c.ineed else false
  | node _ _ _ _ l r => leafIneed k l || leafIneed k r

/-- `request_integrals_update()` of the slice of index `k`, codac_TubeTreeSynthesis.cpp:279-298: nothing if the leaf is
already flagged, otherwise the leaf and all the following ones -/
def reqIntegrals (k : Nat) (t : TTree K) : TTree K :=
  if leafIneed k t then t
  else (List.range' k (t.nb - k)).foldl (fun t i => (reqIntegral1 i t).1) t

/-- `m_partial_primitive` of the successive slices, codac_TubeTreeSynthesis.cpp:363-375. Bounded envelopes only: an
unbounded envelope, whose bounds would go through `∞ - ∞`, is given the whole line. -/
def leafPrims (A : IArith K) : Itv K → List (Slice K) → List (Itv K × Itv K)
  | _, [] => []
  | sum, s :: ss =>
    let dt := s.ub - s.lb
    let p :=
      match s.cod, A.add sum (A.mul s.cod (.icc 0 dt)) with
      | .empty, _ => (⊥, ⊥)
      | _, .empty => (⊥, ⊥)
      | .mk (some l) (some h) _, .mk (some i) (some j) _ => (.icc i (i + |l * dt|), .icc (j - |h * dt|) j)
      | _, _ => (⊤, ⊤)
    p :: leafPrims A (A.add sum (A.mul s.cod (.point dt))) ss

/-- step 1 of `update_integrals()`: the leaves, codac_TubeTreeSynthesis.cpp:363-375 -/
def setPrims (ps : List (Itv K × Itv K)) : TTree K → TTree K
  | leaf k a b c => leaf k a b { c with prim := (ps[k]?).getD c.prim, ineed := false }
  | node a b n c l r => node a b n c (setPrims ps l) (setPrims ps r)

/-- step 2 of `update_integrals()`, codac_TubeTreeSynthesis.cpp:378-390, guarded by `m_values_update_needed` (line 354) -/
def upPrims : TTree K → TTree K
  | leaf k a b c => leaf k a b c
  | node a b n c l r =>
    if c.vneed then
      let l' := upPrims l
      let r' := upPrims r
      node a b n { c with
        prim := (l'.cache.prim.1 ⊔ r'.cache.prim.1, l'.cache.prim.2 ⊔ r'.cache.prim.2)
        ineed := false } l' r'
    else node a b n c l r

/-- `update_integrals()` on the root, codac_TubeTreeSynthesis.cpp:352-392 -/
def updateIntegrals (A : IArith K) (ss : List (Slice K)) (root : TTree K) : TTree K :=
  if root.cache.vneed then upPrims (setPrims (leafPrims A (.point 0) ss) root) else root

/-- `m_partial_primitive` of the leaf of index `k` -/
def leafPrim (k : Nat) : TTree K → Itv K × Itv K
  | leaf _ _ _ c => c.prim
  | node _ _ n _ l r => if k < (n + 1) / 2 then leafPrim k l else leafPrim (k - (n + 1) / 2) r

/-- `partial_primitive_bounds([a,b])`, `a < b`, codac_TubeTreeSynthesis.cpp:512-552, on an up to date tree -/
def primBounds (a b : K) : TTree K → Itv K × Itv K
  | leaf _ x y c => if max a x ≤ min b y then c.prim else (⊥, ⊥)
  | node x y _ c l r =>
    if max a x ≤ min b y then
      if a ≤ x ∧ y ≤ b then c.prim
      else
        -- [a1,b1] and [a2,b2]: intersections with the domains of the subtrees
        let a1 := max (max a x) l.lb
        let b1 := min (min b y) l.ub
        let a2 := max (max a x) r.lb
        let b2 := min (min b y) r.ub
        if b1 ≤ a1 ∧ b2 ≤ a2 then
          (l.cache.prim.1 ⊓ r.cache.prim.1, l.cache.prim.2 ⊓ r.cache.prim.2)
        else if b1 ≤ a1 then primBounds a2 b2 r
        else if b2 ≤ a2 then primBounds a1 b1 l
        else
          let p := primBounds a1 b1 l
          let q := primBounds a2 b2 r
          (p.1 ⊔ q.1, p.2 ⊔ q.2)
    else (⊥, ⊥)

/-- Part A of `partial_integral`, codac_TubeTreeSynthesis.cpp:413-455, on the slice `s = slice(index_lb)` with
primitive `p` -/
def partA (a b : K) (s : Slice K) (p : Itv K × Itv K) : Itv K × Itv K :=
  if a ≤ s.lb ∧ s.ub ≤ b then p
  else
    let e := min b s.ub
    match p.1.lb?, p.2.ub?, s.cod.lb?, s.cod.ub? with
    | some pl, some pu, some yl, some yu =>
      (if yl < 0 then .icc (pl - yl * (s.ub - e)) (pl - yl * (s.ub - a))
        else if 0 < yl then .icc (pl + yl * (a - s.lb)) (pl + yl * (e - s.lb))
        else ⊥,
       if yu < 0 then .icc (pu + yu * (e - s.lb)) (pu + yu * (a - s.lb))
        else if 0 < yu then .icc (pu - yu * (s.ub - a)) (pu - yu * (s.ub - e))
        else ⊥)
    | _, _, _, _ => (⊤, ⊤)

/-- Part C of `partial_integral`, codac_TubeTreeSynthesis.cpp:465-507, on the slice `s = slice(index_ub)` -/
def partC (b : K) (s : Slice K) (p : Itv K × Itv K) : Itv K × Itv K :=
  if s.ub ≤ b then p
  else
    match p.1.lb?, p.2.ub?, s.cod.lb?, s.cod.ub? with
    | some pl, some pu, some yl, some yu =>
      (if yl < 0 then .icc (pl - yl * (s.ub - b)) (pl - yl * (s.ub - s.lb))
        else if 0 < yl then .icc pl (pl + yl * (b - s.lb))
        else ⊥,
       if yu < 0 then .icc (pu + yu * (b - s.lb)) pu
        else if 0 < yu then .icc (pu - yu * (s.ub - s.lb)) (pu - yu * (s.ub - b))
        else ⊥)
    | _, _, _, _ => (⊤, ⊤)

/-- the empty / unbounded tests of lines 417-421 and 470-474 -/
def checkPrim (p : Itv K × Itv K) (k : Itv K × Itv K) : Itv K × Itv K :=
  if p.1.isEmpty || p.2.isEmpty then (⊥, ⊥)
  else if p.1.isUnbounded || p.2.isUnbounded then (⊤, ⊤)
  else k

/-- `partial_integral([a,b])` once the primitives are up to date, codac_TubeTreeSynthesis.cpp:401-509 -/
def integralAns (ss : List (Slice K)) (root : TTree K) (a b : K) : Itv K × Itv K :=
  let ka := timeToIndex a root
  let kb := timeToIndex b root
  match ss[ka]?, ss[kb]? with
  | some sa, some sb =>
    let pa := leafPrim ka root
    checkPrim pa <|
      let qa := partA a b sa pa
      let qb := if ka + 1 < kb then primBounds sa.ub sb.lb root else (⊥, ⊥)
      if ka = kb then qa
      else
        let pc := leafPrim kb root
        checkPrim pc <|
          let qc := partC b sb pc
          (qa.1 ⊔ qb.1 ⊔ qc.1, qa.2 ⊔ qb.2 ⊔ qc.2)
  | _, _ => (⊤, ⊤)  -- not reachable: indices in range

/-- `partial_integral([a,b])`, codac_TubeTreeSynthesis.cpp:394-510. Returns the pair and the tree after the call.
Between lines 398 and 509 the nodes whose flag is still raised call `root()->update_integrals()` again, which recomputes
the same values: this is not repeated here. -/
def partialIntegral (A : IArith K) (ss : List (Slice K)) (root : TTree K) (a b : K) : (Itv K × Itv K) × TTree K :=
  let root := if root.cache.ineed then updateIntegrals A ss root else root
  (integralAns ss root a b, root)

end
end TTree
end Codac
