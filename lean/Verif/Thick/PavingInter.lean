import Verif.Thick.Paving
import Verif.Thick.Box

/-!
# Thick pavings: the value of a thick box

Models `ThickPaving::Intersect` and the functions it uses, `/repo/src/unsupported/thickset/codac_ThickPaving.cpp:262-278, 334-563`.

The argument is a thick box, given by the box `Xm` of its possible lower corners and the box `Xp` of its possible upper corners.
-/

set_option linter.unusedSectionVars false

namespace Codac.TPav

open SPav TNode

section
variable {K : Type*} [LinearOrder K]

/-- the loop of `ThickPaving::Inside2`, codac_ThickPaving.cpp:340-354: the union of the labels, and the list of the leaves -/
def insideLoop (X : Box K) : Nat → List (TNode K) → TB → List (Box K × TB) → Option (TB × List (Box K × TB))
  | _, [], res, lst => some (res, lst)
  | 0, _ :: _, _, _ => none
  | fuel + 1, leaf b v :: L, res, lst =>
    if isFlat (b.inter X) then insideLoop X fuel L res lst else insideLoop X fuel L (res.opUnion v) (lst ++ [(b, v)])
  | fuel + 1, node b _ l r :: L, res, lst =>
    if isFlat (b.inter X) then insideLoop X fuel L res lst else insideLoop X fuel (L ++ [l, r]) res lst

/-- `ThickPaving::Inside2`, codac_ThickPaving.cpp:334-361 -/
def inside2 (t : TNode K) (X : Box K) : Option (TB × List (Box K × TB)) :=
  (insideLoop X t.size [t] .empty []).map fun p => (if p.1 = .empty then .out else p.1, p.2)

/-- `ThickPaving::Xm_inter_Xp_inside_P`, codac_ThickPaving.cpp:410-422; the assertion `res != EMPTY` is not modelled, the box is not used -/
def crossValue (lst : List (Box K × TB)) : TB :=
  let res := lst.foldl (fun res p => res.opUnion p.2) .empty
  if res = .in_ then .maybeIn else if res = .out then .maybeOut else res

/-- one component of `X` in `ThickPaving::Intersect_fct`, codac_ThickPaving.cpp:515-516 -/
def innerItv (I J : Itv K) : Itv K :=
  if (I ⊓ J).isEmpty then
    match I.ub?, J.lb? with
    | some a, some b => Itv.icc a b
    | _, _ => ⊥
  else I ⊓ J

/-- `X` in `ThickPaving::Intersect_fct`, codac_ThickPaving.cpp:512-517 -/
def innerBox (Xm Xp : Box K) : Box K := List.zipWith innerItv Xm Xp

/-- the loop of `projection_is_include` on the sorted list, codac_ThickPaving.cpp:398-407; `diff` is `Interval::diff` (IBEX) -/
def coverLoop (diff : Itv K → Itv K → Itv K × Itv K) : Itv K → List (Itv K) → Bool
  | I, [] => I.isEmpty
  | I, J :: l => if I.isEmpty then true else coverLoop diff ((I ⊓ (diff I J).1) ⊔ (I ⊓ (diff I J).2)) l

/-- comparison of the lower bounds, codac_ThickPaving.cpp:390-392 -/
def lbLe (I J : Itv K) : Prop :=
  match I.lb?, J.lb? with
  | none, _ => True
  | some _, none => False
  | some a, some b => a ≤ b

instance : DecidableRel (lbLe (K := K)) := fun I J => by unfold lbLe; split <;> infer_instance

/-- `projection_is_include`, codac_ThickPaving.cpp:388-408: only the component `i` of the boxes is used, the list of these components is sorted; the order of equal
lower bounds is not specified by `std::sort` -/
def projInclude (diff : Itv K → Itv K → Itv K × Itv K) (X : Box K) (lst : List (Box K)) (i : Nat) : Bool :=
  if lst.isEmpty then false else coverLoop diff (X.getD i ⊥) ((lst.map fun b => b.getD i ⊥).insertionSort lbLe)

/-- the answer of `fastIntersection2` and of `Intersect_fct` from their two booleans, codac_ThickPaving.cpp:376-384, 552-554 -/
def fromBools (i o : Bool) : TB := if i && o then .maybe else if i then .maybeIn else if o then .maybeOut else .unk

/-- the third case of `ThickPaving::Intersect_fct`, codac_ThickPaving.cpp:526-555 -/
def mixedValue (diff : Itv K → Itv K → Itv K × Itv K) (Xm Xp : Box K) (lst : List (Box K × TB)) : TB :=
  let X := innerBox Xm Xp
  let l := lst.filter fun p => !(X.inter p.1).isEmpty
  let lin := (l.filter fun p => p.2.canBeInside).map fun p => X.inter p.1
  let lout := (l.filter fun p => p.2.canBeOutside).map fun p => X.inter p.1
  let dims := (List.range Xm.length).filter fun i => !(Xm.getD i ⊥ ⊓ Xp.getD i ⊥).isEmpty
  fromBools (dims.all fun i => projInclude diff X lin i) (dims.all fun i => projInclude diff X lout i)

end

section
variable {K : Type*} [Field K] [LinearOrder K] [IsStrictOrderedRing K]

/-- the test `(X - Y).ub() > 0`: false on empty intervals -/
def diffPos (X Y : Itv K) : Bool :=
  match Itv.sub X Y with
  | .empty => false
  | .mk _ none _ => true
  | .mk _ (some u) _ => decide (0 < u)

/-- `isThickIntersect(am, ap, b)`, codac_ThickPaving.cpp:262-277 -/
def thickIntersect : Box K → Box K → Box K → Bool
  | m :: M, p :: P, b :: B => !diffPos (ThickItv.bound b.lb?) p && !diffPos m (ThickItv.bound b.ub?) && thickIntersect M P B
  | _, _, _ => true

/-- the loop of `ThickPaving::fastIntersection2`, codac_ThickPaving.cpp:368-378 -/
def fastLoop (Xm Xp : Box K) : List (Box K × TB) → Bool → Bool → TB
  | [], i, o => fromBools i o
  | (b, v) :: l, i, o =>
    let hit := thickIntersect Xm Xp (b.inter (Xm.hull Xp))
    let c1 := v.canBeInside && !i
    let i' := if c1 then hit else i
    let o' := if !c1 && (v.canBeOutside && !o) then hit else o
    if o' && i' then .maybe else fastLoop Xm Xp l i' o'

/-- `ThickPaving::fastIntersection2`, codac_ThickPaving.cpp:364-385 -/
def fastValue (Xm Xp : Box K) (lst : List (Box K × TB)) : TB := fastLoop Xm Xp lst false false

/-- `ThickPaving::Intersect_fct`, codac_ThickPaving.cpp:484-558 -/
def interFct (diff : Itv K → Itv K → Itv K × Itv K) (t : TNode K) (Xm Xp : Box K) : Option TB :=
  (inside2 t (Xm.hull Xp)).map fun p =>
    if p.1.isSingleton then p.1
    else if (List.zipWith (· ⊓ ·) Xm Xp).all fun I => !I.isEmpty then crossValue p.2
    else if (List.zipWith (· ⊓ ·) Xm Xp).all fun I => I.isEmpty then fastValue Xm Xp p.2
    else mixedValue diff Xm Xp p.2

/-- `opMask`, codac_ThickPaving.cpp:440-460 -/
def opMask (a m : TB) : TB :=
  if m = .maybe then .maybe
  else if a = .in_ ∧ m = .maybeOut then .maybe
  else if a = .in_ ∧ m = .maybeIn then .maybeIn
  else if a = .out ∧ m = .maybeOut then .maybe
  else if a = .out ∧ m = .maybeIn then .maybeOut
  else .unk

/-- the thick box of two boxes, codac_ThickBox.h:26-30 -/
def thickBox (Xm Xp : Box K) : ThickBox K := List.zipWith ThickItv.ofItvs Xm Xp

/-- `ThickPaving::Intersect`, codac_ThickPaving.cpp:464-481; `isInBox` (424-437) is `ThickBox::is_inside` -/
def intersect (diff : Itv K → Itv K → Itv K × Itv K) (t : TNode K) (Xm Xp : Box K) : Option TB :=
  match (thickBox Xm Xp).isInside t.box with
  | .out => some .maybe
  | .in_ => interFct diff t Xm Xp
  | m => (interFct diff t Xm Xp).map fun a => opMask a m

end

end Codac.TPav
