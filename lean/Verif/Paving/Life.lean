import Verif.Paving.SepPaving

/-!
# Nodes of pavings in memory and in files

Models the constructors, the destructor and the assignment of `PSetNode` (src/unsupported/paving/codac_PSetNode_impl.cpp:20-57) and of `PNode`
(src/unsupported/thickset/codac_PNode_impl.hpp:16-54), which are the same up to the values of the nodes (two boxes, or a box and a value), and `PSetNode::save`,
`PSetNode::load` (codac_PSetNode_impl.cpp:297-345).
-/

namespace Codac.PavLife

section memory
variable {V : Type*}

/-- a node: its value (boxes) and the pointers to its two children -/
structure Obj (V : Type*) where
  val : V
  left : Option Nat
  right : Option Nat

/-- the heap: the next free address, and the objects alive at each address -/
structure Mem (V : Type*) where
  next : Nat
  cell : Nat → Option (Obj V)

/-- `new PSetNode(…)`: an address which is not used -/
def alloc (m : Mem V) (o : Obj V) : Mem V × Nat :=
  (⟨m.next + 1, fun b => if b = m.next then some o else m.cell b⟩, m.next)

/-- the end of `delete`: the memory is released -/
def free (m : Mem V) (a : Nat) : Mem V := ⟨m.next, fun b => if b = a then none else m.cell b⟩

/-- `if(p != nullptr) delete p`, codac_PSetNode_impl.cpp:39-46: the destructor deletes the left child then the right one; `none`: the object was already deleted (undefined
behaviour); `fuel` bounds the depth of the tree -/
def del : Nat → Mem V → Option Nat → Option (Mem V)
  | _, m, none => some m
  | 0, _, some _ => none
  | fuel + 1, m, some a => (m.cell a).bind fun o => (del fuel m o.left).bind fun m => (del fuel m o.right).map fun m => free m a

/-- the destructor of an object which is not in the heap (a local variable or a temporary), codac_PSetNode_impl.cpp:39-46 -/
def destroy (fuel : Nat) (m : Mem V) (o : Obj V) : Option (Mem V) := (del fuel m o.left).bind fun m => del fuel m o.right

/-- `if(p) q = new PSetNode(*p)`, codac_PSetNode_impl.cpp:27-30; `none`: the object copied was deleted. In the code the memory of the new node is
reserved before its children are copied; only the addresses differ -/
def copyPtr : Nat → Mem V → Option Nat → Option (Mem V × Option Nat)
  | _, m, none => some (m, none)
  | 0, _, some _ => none
  | fuel + 1, m, some a => (m.cell a).bind fun o => (copyPtr fuel m o.left).bind fun p => (copyPtr fuel p.1 o.right).map fun q =>
      let r := alloc q.1 ⟨o.val, p.2, q.2⟩
      (r.1, some r.2)

/-- the copy constructor, codac_PSetNode_impl.cpp:26-31, codac_PNode_impl.hpp:20-26 -/
def copy (fuel : Nat) (m : Mem V) (o : Obj V) : Option (Mem V × Obj V) :=
  (copyPtr fuel m o.left).bind fun p => (copyPtr fuel p.1 o.right).map fun q => (q.1, ⟨o.val, p.2, q.2⟩)

/-- the move constructor, codac_PSetNode_impl.cpp:34-37, codac_PNode_impl.hpp:28-32: the new object and what remains of the other -/
def move (o : Obj V) : Obj V × Obj V := (o, ⟨o.val, none, none⟩)

/-- `operator=(const PSetNode&& other)`, codac_PSetNode_impl.cpp:48-57, codac_PNode_impl.hpp:44-54: the pointers are copied; the argument is constant, it keeps its pointers.
The two objects are different -/
def assign (_this other : Obj V) : Obj V × Obj V := (⟨other.val, other.left, other.right⟩, other)

end memory

section file
variable {K : Type*} [LinearOrder K]
open SPav

/-- a double -/
inductive Dbl (K : Type*) where
  | nan | ninf | pinf
  | fin (a : K)

/-- the values written in a file -/
inductive PTok (K : Type*) where
  | int (n : Nat)
  | dbl (a : Dbl K)
  | bool (b : Bool)

/-- `lb()`: not a number for an empty interval -/
def lbD : Itv K → Dbl K
  | .empty => .nan
  | .mk none _ _ => .ninf
  | .mk (some a) _ _ => .fin a

/-- `ub()` -/
def ubD : Itv K → Dbl K
  | .empty => .nan
  | .mk _ none _ => .pinf
  | .mk _ (some b) _ => .fin b

/-- the bounds of a box, codac_PSetNode_impl.cpp:303-308 -/
def boxToks (X : Box K) : List (PTok K) := X.flatMap fun I => [.dbl (lbD I), .dbl (ubD I)]

/-- the values written for a node without its children: the size, the outer box, the inner box (of the size of the outer one), codac_PSetNode_impl.cpp:299-317 -/
def nodeToks (i o : Box K) (children : Bool) : List (PTok K) := .int o.length :: (boxToks o ++ (boxToks (i.take o.length) ++ [.bool children]))

/-- `PSetNode::save`, codac_PSetNode_impl.cpp:297-322 -/
def save : PNode K → List (PTok K)
  | .leaf i o => nodeToks i o false
  | .node i o l r => nodeToks i o true ++ (save l ++ save r)

/-- `PSetNode::load`, codac_PSetNode_impl.cpp:325-345: the `2*size*sizeof(double)` bytes of the bounds are written at the address of a pointer of 8 bytes (`&bounds_out`, a pointer to
the array, not the array): `none`, memory is corrupted, unless the size is null. For a null size, nothing is read and the node has no component -/
def load : Nat → List (PTok K) → Option (PNode K × List (PTok K))
  | 0, _ => none
  | fuel + 1, .int n :: f =>
    if 2 * n * 8 ≤ 8 then
      match f with
      | .bool true :: f => (load fuel f).bind fun l => (load fuel l.2).map fun r => (.node [] [] l.1 r.1, r.2)
      | .bool false :: f => some (.leaf [] [], f)
      | _ => none
    else none
  | _ + 1, _ => none

end file

end Codac.PavLife
