import Verif.Paving.Life

/-!
# Copies of `Paving`, flags, reset

Source: `src/core/paving/codac_Paving.cpp`. Memory as in `Verif/Paving/Life.lean`. The value of a node is made of its box, its value, its flag and its pointer `m_root`.
-/

namespace Codac.PavLife

section memory
variable {V : Type*}

/-- an object of the heap is changed -/
def write (m : Mem V) (a : Nat) (o : Obj V) : Mem V := ⟨m.next, fun b => if b = a then some o else m.cell b⟩

/-- the common part of the copy constructor and of `operator=`, codac_Paving.cpp:32-38, 55-63: no child, then copies of the children of `o`, if it has a first one; `cl` makes the copies;
`none`: the second child is a null pointer, or a child was deleted -/
def children (cl : Mem V → Nat → Option (Mem V × Nat)) (m : Mem V) (o : Obj V) : Option (Mem V × Obj V) :=
  match o.left, o.right with
  | none, _ => some (m, ⟨o.val, none, none⟩)
  | some _, none => none
  | some b, some c => (cl m b).bind fun p => (cl p.1 c).map fun q => (q.1, ⟨o.val, some p.2, some q.2⟩)

/-- `q = new Paving(p->m_box, p->m_value); *q = *p`, codac_Paving.cpp:34-35, 50-65; `fuel` bounds the depth. The values given to the constructor are replaced by the assignment -/
def clone : Nat → Mem V → Nat → Option (Mem V × Nat)
  | 0, _, _ => none
  | fuel + 1, m, a => (m.cell a).bind fun o =>
    let r := alloc m ⟨o.val, none, none⟩
    (children (clone fuel) r.1 o).map fun p => (write p.1 r.2 p.2, r.2)

/-- the copy constructor `Paving(const Paving& p)`, codac_Paving.cpp:29-39: also the root of `p` is copied -/
def copyPav (fuel : Nat) (m : Mem V) (p : Obj V) : Option (Mem V × Obj V) := children (clone fuel) m p

/-- `x = p`, codac_Paving.cpp:50-65, two different objects: the former pointers of `x` are lost -/
def assignPav (fuel : Nat) (m : Mem V) (_x p : Obj V) : Option (Mem V × Obj V) := children (clone fuel) m p

/-- `x = x`, codac_Paving.cpp:50-65: the pointers of the argument are those set to `nullptr` -/
def assignSelf (fuel : Nat) (m : Mem V) (x : Obj V) : Option (Mem V × Obj V) := children (clone fuel) m ⟨x.val, none, none⟩

/-- `reset_paving(value)`, codac_Paving.cpp:160-168; `set` changes the value -/
def resetPav (fuel : Nat) (m : Mem V) (x : Obj V) (set : V → V) : Option (Mem V × Obj V) :=
  match x.left with
  | none => some (m, ⟨set x.val, x.left, x.right⟩)
  | some _ => (destroy fuel m x).map fun m => (m, ⟨set x.val, none, none⟩)

end memory

/-! ### Flags -/

/-- the flags of the nodes of a paving -/
inductive FTree where
  | nil
  | node (flag : Bool) (l r : FTree)

/-- `flag()`, codac_Paving.cpp:138-144 (`nil`: a null pointer, nothing) -/
def FTree.flag : FTree → Bool
  | .nil => false
  | .node f l r =>
    let f := if !f then f || l.flag else f
    if !f then f || r.flag else f

/-- `set_flag()`, codac_Paving.cpp:146-151 -/
def FTree.setFlag : FTree → FTree
  | .nil => .nil
  | .node _ l r => .node true l.setFlag r.setFlag

/-- `reset_flags()`, codac_Paving.cpp:153-158 -/
def FTree.resetFlags : FTree → FTree
  | .nil => .nil
  | .node _ l r => .node false l.resetFlags r.resetFlags

end Codac.PavLife
