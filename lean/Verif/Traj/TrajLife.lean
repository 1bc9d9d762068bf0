import Mathlib.Logic.Function.Basic

/-!
# The function owned by a trajectory

Sources: `Trajectory`, codac_Trajectory.cpp: constructors (:23-82), destructor (:84-89), `operator=` (:91-113), `sample` (:374-421); members codac_Trajectory.h:455-466.
A trajectory is defined by a function, in the heap, or by a map of values. A function stands for the function with the time domain; the addresses are never used twice
(an allocator may do it, and then a deleted pointer points to the function of another trajectory). `D` stands for the argument of `sample`.
-/

set_option linter.unusedSectionVars false

namespace Codac.TrajLife

variable {V F P D : Type*} [DecidableEq V]

/-- `TrajDefnType` -/
inductive Kind
  | analytic
  | mapOfValues
  deriving DecidableEq

/-- the members `m_traj_def_type`, `m_function` (`none`: nullptr) and `m_map_values` of a trajectory -/
structure Obj (P : Type*) where
  kind : Kind
  fn : Option Nat
  pts : P

/-- the trajectories of a program (`none`: not constructed, or destroyed), and the functions in the heap (`none`: not allocated, or deleted) -/
structure Mem (V F P : Type*) where
  vars : V → Option (Obj P)
  heap : Nat → Option F
  next : Nat

/-- `delete p`: nothing for nullptr; `none` (undefined behaviour) when already deleted -/
def del (h : Nat → Option F) : Option Nat → Option (Nat → Option F)
  | none => some h
  | some p => if (h p).isNone then none else some (Function.update h p none)

/-- `*p`: `none` for nullptr or a deleted function -/
def deref (h : Nat → Option F) : Option Nat → Option F
  | none => none
  | some p => h p

/-- `Trajectory::operator=` on the object `o` of `a`, codac_Trajectory.cpp:91-113; `x.m_function` is read after `delete m_function` -/
def assignTo (m : Mem V F P) (a : V) (o x : Obj P) : Option (Mem V F P) :=
  match x.kind with
  | .analytic =>
    (del m.heap o.fn).bind fun h => (deref h x.fn).map fun f =>
      ⟨Function.update m.vars a (some ⟨.analytic, some m.next, o.pts⟩), Function.update h m.next (some f), m.next + 1⟩
  | .mapOfValues => some ⟨Function.update m.vars a (some ⟨.mapOfValues, o.fn, x.pts⟩), m.heap, m.next⟩

/-- the operations of a program on trajectories -/
inductive Op (V F P D : Type*)
  | newFn (v : V) (f : F)
  | newMap (v : V) (l : P)
  | copy (v w : V)
  | assign (v w : V)
  | sample (v : V) (d : D)
  | destroy (v : V)

variable (nil : P) (sampF : D → F → P) (sampP : D → P → P)

/-- `Trajectory::sample`, codac_Trajectory.cpp:374-421: when the trajectory is defined by a function it is evaluated, and deleted; `m_function` is not changed -/
def sample (m : Mem V F P) (v : V) (o : Obj P) (d : D) : Option (Mem V F P) :=
  match o.kind with
  | .analytic =>
    (deref m.heap o.fn).bind fun f => (del m.heap o.fn).map fun h => ⟨Function.update m.vars v (some ⟨.mapOfValues, o.fn, sampF d f⟩), h, m.next⟩
  | .mapOfValues => some ⟨Function.update m.vars v (some ⟨.mapOfValues, o.fn, sampP d o.pts⟩), m.heap, m.next⟩

/-- `Trajectory::~Trajectory`, codac_Trajectory.cpp:84-89 -/
def destroy (m : Mem V F P) (v : V) (o : Obj P) : Option (Mem V F P) :=
  match o.kind with
  | .analytic => (del m.heap o.fn).map fun h => ⟨Function.update m.vars v none, h, m.next⟩
  | .mapOfValues => some ⟨Function.update m.vars v none, m.heap, m.next⟩

/-- one operation; `none`: undefined behaviour -/
def step (m : Mem V F P) : Op V F P D → Option (Mem V F P)
  | .newFn v f => match m.vars v with
    | none => some ⟨Function.update m.vars v (some ⟨.analytic, some m.next, nil⟩), Function.update m.heap m.next (some f), m.next + 1⟩
    | some _ => none
  | .newMap v l => match m.vars v with
    | none => some ⟨Function.update m.vars v (some ⟨.mapOfValues, none, l⟩), m.heap, m.next⟩
    | some _ => none
  | .copy v w => match m.vars v, m.vars w with
    | none, some x => assignTo m v ⟨.mapOfValues, none, nil⟩ x
    | _, _ => none
  | .assign v w => match m.vars v, m.vars w with
    | some o, some x => assignTo m v o x
    | _, _ => none
  | .sample v d => match m.vars v with
    | some o => sample sampF sampP m v o d
    | none => none
  | .destroy v => match m.vars v with
    | some o => destroy m v o
    | none => none

/-- a program -/
def run : List (Op V F P D) → Mem V F P → Option (Mem V F P)
  | [], m => some m
  | o :: os, m => (step nil sampF sampP m o).bind (run os)

/-- before any construction -/
def start : Mem V F P := ⟨fun _ => none, fun _ => none, 0⟩

/-- what a trajectory is for its user: a function or points -/
inductive Val (F P : Type*)
  | fn (f : F)
  | pts (l : P)

/-- the value of a trajectory in memory -/
def Mem.value (m : Mem V F P) (v : V) : Option (Val F P) :=
  match m.vars v with
  | none => none
  | some o => match o.kind with
    | .analytic => (deref m.heap o.fn).map .fn
    | .mapOfValues => some (.pts o.pts)

end Codac.TrajLife
