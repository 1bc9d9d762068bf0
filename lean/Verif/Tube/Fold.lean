import Verif.Tube.Basic
import Verif.Tube.OpsModel

/-! # Passes over all the slices of a tube -/

namespace Codac
variable {K : Type*} [LinearOrder K]

/-- a forward pass, in recursive form: the slices are updated from the first to the last -/
def fwd (us : Nat → Setter K) : Nat → Option (Itv K) → Itv K → List (Cell K) → Itv K × List (Cell K)
  | _, _, g, [] => (g, [])
  | k, p, g, c :: cs =>
    let s := us k p (cs.head?.map Cell.cod) ⟨c.lb, c.ub, c.cod, g, c.out⟩
    let r := fwd us (k + 1) (some s.cod) s.outG cs
    (s.inG, ⟨c.lb, c.ub, s.cod, r.1⟩ :: r.2)

theorem foldl_updFrom_succ (us : Nat → Setter K) (p : Option (Itv K)) (l : List Nat) (g : Itv K) (c : Cell K)
    (cs : List (Cell K)) :
    (l.map Nat.succ).foldl (fun r k => updFrom (us k) k p r.1 r.2) (g, c :: cs) =
      (g, { c with out := (l.foldl (fun r k => updFrom (us (k + 1)) k (some c.cod) r.1 r.2) (c.out, cs)).1 } ::
        (l.foldl (fun r k => updFrom (us (k + 1)) k (some c.cod) r.1 r.2) (c.out, cs)).2) := by
  induction l generalizing c cs with
  | nil => rfl
  | cons k l ih =>
    simp only [List.map_cons, List.foldl_cons, updFrom]
    rw [ih]

theorem foldl_updFrom_range (us : Nat → Setter K) (k : Nat) (p : Option (Itv K)) (g : Itv K) (cs : List (Cell K)) :
    (List.range cs.length).foldl (fun r i => updFrom (us (k + i)) i p r.1 r.2) (g, cs) = fwd us k p g cs := by
  induction cs generalizing k p g with
  | nil => rfl
  | cons c cs ih =>
    rw [List.length_cons, List.range_succ_eq_map, List.foldl_cons]
    simp only [Nat.add_zero, updFrom]
    rw [foldl_updFrom_succ (fun i => us (k + i))]
    simp only [fwd]
    rw [← ih]
    simp only [Nat.add_assoc, Nat.add_comm 1]

/-- a forward pass over a tube is the recursive one -/
theorem foldl_upd_range (us : Nat → Setter K) (T : Tube K) :
    (List.range T.nbSlices).foldl (fun T k => T.upd k (us k)) T =
      { T with g0 := (fwd us 0 none T.g0 T.cells).1, cells := (fwd us 0 none T.g0 T.cells).2 } := by
  have key : ∀ (l : List Nat) (T : Tube K), l.foldl (fun T k => T.upd k (us k)) T =
      { T with g0 := (l.foldl (fun r k => updFrom (us k) k none r.1 r.2) (T.g0, T.cells)).1,
               cells := (l.foldl (fun r k => updFrom (us k) k none r.1 r.2) (T.g0, T.cells)).2 } := by
    intro l
    induction l with
    | nil => intro T; rfl
    | cons k l ih => intro T; rw [List.foldl_cons, ih]; rfl
  rw [key]
  have := foldl_updFrom_range us 0 none T.g0 T.cells
  simp only [Nat.zero_add] at this
  rw [Tube.nbSlices, this]

/-- the cells once all envelopes and gates are `y` -/
def constCells (y : Itv K) (cs : List (Cell K)) : List (Cell K) := cs.map fun c => ⟨c.lb, c.ub, y, y⟩

theorem fwd_set (y : Itv K) (k : Nat) (p : Option (Itv K)) (g : Itv K) (cs : List (Cell K))
    (hp : p = none ∨ p = some y) (hne : cs ≠ []) :
    fwd (fun _ => Slice.set y) k p g cs = (y, constCells y cs) := by
  induction cs generalizing k p g with
  | nil => exact absurd rfl hne
  | cons c cs ih =>
    have hin : infOpt y p = y := by rcases hp with rfl | rfl <;> simp [infOpt]
    simp only [fwd, Slice.set, hin]
    cases cs with
    | nil => simp [fwd, constCells, infOpt]
    | cons c' cs' => rw [ih _ _ _ (Or.inr rfl) (by simp)]; simp [constCells]

/-- `Tube::set(y)`: all envelopes and gates become `y` -/
theorem set_eq {T : Tube K} (hne : T.cells ≠ []) (y : Itv K) :
    T.set y = { T with g0 := y, cells := constCells y T.cells } := by
  unfold Tube.set
  rw [foldl_upd_range (fun _ => Slice.set y), fwd_set y 0 none T.g0 T.cells (Or.inl rfl) hne]

theorem constCells_bounds (y : Itv K) (cs : List (Cell K)) :
    (constCells y cs).map (fun c => (c.lb, c.ub)) = cs.map (fun c => (c.lb, c.ub)) := by
  simp [constCells]

theorem mem_slices_const {y : Itv K} {cs : List (Cell K)} {s : Slice K} (hs : s ∈ slicesFrom y (constCells y cs)) :
    s.cod = y ∧ s.inG = y ∧ s.outG = y := by
  induction cs with
  | nil => simp [constCells] at hs
  | cons c cs ih =>
    simp only [constCells, List.map_cons, slicesFrom_cons, List.mem_cons] at hs
    rcases hs with rfl | hs
    · exact ⟨rfl, rfl, rfl⟩
    · exact ih hs

end Codac
