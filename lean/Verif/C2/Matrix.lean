import Verif.Arith

/-!
# Matrices of intervals of codac2

Source: `src/core/2/domains/interval/codac2_IntervalMatrix.h:35-137, 391-461, 506-546, 572-584`. Matrices whose sizes are known at run time (`Dynamic`). The coefficients are stored by columns (Eigen).
-/

set_option linter.unusedSectionVars false

namespace Codac.C2

/-- the sizes and the coefficients of a matrix, in the order of the storage -/
structure Mx (α : Type*) where
  rows : Nat
  cols : Nat
  data : List α
deriving DecidableEq

namespace Mx

section any
variable {α β : Type*}

/-- `X(i,j)`: storage by columns; `none` outside of the storage -/
def get? (X : Mx α) (i j : Nat) : Option α := X.data[j * X.rows + i]?

/-- `X(i,j) = v` -/
def put (X : Mx α) (i j : Nat) (v : α) : Mx α := { X with data := X.data.set (j * X.rows + i) v }

/-- the pairs of indices of the loops "for i < r, for j < c" -/
def pairs (r c : Nat) : List (Nat × Nat) := (List.range r).flatMap fun i => (List.range c).map fun j => (i, j)

/-- the loops "for i < r, for j < c: X(i,j) = f(i,j)"; `none`: `f` reads outside of its matrix -/
def fill (f : Nat → Nat → Option α) : List (Nat × Nat) → Mx α → Option (Mx α)
  | [], X => some X
  | p :: l, X => (f p.1 p.2).bind fun v => fill f l (X.put p.1 p.2 v)

/-- a matrix of `r` rows and `c` columns with the coefficients `v`: `IntervalMatrix_(nb_rows, nb_cols, x)` and `init`, codac2_IntervalMatrix.h:48-52, 436-440 -/
def const (r c : Nat) (v : α) : Mx α := ⟨r, c, List.replicate (r * c) v⟩

end any

section order
variable {K : Type*} [LinearOrder K]

/-- the loops of the constructor with bounds, codac2_IntervalMatrix.h:57-66, with the counter `k`; `none`: `bounds` is too short -/
def boundsLoop (b : List (K × K)) : List (Nat × Nat) → Nat → Mx (Itv K) → Option (Mx (Itv K))
  | [], _, X => some X
  | p :: l, k, X => b[k]?.bind fun v => boundsLoop b l (k + 1) (X.put p.1 p.2 (Itv.icc v.1 v.2))

/-- `IntervalMatrix_(nb_rows, nb_cols, bounds)`, codac2_IntervalMatrix.h:54-68, with a pointer which is not null. The default value of an interval is the whole line -/
def ofBounds (r c : Nat) (b : List (K × K)) : Option (Mx (Itv K)) := boundsLoop b (pairs r c) 0 (const r c ⊤)

/-- `IntervalMatrix_(lb, ub)`, codac2_IntervalMatrix.h:74-81 -/
def ofLbUb (L U : Mx K) : Option (Mx (Itv K)) :=
  if L.rows = U.rows ∧ L.cols = U.cols then
    fill (fun i j => (L.get? i j).bind fun a => (U.get? i j).map fun b => Itv.icc a b) (pairs L.rows L.cols) (const L.rows L.cols ⊤)
  else none

/-- `resize`, codac2_IntervalMatrix.h:129-137 -/
def resize (X : Mx (Itv K)) (r c : Nat) : Option (Mx (Itv K)) := fill X.get? (pairs (min X.rows r) (min X.cols c)) (const r c ⊤)

/-- `IntervalMatrix_(initializer_list)`, codac2_IntervalMatrix.h:90-109; `none`: rows of different lengths, or no row (the number of columns is -1) -/
def ofRows (l : List (List (Itv K))) : Option (Mx (Itv K)) :=
  match l with
  | [] => none
  | r :: _ =>
    if ∀ r' ∈ l, r'.length = r.length then fill (fun i j => l[i]?.bind fun r => r[j]?) (pairs l.length r.length) (const l.length r.length ⊤) else none

/-- `is_empty`, codac2_IntervalMatrix.h:139-145 -/
def isEmpty (X : Mx (Itv K)) : Bool := X.data.any Itv.isEmpty

/-- `lb` and `ub`, codac2_IntervalMatrix.h:391-407, for a bounded matrix; `none`: the assertion fails, or a bound is infinite -/
def bnd (f : Itv K → Option K) (X : Mx (Itv K)) : Option (Mx K) :=
  if X.isEmpty then none else (X.data.mapM f).map fun d => ⟨X.rows, X.cols, d⟩

end order

section field
variable {K : Type*} [Field K] [LinearOrder K] [IsStrictOrderedRing K]

/-- `inflate(r)`, codac2_IntervalMatrix.h:447-453; `Interval::inflate` (IBEX) adds `[-r,r]` -/
def inflate (A : IArith K) (X : Mx (Itv K)) (r : K) : Option (Mx (Itv K)) :=
  if 0 ≤ r then some { X with data := X.data.map fun I => A.add I (Itv.icc (-r) r) } else none

/-- `inflate(r)` with a matrix, codac2_IntervalMatrix.h:455-461; the sizes are not compared: `none` when they differ -/
def inflateMat (A : IArith K) (X : Mx (Itv K)) (R : Mx K) : Option (Mx (Itv K)) :=
  if (∀ r ∈ R.data, 0 ≤ r) ∧ R.rows = X.rows ∧ R.cols = X.cols then some { X with data := List.zipWith (fun I r => A.add I (Itv.icc (-r) r)) X.data R.data } else none

/-- `+=`, `-=`, `+`, `-` of two matrices, codac2_IntervalMatrix.h:506-516, 530-540; the sizes are not compared (Eigen's assertions are disabled, codac2_eigen.h:7): `none` when they differ -/
def zip (op : Itv K → Itv K → Itv K) (X Y : Mx (Itv K)) : Option (Mx (Itv K)) :=
  if X.rows = Y.rows ∧ X.cols = Y.cols then some { X with data := List.zipWith op X.data Y.data } else none

/-- `+=` with a matrix of numbers, codac2_IntervalMatrix.h:542-546 -/
def addNum (A : IArith K) (X : Mx (Itv K)) (M : Mx K) : Option (Mx (Itv K)) := zip A.add X { M with data := M.data.map Itv.point }

/-- the opposite, codac2_IntervalMatrix.h:572-578: the difference with a null matrix -/
def neg (A : IArith K) (X : Mx (Itv K)) : Option (Mx (Itv K)) := zip A.sub (const X.rows X.cols (Itv.point 0)) X

/-- the product by a number, codac2_IntervalMatrix.h:580-584 -/
def smul (A : IArith K) (a : K) (X : Mx (Itv K)) : Mx (Itv K) := { X with data := X.data.map fun I => A.mul (Itv.point a) I }

end field

end Mx
end Codac.C2
