import Verif.Box
import Verif.C2.Matrix

/-!
# Vectors of intervals of codac2, and the matrices of the first library

Source: `src/core/2/domains/interval/codac2_cart_prod.h`, `codac2_cart_prod.cpp`, `codac2_IntervalVector.h:126-142`, `src/core/arithmetic/codac_matrix_arithmetic.cpp`, `src/core/tools/codac_Eigen.cpp`, `src/core/2/variables/codac2_Matrix.h:189-197`.
-/

set_option linter.unusedSectionVars false

namespace Codac.C2
open Codac

namespace Vec

section any
variable {α : Type*}

/-- the copy of the coefficients of `a` from the index `k` on (Eigen: assignment of a block of a column) -/
def write : List α → Nat → List α → List α
  | [], _, x => x
  | v :: a, k, x => write a (k + 1) (x.set k v)

/-- `x << a, b, ...` with blocks of one column (Eigen's `CommaInitializer`), from the row `k` on; `none`: too many or too few rows -/
def comma : List (List α) → Nat → List α → Option (List α)
  | [], k, x => if k = x.length then some x else none
  | a :: l, k, x => if k + a.length ≤ x.length then comma l (k + a.length) (write a k x) else none

/-- the loop of `subvector`: `s[i] = x[i + start]` for `i` in the list; `none`: out of the vectors -/
def subLoop (x : List α) (start : Nat) : List Nat → List α → Option (List α)
  | [], s => some s
  | i :: l, s => x[i + start]?.bind fun v => subLoop x start l (s.set i v)

/-- `put<I>(y)`, codac2_IntervalVector.h:137-142; `none`: the assertion fails -/
def put (x : List α) (I : Nat) (y : List α) : Option (List α) :=
  if I < x.length ∧ y.length + I ≤ x.length then some (write y I x) else none

end any

section order
variable {K : Type*} [LinearOrder K]

/-- an operand of `cart_prod`: an interval or a vector of intervals -/
inductive Opd (K : Type*) [LinearOrder K] where
  | itv (I : Itv K)
  | vec (X : Box K)

/-- `IntervalVector(x)`, codac2_IntervalVector.h:268-274: an interval gives a vector of one component -/
def Opd.toVec : Opd K → Box K
  | .itv I => [I]
  | .vec X => X

/-- `cart_prod_dyn` of two vectors, codac2_cart_prod.cpp:43-48 -/
def cartDyn (x y : Box K) : Option (Box K) := comma [x, y] 0 (List.replicate (x.length + y.length) ⊤)

/-- `cart_prod` with sizes known at run time, codac2_cart_prod.h:62-71 -/
def cartProd : Opd K → Opd K → List (Opd K) → Option (Box K)
  | x, y, [] => cartDyn x.toVec y.toVec
  | x, y, z :: l => (cartDyn x.toVec y.toVec).bind fun w => cartProd (.vec w) z l

/-- `cart_prod_static`, codac2_cart_prod.h:21-50 and codac2_cart_prod.cpp:24-27 -/
def cartStatic : Opd K → Opd K → Option (Box K)
  | .itv I, .itv J => some [I, J]
  | .vec X, .itv J => comma [X, [J]] 0 (List.replicate (X.length + 1) ⊤)
  | .itv I, .vec Y => comma [[I], Y] 0 (List.replicate (Y.length + 1) ⊤)
  | .vec X, .vec Y => comma [X, Y] 0 (List.replicate (X.length + Y.length) ⊤)

/-- `cart_prod<N>`, codac2_cart_prod.h:52-60 -/
def cartProdStatic : Opd K → Opd K → List (Opd K) → Option (Box K)
  | x, y, [] => cartStatic x y
  | x, y, z :: l => (cartStatic x y).bind fun w => cartProdStatic (.vec w) z l

/-- `subvector(start_index, end_index)`, codac2_IntervalVector.h:126-135; `none`: an assertion fails -/
def subvector (x : Box K) (a b : Nat) : Option (Box K) :=
  if b < x.length ∧ a ≤ b then subLoop x a (List.range (b - a + 1)) (List.replicate (b - a + 1) ⊤) else none

end order
end Vec

namespace Mx

section order
variable {K : Type*} [LinearOrder K]

/-- the loops `m3[i][j] op= m2[i][j]`, codac_matrix_arithmetic.cpp:23-25, 35-37 -/
def combineLoop (op : Itv K → Itv K → Itv K) (B : Mx (Itv K)) : List (Nat × Nat) → Mx (Itv K) → Option (Mx (Itv K))
  | [], X => some X
  | p :: l, X => (X.get? p.1 p.2).bind fun a => (B.get? p.1 p.2).bind fun b => combineLoop op B l (X.put p.1 p.2 (op a b))

/-- `operator&` of two `IntervalMatrix`, codac_matrix_arithmetic.cpp:18-28; `none`: the assertion fails. The order of the storage (rows in IBEX, columns here) does not matter, the coefficients being read and written with their two indices -/
def inter (A B : Mx (Itv K)) : Option (Mx (Itv K)) :=
  if A.cols = B.cols ∧ A.rows = B.rows then combineLoop (· ⊓ ·) B (pairs A.rows B.cols) A else none

/-- `operator|` of two `IntervalMatrix`, codac_matrix_arithmetic.cpp:30-40 -/
def hull (A B : Mx (Itv K)) : Option (Mx (Itv K)) :=
  if A.cols = B.cols ∧ A.rows = B.rows then combineLoop (· ⊔ ·) B (pairs A.rows B.cols) A else none

end order

section num
variable {α : Type*}

/-- the copies of a matrix of numbers: `i2e`, `e2i` (codac_Eigen.cpp:5-13, 23-31) and `to_codac1` (codac2_Matrix.h:189-197). `z`: the coefficients before the copy -/
def copy (z : α) (A : Mx α) : Option (Mx α) := fill A.get? (pairs A.rows A.cols) (const A.rows A.cols z)

end num
end Mx
end Codac.C2
