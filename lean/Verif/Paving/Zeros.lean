import Verif.Paving.Degree
import Verif.Arith

/-!
# The number of zeros on a connected subset of a paving: model

Sources: `src/core/paving/codac_ConnectedSubset_degree.cpp:27-36`, `247-281`, and `Paving::bisect`, `codac_Paving.cpp:118-129`. The paving is changed by the
call: it is returned. The bisection of IBEX, the function and its Jacobian matrix are parameters.
-/

set_option linter.unusedSectionVars false

namespace Codac

/-- the end of a run: `more` when the loop has not finished within the given number of iterations, `failed` when an assertion fails -/
inductive Outcome (α : Type*) where
  | more
  | failed
  | done (a : α)

namespace Paving
variable {K : Type*} [LinearOrder K]

/-- the paving at a position of the tree: the pointers kept by a subset or a list, `get_first_subpaving()` and `get_second_subpaving()`,
codac_Paving.cpp:49-68 -/
def at? : List Bool → Paving K → Option (Paving K)
  | [], P => some P
  | _ :: _, leaf _ _ => none
  | d :: q, node _ _ l r => if d then r.at? q else l.at? q

/-- `Paving::bisect`, codac_Paving.cpp:118-129, on the paving at a position; `none`: the assertion "only leaves can be bisected" fails. `bis` is
`LargestFirst::bisect` (IBEX). -/
def bisectAt (bis : Box K → Box K × Box K) : List Bool → Paving K → Option (Paving K)
  | [], leaf b v => some (node b v (leaf (bis b).1 v) (leaf (bis b).2 v))
  | [], node .. => none
  | _ :: _, leaf _ _ => none
  | d :: q, node b v l r => if d then (r.bisectAt bis q).map fun r' => node b v l r' else (l.bisectAt bis q).map fun l' => node b v l' r

end Paving

namespace Deg
variable {K : Type*} [Field K] [LinearOrder K] [IsStrictOrderedRing K]

/-- a matrix of intervals, by rows -/
abbrev Mat2 (K : Type*) [LinearOrder K] := (Itv K × Itv K) × (Itv K × Itv K)

/-- the determinant, codac_ConnectedSubset_degree.cpp:263 -/
def det2 (A : IArith K) (v : Mat2 K) : Itv K := A.sub (A.mul v.1.1 v.2.2) (A.mul v.1.2 v.2.1)

/-- the loop of `non_singular_jacobian`, codac_ConnectedSubset_degree.cpp:256-280: the list of pavings is given by their positions. The test
`precision == -1` is left out: the assertion of line 249 excludes it. -/
def jacLoop (A : IArith K) (Jf : Box K → Mat2 K) (bis : Box K → Box K × Box K) (p : K) : Nat → List (List Bool) → Paving K → Outcome (Bool × Paving K)
  | _, [], P => .done (true, P)
  | 0, _ :: _, _ => .more
  | n + 1, q :: l, P =>
    match P.at? q with
    | none => .failed
    | some T =>
      if (0 : K) ∈ det2 A (Jf T.box) then
        if Box.maxDiamLt p T.box then .done (false, P)
        else match P.bisectAt bis q with
          | none => .failed
          | some P' => jacLoop A Jf bis p n (l ++ [q ++ [false], q ++ [true]]) P'
      else jacLoop A Jf bis p n l P

/-- `ConnectedSubset::non_singular_jacobian`, codac_ConnectedSubset_degree.cpp:247-281 -/
def Subset.nonSingular (A : IArith K) (Jf : Box K → Mat2 K) (bis : Box K → Box K × Box K) (p : K) (fuel : Nat) (S : Subset K) :
    Outcome (Bool × Paving K) :=
  if 0 < p then jacLoop A Jf bis p fuel (S.items.map Paving.Leaf.path) S.root else .failed

/-- `ConnectedSubset::zeros_number`, codac_ConnectedSubset_degree.cpp:27-36 -/
def Subset.zerosNumber (F : Box K → Itv K × Itv K) (A : IArith K) (Jf : Box K → Mat2 K) (bis : Box K → Box K × Box K) (p : K) (fuel : Nat)
    (S : Subset K) : Outcome (Int × Paving K) :=
  match S.degree F with
  | none => .failed
  | some d =>
    match S.nonSingular A Jf bis p fuel with
    | .more => .more
    | .failed => .failed
    | .done (true, P) => .done (|d|, P)
    | .done (false, P) => .done (-1, P)

end Deg
end Codac
