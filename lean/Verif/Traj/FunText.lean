import Mathlib.Data.List.Basic

/-!
# Texts of functions

Models `TFunction::expr`, `expr(i)`, `operator[]` and `arg_name` (`/repo/src/core/functions/codac_TFunction.cpp`), `Tools::trim`
(`/repo/src/core/tools/codac_Tools.cpp`) and `capd_str_function` (`/repo/src/3rd/capd/codac_capd_integrateODE.cpp`). Strings are lists of characters.
`none` is an exception, a failed assertion or a reading out of an array.
-/

namespace Codac.FunText

/-- `isspace` in the default locale -/
def isSpace (c : Char) : Bool := c = ' ' || c = '\t' || c = '\n' || c = '\r' || c = '\x0b' || c = '\x0c'

/-- `Tools::trim`, codac_Tools.cpp:37-41 -/
def trim (s : List Char) : List Char := ((s.dropWhile isSpace).reverse.dropWhile isSpace).reverse

/-- `getline(iss, token, ';')` repeated: `acc` is the token read so far; at the end of the text a token without any character is not given -/
def lines : List Char → List Char → List (List Char)
  | acc, [] => if acc = [] then [] else [acc]
  | acc, c :: s => if c = ';' then acc :: lines [] s else lines (acc ++ [c]) s

/-- the fields of a `TFunction` used here: the names of the arguments of the IBEX function (the first one is `t`), the image dimension, the text -/
structure TFun where
  args : List (List Char)
  dim : Nat
  text : List Char

/-- `TFunction::construct_from_array`, codac_TFunction.cpp:214-242: `none` when an argument is named `t`; `dim` is the image dimension found by IBEX -/
def construct (xs : List (List Char)) (dim : Nat) (y : List Char) : Option TFun :=
  if ['t'] ∈ xs then none else some ⟨['t'] :: xs, dim, y⟩

/-- `TFunction::arg_name`, codac_TFunction.cpp:207-212; `m_nb_vars` is the number of arguments without `t` -/
def TFun.argName (f : TFun) (i : Nat) : Option (List Char) := if i < f.args.length - 1 then f.args[i + 1]? else none

/-- `TFunction::expr(i)`, codac_TFunction.cpp:174-201 -/
def TFun.expr (f : TFun) (i : Nat) : Option (List Char) :=
  if i < f.dim then
    match (lines [] (trim f.text))[i]? with
    | none => none
    | some tok =>
      -- token.substr(1, token.size()-1): out of range for an empty token
      match (if i = 0 then (match tok with | [] => none | _ :: r => some r) else some tok : Option (List Char)) with
      | none => none
      | some tok => some (trim (if i + 1 = f.dim then tok.dropLast else tok))
  else none

/-- `TFunction::operator[]`, codac_TFunction.cpp:157-167: the text is copied as it is -/
def TFun.comp (f : TFun) (i : Nat) : Option TFun := if i < f.dim then some { f with dim := 1 } else none

/-- the loop of `capd_str_function`, codac_capd_integrateODE.cpp:30-32, from the index `i`, `k` turns left; `n` is `nb_var()` (number of scalar variables),
`args` the names of the arguments -/
def capdVars (args : List (List Char)) (n : Nat) : Nat → Nat → Option (List Char)
  | 0, _ => some []
  | k + 1, i =>
    match args[i]? with
    | none => none
    | some a =>
      match capdVars args n k (i + 1) with
      | none => none
      | some r => some ((if a ≠ ['t'] then a ++ (if i = n - 1 then [] else [',']) else []) ++ r)

/-- `capd_str_function`, codac_capd_integrateODE.cpp:25-36; `e` is the text of the expression -/
def capdStr (args : List (List Char)) (n : Nat) (e : List Char) : Option (List Char) :=
  match capdVars args n n 0 with
  | none => none
  | some v => some ("time:t;".toList ++ "var:".toList ++ v ++ ";fun:".toList ++ e ++ ";".toList)

end Codac.FunText
