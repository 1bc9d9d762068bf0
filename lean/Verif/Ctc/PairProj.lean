import Verif.Ctc.Boxes

/-!
# `SepCtcPairProj`: projection of a pair of contractors

Sources: `src/core/separators/codac_SepCtcPairProj.cpp`, `codac_SepCtcPairProj.h`. `CtcForAll` and `CtcExist` of IBEX are parameters. The set `vars` of the variables is
not modelled: it holds the first indices, but `vars.remove(nb_var+i)` is called with indices out of the set (codac_SepCtcPairProj.cpp:24-26), whose effect in IBEX is not
known here.
-/

set_option linter.unusedSectionVars false

namespace Codac.PairProj

variable {K : Type*} [LinearOrder K]

/-- the contractors of IBEX: from a contractor on variables and parameters, and the box of the parameters -/
structure Quant (K : Type*) [LinearOrder K] where
  /-- `CtcForAll(ctc, vars, y_init, prec).contract` -/
  forAll : (Box K → Box K) → Box K → Box K → Box K
  /-- `CtcExist(ctc, vars, y_init, prec).contract` -/
  exist : (Box K → Box K) → Box K → Box K → Box K

/-- the object: `none` is a pointer which was not set -/
structure Obj (K : Type*) [LinearOrder K] where
  nbVar : Nat
  ctcExist : Option (Box K → Box K)
  ctcForAll : Option (Box K → Box K)

/-- the constructor from two contractors, codac_SepCtcPairProj.cpp:16-32; `n` is `ctc_in.nb_var` -/
def ofCtcs (Q : Quant K) (n : Nat) (ctcIn ctcOut : Box K → Box K) (y : Box K) : Obj K := ⟨n, some (Q.exist ctcOut y), some (Q.forAll ctcIn y)⟩

/-- the constructor from a `SepCtcPair`, codac_SepCtcPairProj.cpp:34-50: the lines which set the pointers are commented out -/
def ofSepPair (_Q : Quant K) (n : Nat) (_ctcIn _ctcOut : Box K → Box K) (_y : Box K) : Obj K := ⟨n, none, none⟩

/-- the constructor from a `Sep`, codac_SepCtcPairProj.cpp:52-68: the same -/
def ofSep (_Q : Quant K) (n : Nat) (_s : Box K → Box K → Box K × Box K) (_y : Box K) : Obj K := ⟨n, none, none⟩

/-- `SepCtcPairProj::separate`, codac_SepCtcPairProj.cpp:99-106; `none`: the assertion fails or a pointer not set is followed -/
def separate (O : Obj K) (xin xout : Box K) : Option (Box K × Box K) :=
  if xin = xout then O.ctcExist.bind fun e => O.ctcForAll.map fun f => (f xin, e xout) else none

end Codac.PairProj
