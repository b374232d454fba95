import Verif.Model.Main

/-!
# What the names of constants stand for (main.py:40-43 and gen_consts.py:65-68)
-/

namespace PiCF.Spec
open PiCF.Hashtable PiCF.Main

/-- The constant a user asks for with a name and an index: the documented names with the documented ranges of the index. -/
inductive Constant (K : Consts) : Str → Option ℤ → ℚ → Prop where
  | pi (i : Option ℤ) : Constant K "pi".toList i K.pi
  | e (i : Option ℤ) : Constant K "e".toList i K.e
  | eulerMasch (i : Option ℤ) : Constant K "euler_masch".toList i K.eulerMasch
  | phi (i : Option ℤ) : Constant K "phi".toList i K.phi
  | apery (i : Option ℤ) (x : ℚ) : K.zeta 3 = some x → Constant K "apery".toList i x
  | feig (n : ℕ) (x : ℚ) : K.feig[n]? = some x → Constant K "feig".toList (some n) x
  | percolation (n : ℕ) (x : ℚ) : K.percolation[n]? = some x → Constant K "percolation".toList (some n) x
  | zeta (n : ℤ) (x : ℚ) : 2 ≤ n → n ≤ 20 → K.zeta n = some x → Constant K "zeta".toList (some n) x

/-- The names without index. -/
def plainNames : List Str := ["pi".toList, "e".toList, "euler_masch".toList, "phi".toList, "apery".toList]

end PiCF.Spec
