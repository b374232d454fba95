import Mathlib.Algebra.Polynomial.AlgebraMap
import Mathlib.Data.Real.Basic
import Verif.Spec.Lhs

/-!
# Specification of rational functions of a real constant (C125)
-/

namespace PiCF.Spec
open Polynomial

/-- `c_0 + c_1 ξ + c_2 ξ² + ...` -/
noncomputable def polyReal (cs : List ℤ) (ξ : ℝ) : ℝ := ∑ i ∈ Finset.range cs.length, (cs.getD i 0 : ℝ) * ξ ^ i

/-- The documented value of a rational function with an added integer, at a real constant. -/
noncomputable def rfReal (p : List ℤ × List ℤ × ℤ) (ξ : ℝ) : ℝ := polyReal p.1 ξ / polyReal p.2.1 ξ + p.2.2

/-- The documented effect of a call on a real value. -/
def LhsOp.realEffect : LhsOp → ℝ → ℝ
  | .flip, v => -v
  | .add n, v => v + n
  | .canon, v => v

end PiCF.Spec
