import Mathlib.Analysis.SpecialFunctions.Log.Basic
import Mathlib.Analysis.SpecialFunctions.Sqrt
import Mathlib.Analysis.SpecialFunctions.Trigonometric.Basic
import Verif.Model.Postproc

/-!
# Specification: the functions that the names of the post-processing functions stand for
-/

namespace PiCF.Spec

/-- The mathematical functions in the order of postprocfuncs.py:75-98, without the inverses. -/
noncomputable def mathFuncs : List (ℝ → ℝ) :=
  [id, fun x => x ^ 2, fun x => x ^ 3, fun x => x ^ 4, fun x => x ^ 5, Real.sqrt, Real.sin, Real.cos, Real.tan, fun x => (Real.tan x)⁻¹, Real.exp, Real.log]

/-- The mathematical function with index `i`: function `i/2`, or its inverse value if `i` is odd. -/
noncomputable def mathFunc (i : ℕ) (x : ℝ) : ℝ :=
  if i % 2 = 0 then mathFuncs.getD (i / 2) id x else (mathFuncs.getD (i / 2) id x)⁻¹

/-- Function `i` can be evaluated near `x`: the logarithm and the square root for positive `x`, the inverse values where the function is not zero.
The trigonometric functions (12 to 19) are left out. -/
def PostDomain (i : ℕ) (x : ℝ) : Prop :=
  (i < 12 ∨ 20 ≤ i) ∧ i < 24 ∧ (i / 2 = 5 ∨ i / 2 = 11 → 0 < x) ∧ (i % 2 = 1 → mathFuncs.getD (i / 2) id x ≠ 0)

/-- Square root, exponential and logarithm are computed with a relative error of at most `u`. -/
structure AnalysisOk (A : Postproc.Analysis) (u : ℚ) : Prop where
  sqrt : ∀ q : ℚ, 0 ≤ q → |(A.sqrt q : ℝ) - Real.sqrt q| ≤ u * Real.sqrt q
  exp : ∀ q : ℚ, |(A.exp q : ℝ) - Real.exp q| ≤ u * Real.exp q
  ln : ∀ q : ℚ, 0 < q → |(A.ln q : ℝ) - Real.log q| ≤ u * |Real.log q|

end PiCF.Spec
