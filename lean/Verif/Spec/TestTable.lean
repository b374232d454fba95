import Mathlib.Analysis.SpecialFunctions.Pow.Real
import Mathlib.NumberTheory.Real.GoldenRatio
import Mathlib.Analysis.Real.Pi.Bounds

/-!
# The table of tests/test_cont_fracs.py
-/

namespace PiCF.Spec

/-- A row of the table: the arguments of `reinitialize`, the number of iterations, the number the result is compared with, and the
largest error. -/
structure TestRow where
  a : List (List ℤ)
  b : List (List ℤ)
  iters : ℕ
  target : ℝ
  threshold : ℚ

/-- tests/test_cont_fracs.py:11-18 -/
noncomputable def testRows : List TestRow :=
  [⟨[[2]], [[1, -4, 4]], 550, 4 / Real.pi + 1, 8 / 10 ^ 4⟩,
   ⟨[[6]], [[1, -4, 4]], 500, Real.pi + 3, 1 / 10 ^ 8⟩,
   ⟨[[1, 2]], [[0, 0, 1]], 200, 4 / Real.pi, 1 / 10 ^ 15⟩,
   ⟨[[2, 1]], [[0, -1]], 400, Real.exp 1 / (Real.exp 1 - 1), 1 / 10 ^ 15⟩,
   ⟨[[1]], [[1]], 400, Real.goldenRatio, 1 / 10 ^ 15⟩,
   ⟨[[2], [0, 12]], [[-1, 6], [-5, 6]], 400, 2 ^ (1 / 12 : ℝ) + 1, 1 / 10 ^ 15⟩]

end PiCF.Spec
