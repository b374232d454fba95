import Mathlib.Data.Real.Basic
import Mathlib.Algebra.BigOperators.Group.List.Basic

/-!
# Least squares
-/

namespace PiCF.Spec

/-- The sum of the squared distances of the points to the line `y = m x + c`. -/
def sqDist (ps : List (ℝ × ℝ)) (m c : ℝ) : ℝ := (ps.map fun p => (p.2 - (m * p.1 + c)) ^ 2).sum

/-- The line `y = m x + c` is a best fit of the points. -/
def LeastSquares (ps : List (ℝ × ℝ)) (m c : ℝ) : Prop := ∀ m' c', sqDist ps m c ≤ sqDist ps m' c'

/-- The sum of the squared distances to the nearest constant: the spread of some numbers. -/
def SpreadAtLeast (xs : List ℝ) (S : ℝ) : Prop := ∀ c, S ≤ (xs.map fun x => (x - c) ^ 2).sum

end PiCF.Spec
