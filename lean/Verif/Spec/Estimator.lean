import Mathlib.Algebra.BigOperators.Intervals
import Mathlib.Algebra.Order.Field.Rat

/-!
# Specification of the classification of a convergence
-/

namespace PiCF.Spec
open Finset

/-- The factor by which the distance of values two steps apart shrinks at `i`. -/
def shrink (x : ℕ → ℚ) (i : ℕ) : ℚ := |x (i + 2) - x i| / |x (i + 4) - x (i + 2)|

/-- The average of `f 0, ..., f (n-1)`. -/
def avg (n : ℕ) (f : ℕ → ℚ) : ℚ := (∑ j ∈ range n, f j) / n

/-- The sum of the squared deviations from the average. -/
def sqDev (n : ℕ) (f : ℕ → ℚ) : ℚ := ∑ j ∈ range n, (f j - avg n f) ^ 2

/-- The root of the sum of the squared deviations, divided by the number of values, is more than half of the average, also if the root
is computed with a relative error `ε`. -/
def Scattered (ε : ℚ) (n : ℕ) (f : ℕ → ℚ) : Prop := ((1 + ε) * n * avg n f) ^ 2 < 4 * sqDev n f

/-- It is at most half of the average, also if computed with a relative error `ε`. -/
def Calm (ε : ℚ) (n : ℕ) (f : ℕ → ℚ) : Prop := 4 * (1 + ε) ^ 2 * sqDev n f ≤ (n * avg n f) ^ 2

/-- The factors in the last quarter of the samples are above 2. -/
def EndsFast (n : ℕ) (f : ℕ → ℚ) : Prop := ∀ j < n, n - n % 4 ≤ j + n / 4 → 2 < f j

/-- The average over `|x (i+t+2) - x (i+t)| = C (p^(-(i+t)) - p^(-(i+t+2)))` of the constant `C`, `i = i_0, ..., i_(n-1)` and `t = 0, 2`. -/
def fitCoeff (n : ℕ) (idx : ℕ → ℕ) (x : ℕ → ℚ) (p : ℚ) : ℚ :=
  avg n fun j => (|x (idx j + 2) - x (idx j)| * p ^ idx j + |x (idx j + 4) - x (idx j + 2)| * p ^ (idx j + 2)) / (1 - (p ^ 2)⁻¹) / 2

end PiCF.Spec
