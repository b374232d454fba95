import Mathlib.Algebra.Order.Ring.Rat

/-!
# Specification of `d ** 0.5` on floats
-/

namespace PiCF.Spec

/-- What is assumed of `d ** 0.5` for integers `0 ≤ d < 2^44`: not negative, a relative error of the square of at most `2^-50` (the
error of `pow` in the C library is below one unit in the last place), and exact for squares. -/
structure PowHalfOk (pow : ℤ → ℚ) : Prop where
  nonneg : ∀ d, 0 ≤ d → d < 2 ^ 44 → 0 ≤ pow d
  err : ∀ d : ℤ, 0 ≤ d → d < 2 ^ 44 → |pow d ^ 2 - d| ≤ 1 / 2 ^ 50 * d
  exact : ∀ k : ℤ, 0 ≤ k → k ^ 2 < 2 ^ 44 → pow (k ^ 2) = k

end PiCF.Spec
