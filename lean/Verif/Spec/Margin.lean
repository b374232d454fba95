import Mathlib.Algebra.Order.Archimedean.Real.Basic
import Verif.Spec.Limit

/-!
# Specification: numbers whose first digits are stable
-/

namespace PiCF.Spec

/-- The absolute value of `l` has a distance of more than `δ` from every number with `n` digits after the point, and a fractional part of at
least `10^-6 + δ`.  (If the digits `n+1, …, n+k` after the point are neither all 0 nor all 9, the first part holds with `δ < 10^(-n-k)`.) -/
def KeepsClear (n : ℕ) (δ l : ℝ) : Prop := (∀ k : ℤ, δ < abs (|l| - k / 10 ^ n)) ∧ 1 / 10 ^ 6 + δ ≤ Int.fract |l|

end PiCF.Spec
