import Mathlib.NumberTheory.Real.Irrational

/-!
# Specification: comparing real numbers by the digits after the point
-/

namespace PiCF.Spec

/-- The first `n` digits after the point of the absolute values are the same. -/
def DigitsAgree (n : ℕ) (l l' : ℝ) : Prop := ⌊Int.fract |l| * 10 ^ n⌋ = ⌊Int.fract |l'| * 10 ^ n⌋

end PiCF.Spec
