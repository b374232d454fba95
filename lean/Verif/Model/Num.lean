import Mathlib.Data.Rat.Defs
import Mathlib.Algebra.Field.Rat

/-!
# Numbers of the arbitrary precision type (`mpf`)

Rounding is not modelled: finite values are exact rationals.
-/

namespace PiCF

/-- A value of type `mpf`: finite, infinite (`dec('inf')`) or `dec('NaN')`. -/
inductive Num where
  | fin (x : ℚ)
  | inf
  | nan
  deriving DecidableEq, Repr, Inhabited

/-- `mpmath.isnormal`: finite and non-zero. -/
def Num.isNormal : Num → Bool
  | .fin x => x ≠ 0
  | .inf => false
  | .nan => false

end PiCF
