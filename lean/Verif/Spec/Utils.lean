import Mathlib.Data.Rat.Defs
import Mathlib.Algebra.Ring.Defs

/-!
# Specifications for `utils.py`, independent of the model
-/

namespace PiCF.Spec

/-- Value of `c₀ + c₁ x + c₂ x² + …` by Horner's rule. -/
def horner {R : Type*} [CommRing R] : List R → R → R
  | [], _ => 0
  | c :: cs, x => c + x * horner cs x

/-- One call on a stopwatch, with the clock reading at the time of the call. -/
inductive WatchOp where
  | start (now : ℚ)
  | measure (now : ℚ)
  deriving DecidableEq, Repr

/-- What a stopwatch should return: `last` is the time of the previous effective call, only the first
`start` is effective.  Returns the measured intervals. -/
def watchIntervals : List WatchOp → (last : ℚ) → (started : Bool) → List ℚ
  | [], _, _ => []
  | .start t :: ops, last, started =>
      if started then watchIntervals ops last true else watchIntervals ops t true
  | .measure t :: ops, last, started => (t - last) :: watchIntervals ops t started

/-- The time of the last effective call. -/
def lastStamp : List WatchOp → (last : ℚ) → (started : Bool) → ℚ
  | [], last, _ => last
  | .start t :: ops, last, started =>
      if started then lastStamp ops last true else lastStamp ops t true
  | .measure t :: ops, _, started => lastStamp ops t started

end PiCF.Spec
