import Mathlib.Algebra.BigOperators.Group.List.Basic
import Mathlib.Algebra.Order.Field.Rat

/-!
# Specification of rounded arithmetic
-/

namespace PiCF.Spec

/-- What is assumed of a rounding: relative error at most `u < 1`, and the integers below `M` are exact. -/
structure RoundOk (rnd : ℚ → ℚ) (u : ℚ) (M : ℤ) : Prop where
  u0 : 0 ≤ u
  u1 : u < 1
  err : ∀ x, |rnd x - x| ≤ u * |x|
  exact : ∀ m : ℤ, |m| < M → rnd m = m

/-- `v'` and `v` are within a factor of `F` of each other. -/
def Within (F v' v : ℚ) : Prop := v' ≤ F * v ∧ v ≤ F * v'

/-- `|c_0| + |c_1| x + |c_2| x² + ...` -/
def absSum (cs : List ℤ) (x : ℤ) : ℤ := ((List.range cs.length).map fun j => |cs.getD j 0| * |x| ^ j).sum

/-- The size of the terms of `(u/x + x/l + c)/d`. -/
def ulcdSize (p : ℤ × ℤ × ℤ × ℤ) (x : ℚ) : ℚ := (|p.1 / x| + |x / p.2.1| + |(p.2.2.1 : ℚ)|) / |(p.2.2.2 : ℚ)|

end PiCF.Spec
