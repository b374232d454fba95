import Mathlib.Algebra.Order.Floor.Ring
import Mathlib.Data.Rat.Floor
import Mathlib.Algebra.Group.Even
import Mathlib.Algebra.Order.Group.Unbundled.Abs
import Verif.Model.Num
import Verif.Spec.Hashtable

/-!
# Specification vocabulary for the search properties (C51-C63)
-/

namespace PiCF.Spec
open PiCF.Hashtable

/-- The key under which a non-zero number is looked for: its absolute value, or the fractional part of that. -/
def searchKey (trunc : Bool) (y : ℚ) : ℚ := if trunc then Int.fract |y| else |y|

/-- Entry `e = ((a, b), i)` belongs under key `k`: the continued fraction has a finite non-zero value, function `i` is
selected and gives a finite non-zero result whose search key is `k`. -/
def Belongs (cfv : List (List ℤ) → List (List ℤ) → Except PyErr Num) (funcs : List (Num → Except PyErr Num))
    (filter : List ℕ) (trunc : Bool) (k : ℚ) (e : Entry) : Prop :=
  ∃ v f y, cfv e.1.1 e.1.2 = .ok (.fin v) ∧ v ≠ 0 ∧ e.2 ∈ filter ∧ funcs[e.2]? = some f ∧ f (.fin v) = .ok (.fin y) ∧
    y ≠ 0 ∧ k = searchKey trunc y

/-- Iteration over a set visits every member once, in some order. -/
def IsSetOrder {α : Type} (order : List α → List α) : Prop := ∀ l : List α, l.Nodup → (order l).Perm l

/-- What the table holds for the text `s` of a number: the value under the first `n + 1` characters of `s`, for the earliest
accuracy `n` the table ever had under which something is stored. -/
def stored {V : Type} (t : Table V) (s : Str) : Option V :=
  (t.history ++ [t.accuracy]).findSome? fun n => t.data.get? (.str (sliceTo s (n + 1)))

/-- A (complex) root is a positive integer within 0.001. -/
def NearPosInt (r : ℚ × ℚ) : Prop := ∃ n : ℤ, 1 ≤ n ∧ |r.1 - n| < 1 / 1000 ∧ |r.2| < 1 / 1000

/-- What the code takes for a positive integer: less than 0.001 above its nearest integer `n`, but anywhere below it. -/
def TakenForPosInt (r : ℚ × ℚ) : Prop :=
  |r.2| < 1 / 1000 ∧ ∃ n : ℤ, 1 ≤ n ∧ r.1 < n + 1 / 1000 ∧ (n - 1 / 2 < r.1 ∨ (r.1 = n - 1 / 2 ∧ Even n))

end PiCF.Spec
