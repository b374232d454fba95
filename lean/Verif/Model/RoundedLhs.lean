import Verif.Model.Rounded
import Verif.Model.Ulcd

/-!
# Model of `ULCDEvaluator` with rounding (lhs_evaluators.py:98-124)

As `Model/Ulcd.lean`, but the result of every operation on `mpf` numbers is rounded by `rnd`.  The parameters are python integers: they are
not rounded, neither alone nor as operands.
-/

namespace PiCF.Rounded
open PiCF.Lhs

/-- lhs_evaluators.py:110, 117, 124: `(u / target + target / l + c) / d`; each of the two divisions by a constant, the two sums and the last
division is rounded. -/
def ulcdValR (rnd : ℚ → ℚ) (x : ℚ) (p : ℤ × ℤ × ℤ × ℤ) : Except PyErr ℚ :=
  match p with
  | (u, l, c, d) =>
    if x = 0 ∨ l = 0 ∨ d = 0 then .error .zeroDivision
    else .ok (rnd (rnd (rnd (rnd (u / x) + rnd (x / l)) + c) / d))

/-- lhs_evaluators.py:108-110 -/
def assignR (rnd : ℚ → ℚ) (p : ℤ × ℤ × ℤ × ℤ) : PyM Ulcd Unit := fun s =>
  match ulcdValR rnd s.x p with
  | .error e => ({ s with params := p }, .error e)
  | .ok v => ({ s with params := p, val := v }, .ok ())

/-- lhs_evaluators.py:26-37 and 100-102: construction from a tuple. -/
def ulcdInitR (rnd : ℚ → ℚ) (p : ℤ × ℤ × ℤ × ℤ) (x : ℚ) : Except PyErr Ulcd :=
  match ulcdValR rnd x p with
  | .error e => .error e
  | .ok v => .ok ⟨p, x, v⟩

/-- lhs_evaluators.py:112-117 -/
def flipSignR (rnd : ℚ → ℚ) : PyM Ulcd Unit := fun s =>
  match s.params with
  | (u, l, c, d) => assignR rnd (u, l, c, d * -1) s

/-- lhs_evaluators.py:119-124 -/
def addIntR (rnd : ℚ → ℚ) (i : ℤ) : PyM Ulcd Unit := fun s =>
  match s.params with
  | (u, l, c, d) => assignR rnd (u, l, c + d * i, d) s

end PiCF.Rounded
