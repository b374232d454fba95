import Mathlib.Data.Int.Log
import Mathlib.Data.Rat.Floor
import Verif.Model.Pipeline

/-!
# Model of the evaluation of continued fractions with rounding (cont_fracs.py:107-120, 378-428)

`Model/ContFrac.lean` models these functions with exact numbers.  Here the result of every operation on `mpf` numbers is rounded by
a function `rnd : ℚ → ℚ`, a parameter; `roundBin` is the rounding of `mpf`.
-/

namespace PiCF.Rounded
open PiCF.ContFrac

/-- The integer nearest to `x`, the even one if there are two. -/
def roundEven (x : ℚ) : ℤ :=
  if x - ⌊x⌋ < 1 / 2 then ⌊x⌋ else if 1 / 2 < x - ⌊x⌋ then ⌊x⌋ + 1 else if ⌊x⌋ % 2 = 0 then ⌊x⌋ else ⌊x⌋ + 1

/-- Rounding to `p` significant binary digits, to nearest and to even (the default of mpmath, `mp.prec = p`).  mpmath's exponents are
unbounded. -/
def roundBin (p : ℕ) (x : ℚ) : ℚ :=
  if x = 0 then 0 else roundEven (x / 2 ^ (Int.log 2 |x| + 1 - p)) * 2 ^ (Int.log 2 |x| + 1 - p)

/-- utils.py:69-75 `subs_in_polynom` on `mpf` coefficients and an integer `x`: `x ** j` is exact, products and sums are rounded.
`sum` starts with 0. -/
def subsR (rnd : ℚ → ℚ) (coeffs : List ℚ) (x : ℤ) : ℚ :=
  ((List.range coeffs.length).map fun j => rnd (coeffs.getD j 0 * (x : ℚ) ^ j)).foldl (fun acc t => rnd (acc + t)) 0

/-- The loop of cont_fracs.py:396-397 on `mpf` numbers; ZeroDivisionError when `res` is zero. -/
def evalLoopR (rnd : ℚ → ℚ) : List (ℚ × ℚ) → ℚ → Except PyErr ℚ
  | [], res => .ok res
  | (a, b) :: rest, res => if res = 0 then .error .zeroDivision else evalLoopR rnd rest (rnd (a + rnd (b / res)))

/-- cont_fracs.py:378-398 `eval_contfrac` on lists of `mpf` numbers. -/
def evalContfracR (rnd : ℚ → ℚ) (a b : List ℚ) : Except PyErr ℚ :=
  if a.length = b.length then evalLoopR rnd (a.reverse.zip b.reverse) 1
  else if a.length = b.length + 1 then evalLoopR rnd (a.dropLast.reverse.zip b.reverse) (a.getLastD 0)
  else .error .valueError

/-- cont_fracs.py:414-428 `eval_dec_contfrac_by_polys`; `dec(i)` rounds the coefficients (lines 425-426). -/
def evalByPolysR (rnd : ℚ → ℚ) (a b : Coeffs) (depth : ℕ) : Except PyErr ℚ :=
  if a = [] ∨ b = [] then .error .indexError
  else
    evalContfracR rnd
      ((List.range depth).map fun i => subsR rnd ((a.getD (i % a.length) []).map fun (c : ℤ) => rnd (c : ℚ)) i)
      ((List.range' 1 (depth - 1)).map fun i => subsR rnd ((b.getD (i % b.length) []).map fun (c : ℤ) => rnd (c : ℚ)) i)

/-- cont_fracs.py:112-118 (and 95-101): `p`, `q` are integers of any size, converted to `mpf` and divided. -/
def quotientR (rnd : ℚ → ℚ) (p q : ℤ) : Num := if rnd q = 0 then .nan else .fin (rnd (rnd p / rnd q))

/-- enum_params.py:239-240, the evaluator of `refine_clicks_with_const_num_of_iters`, with rounding. -/
def evalConstR (rnd : ℚ → ℚ) (n : ℕ) (a b : EnumPoly.Polys) (_ : Option Mitm.Conv) : Except PyErr Num := (evalByPolysR rnd a b n).map .fin

end PiCF.Rounded
