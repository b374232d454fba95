import Mathlib.Analysis.SpecialFunctions.Log.Base
import Verif.Py

/-!
# Model of the regressions of cont_fracs.py, process_and_compare.py and gen_errors_for_nips.py

The errors are finite numbers (no `inf` or `nan`).  `scipy.stats.linregress` is an argument; of its five results the first two are
modelled (`r_value`, `p_value` and `std_err` are not).  Logarithms are exact; the floats `10**-15` and `math.log` round.
-/

namespace PiCF.Process

/-- The first two results of `scipy.stats.linregress`. -/
structure Fit where
  slope : ℝ
  intercept : ℝ

/-- `scipy.stats.linregress(xs, ys)` -/
abbrev Linregress := List ℝ → List ℝ → Except PyErr Fit

/-- `math.log(x)`, `mpmath.log10(x)` converted to a float: an error for `x <= 0` (for negative numbers `log10` returns a complex number, and
the conversion raises `TypeError`; the type of the exception is not modelled). -/
noncomputable def logOf (base : ℝ) (x : ℝ) : Except PyErr ℝ := if x ≤ 0 then .error .valueError else .ok (Real.logb base x)

/-- The results of `find_linear_fitting`. -/
structure Fits where
  exponential : Fit
  polynomial : Fit

/-- process_and_compare.py:253-266 for the errors left, and gen_errors_for_nips.py:102-115: the fits of the errors above `zero` in absolute value,
against the index and against its logarithm. -/
noncomputable def fitLines (lin : Linregress) (base : ℝ) (zero : ℚ) (errors : List (ℕ × ℚ)) : Except PyErr Fits := do
  let kept := errors.filter fun p => zero < |p.2|
  let ys ← kept.mapM fun p => logOf base (p.2 : ℝ)
  let e ← lin (kept.map fun p => (p.1 : ℝ)) ys
  let xs ← kept.mapM fun p => logOf base (p.1 : ℝ)
  let ys ← kept.mapM fun p => logOf base (p.2 : ℝ)
  let p ← lin xs ys
  return ⟨e, p⟩

/-- process_and_compare.py:249-250, the loop that moves the cutoff (not negative here). -/
def cutoffLoop (errors : List (ℕ × ℚ)) (cutoff : ℕ) : Except PyErr ℕ :=
  match errors[cutoff]? with
  | none => .error .indexError
  | some e => if e.2 < 1 / 10 ^ 15 ∧ 0 < cutoff then cutoffLoop errors (cutoff / 2) else .ok cutoff
termination_by cutoff
decreasing_by omega

/-- process_and_compare.py:246-266 `find_linear_fitting` -/
noncomputable def findLinearFitting (lin : Linregress) (errors : List (ℕ × ℚ)) (cutoff : ℕ := 500) : Except PyErr Fits := do
  let c ← cutoffLoop errors cutoff
  fitLines lin (Real.exp 1) (1 / 10 ^ 50) (errors.drop c)

/-- gen_errors_for_nips.py:95-115 `find_linear_fitting` for boundaries that are not negative. -/
noncomputable def findLinearFittingBetween (lin : Linregress) (errors : List (ℕ × ℚ)) (lo hi : ℕ) : Except PyErr Fits :=
  fitLines lin 10 (1 / 10 ^ 100) ((errors.take hi).drop lo)

/-- The results of a fit against the logarithm of the index, cont_fracs.py:365-368 and 369-371. -/
noncomputable def fitLog (lin : Linregress) (deltas : List (ℕ × ℚ)) : Except PyErr Fit := do
  let xs ← deltas.mapM fun p => logOf (Real.exp 1) (p.1 : ℝ)
  let ys ← deltas.mapM fun p => logOf (Real.exp 1) (p.2 : ℝ)
  lin xs ys

/-- cont_fracs.py:364-376, the parameters of a polynomial approach (the third one, `R^2`, is not modelled): the order, and the
logarithm of the coefficient of the differences.  The entries are numbers, not NaN; `Estimator.polyParams` models for all entries whether the
logarithms raise. -/
noncomputable def polyOrder (lin : Linregress) (pair odd : List (ℕ × ℚ)) : Except PyErr (ℝ × ℝ) := do
  let f ← fitLog lin pair
  let g ← fitLog lin odd
  return (min |f.slope| |g.slope| - 1, min f.intercept g.intercept)

end PiCF.Process
