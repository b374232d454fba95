import Verif.Model.Fit
import Verif.Model.Process
import Verif.Model.Estimator

/-!
# Model of the plots of process_and_compare.py and gen_errors_for_nips.py

A call of a plotting function is modelled by the calls of matplotlib that draw points and lines, show, save and close the picture; titles, labels and the
interactive mode are left out.  Logarithms are exact, as in `Model/Fit`.  The errors are numbers: NaN is dropped by the condition
`abs(err) > effective_zero` of all these functions.
-/

namespace PiCF.Process
open PiCF.Hashtable PiCF.ContFrac

/-- Calls of matplotlib. -/
inductive PltCall where
  /-- `plt.subplot`, or `plt.title` when there is only one coordinate system (then the number is 1). -/
  | panel (n : ℕ)
  /-- `plt.plot(xs, ys, 'r.')` -/
  | dots (xs ys : List ℝ)
  /-- `plt.plot(xs, ys, 'g-')` with the slope in the label -/
  | line (xs ys : List ℝ) (slope : ℝ)
  | shown
  | saved (path : Str)
  | closed

/-- process_and_compare.py:198 and gen_errors_for_nips.py:44: `(i, log(i), log(err))` for the errors above `1E-140`. -/
noncomputable def plotPoints (base : ℝ) (errors : List (ℕ × ℚ)) : Except PyErr (List (ℝ × ℝ × ℝ)) :=
  (errors.filter fun p => 1 / 10 ^ 140 < |p.2|).mapM fun p => do
    let x ← logOf base (p.1 : ℝ)
    let y ← logOf base (p.2 : ℝ)
    return ((p.1 : ℝ), x, y)

/-- process_and_compare.py:208-217, 223-232 and gen_errors_for_nips.py:54-63, 70-79 -/
noncomputable def drawSeries (xs ys : List ℝ) : Option Fit → List PltCall
  | some f => [.dots xs ys, .line xs (xs.map fun x => f.intercept + f.slope * x) f.slope]
  | none => [.dots xs ys]

/-- process_and_compare.py:236-243 and gen_errors_for_nips.py:85-92; no path (None) is an empty one. -/
def finishPlot (showPlot : Bool) (path : Str) : List PltCall :=
  (if showPlot then [.shown] else []) ++ (if path = [] then [] else [.saved path]) ++ if showPlot then [] else [.closed]

/-- process_and_compare.py:188-243 `plot_errors` -/
noncomputable def plotErrors (errors : List (ℕ × ℚ)) (fits : Option Fits) (showPlot : Bool) (path : Str) : Except PyErr (List PltCall) := do
  let es ← plotPoints (Real.exp 1) errors
  let ys := es.map fun e => e.2.2
  return [.panel 1] ++ drawSeries (es.map fun e => e.1) ys (fits.map Fits.exponential) ++
    [.panel 2] ++ drawSeries (es.map fun e => e.2.1) ys (fits.map Fits.polynomial) ++ finishPlot showPlot path

/-- The slice `l[:hi]`. -/
def sliceTo {α : Type} (hi : ℤ) (l : List α) : List α := if 0 ≤ hi then l.take hi.toNat else l.take (l.length - (-hi).toNat)

/-- gen_errors_for_nips.py:35-92 `plot_errors` -/
noncomputable def plotErrorsNips (errors : List (ℕ × ℚ)) (fits : Option Fits) (showPlot : Bool) (path : Str) (kind : Str := "poly".toList)
    (hi : ℤ := -1) : Except PyErr (List PltCall) := do
  let es ← plotPoints 10 errors
  let ys := (sliceTo hi es).map fun e => e.2.2
  if kind = "exp".toList then
    return [.panel 1] ++ drawSeries ((sliceTo hi es).map fun e => e.1) ys (fits.map Fits.exponential) ++ finishPlot showPlot path
  else if kind = "poly".toList then
    return [.panel 1] ++ drawSeries ((sliceTo hi es).map fun e => e.2.1) ys (fits.map Fits.polynomial) ++ finishPlot showPlot path
  else .error .valueError

/-- The errors that are numbers; the others (NaN, for convergents with denominator 0) are dropped by `abs(err) > effective_zero`.  (With a target that is
a number the errors are not infinite.) -/
def numbers (errors : List (ℕ × Num)) : List (ℕ × ℚ) :=
  errors.filterMap fun p => match p.2 with
    | .fin q => some (p.1, q)
    | _ => none

/-- gen_errors_for_nips.py:131-141 `analyze_contfrac` for boundaries that are not negative: the fits, and the calls of matplotlib. -/
noncomputable def analyzeContfrac (lin : Linregress) (target : ℚ) (path kind : Str) (lo hi : ℕ) : PyM CF (Fits × List PltCall) := do
  let errors ← buildErrors (.fin target) (if 2000 < hi then hi else 2000)
  let lf ← liftE (fitLines lin 10 (1 / 10 ^ 100) (numbers ((errors.take hi).drop lo)))
  let calls ← liftE (plotErrorsNips (numbers errors) (some lf) true path kind hi)
  return (lf, calls)

end PiCF.Process
