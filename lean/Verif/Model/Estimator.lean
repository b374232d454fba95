import Mathlib.Algebra.BigOperators.Group.List.Basic
import Mathlib.Algebra.Order.Field.Basic
import Mathlib.Algebra.Order.Field.Rat
import Verif.Model.ContFrac

/-!
# Model of the classification part of the convergence estimator (cont_fracs.py:251-376)

`Model/ContFrac.lean` models how the results are sampled (`estimateSamples`); this file models what is computed from
the samples, and the method `estimate_approach_type_and_params` as a method of the object.
-/

namespace PiCF.ContFrac

/-- The external numerical functions the estimator uses.  `sqrt` is `mpf.sqrt` (cont_fracs.py:323, 325), `root x` is
`x ** mpf(0.5)` (lines 344-345), `toFloat` the conversion of an `mpf` by `math.log` (lines 366, 370; small numbers may
become zero), `effZero` is `dec(10)**-mp.dps` (line 251). -/
structure Analysis where
  sqrt : ℚ → ℚ
  root : ℚ → ℚ
  toFloat : ℚ → ℚ
  effZero : ℚ

/-- An entry of `delta_pair` or `delta_odd`: an index and the absolute difference of two results; `none` is NaN. -/
abbrev Delta := ℤ × Option ℚ

/-- `abs(x - y)` of two results.  Results are quotients of integers or NaN (cont_fracs.py:112-118), never infinite; an
infinite operand is treated as NaN. -/
def absDiff : Num → Num → Option ℚ
  | .fin x, .fin y => some |x - y|
  | _, _ => none

/-- cont_fracs.py:273-276 and 292-295 for the six results labelled `i`: the two entries of `delta_pair` and the two of
`delta_odd`. -/
def deltasOf (s : ℤ × List Num) : List Delta × List Delta :=
  let r (k : ℕ) := s.2.getD k .nan
  ([(s.1, absDiff (r 2) (r 0)), (s.1 + 2, absDiff (r 4) (r 2))],
   [(s.1 + 1, absDiff (r 3) (r 1)), (s.1 + 3, absDiff (r 5) (r 3))])

/-- `delta_pair` -/
def deltaPair (samples : List (ℤ × List Num)) : List Delta := samples.flatMap fun s => (deltasOf s).1

/-- `delta_odd` -/
def deltaOdd (samples : List (ℤ × List Num)) : List Delta := samples.flatMap fun s => (deltasOf s).2

/-- `len(ds) > 3 and all([abs(p[1]) < effective_zero for p in ds[-3:]])`, cont_fracs.py:299-302.  NaN compares false. -/
def diminishes (effZero : ℚ) (ds : List Delta) : Bool :=
  decide (ds.length > 3) && (ds.drop (ds.length - 3)).all fun d =>
    match d.2 with
    | some x => decide (|x| < effZero)
    | none => false

/-- The list comprehensions of cont_fracs.py:312-317: the quotient of entries `i`, `i + 1` for even `i`, if both are
neither zero nor NaN.  (The index in the first component of the code's list is never used.) `delta[i+1]` exists because
entries are appended in pairs. -/
def ratios : List Delta → List ℚ
  | d :: d' :: ds =>
    match d.2, d'.2 with
    | some x, some y => if x ≠ 0 ∧ y ≠ 0 then x / y :: ratios ds else ratios ds
    | _, _ => ratios ds
  | _ => []

/-- `sum(rs) / len(rs)`, cont_fracs.py:322, 324 -/
def mean (rs : List ℚ) : ℚ := rs.sum / rs.length

/-- `sum([(r - mean)**2 ...]).sqrt() / len(rs) / mean`, cont_fracs.py:323, 325-327 -/
def relErr (A : Analysis) (rs : List ℚ) : ℚ :=
  A.sqrt ((rs.map fun r => (r - mean rs) ^ 2).sum) / rs.length / mean rs

/-- `rs[3*int(len(rs)/4):]`, cont_fracs.py:329-330 -/
def lastQuarter (rs : List ℚ) : List ℚ := rs.drop (3 * (rs.length / 4))

/-- The list of cont_fracs.py:347-349 / 351-353: `abs(d * p**i / (1 - p**(-2)))` for the entries that are neither zero
nor NaN. -/
def coeffList (p : ℚ) : List Delta → List ℚ
  | [] => []
  | (i, some d) :: ds => if d ≠ 0 then |d * p ^ i / (1 - p ^ (-2 : ℤ))| :: coeffList p ds else coeffList p ds
  | (_, none) :: ds => coeffList p ds

/-- cont_fracs.py:344-356: base and coefficient of an exponential approach.  Python raises ZeroDivisionError for
`1 - p**(-2) = 0`, for `0**(-2)` and for an empty list. -/
def expParams (A : Analysis) (dp dodd : List Delta) (mp mo : ℚ) : Except PyErr (ℚ × ℚ) :=
  let p := min (A.root mp) (A.root mo)
  if p = 0 ∨ 1 - p ^ (-2 : ℤ) = 0 then .error .zeroDivision
  else if coeffList p dp = [] ∨ coeffList p dodd = [] then .error .zeroDivision
  else .ok (p, min (mean (coeffList p dp)) (mean (coeffList p dodd)))

/-- `math.log(i)` and `math.log(d)` of cont_fracs.py:365-366 for one entry: ValueError unless positive; NaN is accepted. -/
def logOk (A : Analysis) (d : Delta) : Bool :=
  decide (0 < d.1) && (match d.2 with
    | some x => decide (0 < A.toFloat x)
    | none => true)

/-- cont_fracs.py:364-376.  The three numbers of the linear fit (`scipy.stats.linregress`) are not modelled and are
recorded as `none`; only whether the logarithms raise is. -/
def polyParams (A : Analysis) (dp dodd : List Delta) : Except PyErr (ApproachType × Option (ℚ × ℚ)) :=
  if dp.all (logOk A) && dodd.all (logOk A) then .ok (.poly, none) else .error .valueError

/-- `exponential_threshold=1.1`, cont_fracs.py:241 -/
def expThreshold : ℚ := 11 / 10

/-- cont_fracs.py:297-310: the provisional type.  (It is not returned at once, lines 309-310 are commented out.) -/
def provisional (A : Analysis) (dp dodd : List Delta) : ApproachType :=
  match diminishes A.effZero dp, diminishes A.effZero dodd with
  | true, true => .fast
  | false, false => .none
  | _, _ => .undefined

/-- cont_fracs.py:335-363, the second `if`: `sup` says whether the type is `'super_exp'` at this point. -/
def classifyMeans (A : Analysis) (sup : Bool) (dp dodd : List Delta) (mp mo : ℚ) :
    Except PyErr (ApproachType × Option (ℚ × ℚ)) :=
  match decide (mp > expThreshold), decide (mo > expThreshold) with
  | true, true =>
    match expParams A dp dodd mp mo with
    | .error e => .error e
    | .ok ps => .ok (if sup then .superExp else .exp, some ps)
  | false, false => polyParams A dp dodd
  | _, _ => .ok (.mixed, none)

/-- cont_fracs.py:297-376 with `find_poly_parameter=True`, as it is always called (lines 163, 171, 181).  The value 0 of
`approach_parameter` is `none`.  `sum([]) / len([])` for an empty `odd_ratio` raises ZeroDivisionError (line 324). -/
def classify (A : Analysis) (dp dodd : List Delta) : Except PyErr (ApproachType × Option (ℚ × ℚ)) :=
  let pr := ratios dp
  let or := ratios dodd
  if pr.length < 6 then .ok (provisional A dp dodd, none)
  else if or = [] then .error .zeroDivision
  else if mean pr = 0 ∨ mean or = 0 then .error .zeroDivision
  else if relErr A pr > 1 / 2 ∨ relErr A or > 1 / 2 then
    if (lastQuarter pr ++ lastQuarter or).all fun r => decide (r > 2) then
      classifyMeans A true dp dodd (mean pr) (mean or)
    else .ok (.undefined, none)
  else classifyMeans A false dp dodd (mean pr) (mean or)

/-- A computation that does not touch the object. -/
def liftE {α : Type} (r : Except PyErr α) : PyM CF α := fun s => (s, r)

/-- cont_fracs.py:240-376 `_estimate_approach_type_and_params_inner_alg` -/
def innerAlg (A : Analysis) (iters cutoff step : ℤ) : PyM CF (ApproachType × Option (ℚ × ℚ)) := do
  let samples ← estimateSamples iters cutoff step
  liftE (classify A (deltaPair samples) (deltaOdd samples))

/-- cont_fracs.py:167-174 on the object. -/
def estObjLoop1 (A : Analysis) (iters cutoff step : ℤ) (ans : ApproachType × Option (ℚ × ℚ)) :
    PyM CF ((ApproachType × Option (ℚ × ℚ)) × ℤ) := fun s =>
  if _h : ans.1 = .fast ∧ cutoff > 0 then
    let cutoff := cutoff.fdiv 2
    let iters := max 50 (iters.fdiv 2)
    let step := max (truncDiv30 (iters - cutoff)) (step.fdiv 2)
    match innerAlg A iters cutoff step s with
    | (s, .error e) => (s, .error e)
    | (s, .ok ans) => estObjLoop1 A iters cutoff step ans s
  else (s, .ok (ans, cutoff))
termination_by cutoff.toNat
decreasing_by
  have _h1 := _h.2
  simp only [Int.fdiv_eq_ediv_of_nonneg _ (show (0:ℤ) ≤ 2 by decide)]
  omega

/-- cont_fracs.py:178-184 on the object. -/
def estObjLoop2 (A : Analysis) (iters : ℤ) (ans : ApproachType × Option (ℚ × ℚ)) :
    PyM CF (ApproachType × Option (ℚ × ℚ)) := fun s =>
  if _h : ans.1 = .fast ∧ iters > 10 then
    let iters := iters - 5
    match innerAlg A iters 0 1 s with
    | (s, .error e) => (s, .error e)
    | (s, .ok ans) => estObjLoop2 A iters ans s
  else (s, .ok ans)
termination_by (iters - 10).toNat
decreasing_by
  have _h1 := _h.2
  omega

/-- cont_fracs.py:161-187 `estimate_approach_type_and_params` -/
def estimateApproachObj (A : Analysis) (iters cutoff step : ℤ) : PyM CF Unit := do
  let ans ← innerAlg A iters cutoff step
  let (ans, cutoff) ← estObjLoop1 A iters cutoff step ans
  let ans ← (if cutoff = 0 then estObjLoop2 A 50 ans else pure ans)
  setApproach ans.1 ans.2

end PiCF.ContFrac
