import Verif.Model.Estimator

/-!
# Model of `is_poly_or_exp_approach` (process_and_compare.py)

The sampling (lines 307-343) is the same as that of the method of the object (`ContFrac.estimateSamples`): the same calls, the same
labels, and the same guard that builds a ValueError without raising it (lines 301-302).
-/

namespace PiCF.Process
open PiCF.ContFrac

/-- process_and_compare.py:362-365: the quotients of entries `i`, `i + 1` for even `i`, if neither is zero.  NaN is not zero. -/
def oldRatios : List Delta → List (Option ℚ)
  | d :: d' :: ds =>
    if d.2 = some 0 ∨ d'.2 = some 0 then oldRatios ds
    else (match d.2, d'.2 with
      | some x, some y => some (x / y)
      | _, _ => none) :: oldRatios ds
  | _ => []

/-- `sum(rs) / len(rs)`, process_and_compare.py:370, 372; NaN if one of the numbers is. -/
def oldMean (rs : List (Option ℚ)) : Option ℚ := (rs.mapM id).map mean

/-- process_and_compare.py:371, 373-375: mean squared deviation divided by the mean (which is positive, or NaN). -/
def oldErr (rs : List (Option ℚ)) : Option ℚ :=
  (rs.mapM id).map fun rs => mean (rs.map fun r => (r - mean rs) ^ 2) / mean rs

/-- `x > t`; NaN compares false. -/
def gtNum (x : Option ℚ) (t : ℚ) : Bool :=
  match x with
  | some x => decide (x > t)
  | none => false

/-- process_and_compare.py:347-410.  Lines 349 and 351 call the method `is_zero` of the differences, which are `mpf` numbers and have
no such method (it is one of `Decimal`).  The value 0 of `approach_parameter` is `none`, and so are the numbers of the linear fit of
lines 397-409 (`scipy.stats.linregress`, not modelled); whether the logarithms raise is. -/
def oldClassify (A : Analysis) (threshold : ℚ) (findPoly : Bool) (dp dodd : List Delta) : Except PyErr (ApproachType × Option ℚ) :=
  if dp.length > 3 ∨ dodd.length > 3 then .error .attributeError
  else
    let pr := oldRatios dp
    let or := oldRatios dodd
    if pr = [] then .ok (.none, none)
    else if or = [] then .error .zeroDivision
    else if gtNum (oldErr or) (1 / 2) || gtNum (oldErr pr) (1 / 2) then .ok (.undefined, none)
    else
      match gtNum (oldMean pr) threshold, gtNum (oldMean or) threshold with
      | true, true => .ok (.exp, (oldMean pr).bind fun p => (oldMean or).map fun o => min (A.root p) (A.root o))
      | false, false =>
        if findPoly then
          if dp.all (logOk A) && dodd.all (logOk A) then .ok (.poly, none) else .error .valueError
        else .ok (.poly, none)
      | _, _ => .ok (.mixed, none)

/-- process_and_compare.py:297-410 `is_poly_or_exp_approach` -/
def isPolyOrExp (A : Analysis) (iters cutoff step : ℤ) (threshold : ℚ) (findPoly : Bool) : PyM CF (ApproachType × Option ℚ) := do
  let samples ← estimateSamples iters cutoff step
  liftE (oldClassify A threshold findPoly (deltaPair samples) (deltaOdd samples))

end PiCF.Process
