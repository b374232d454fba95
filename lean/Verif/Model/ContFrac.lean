import Mathlib.Algebra.Order.Ring.Rat
import Verif.Model.Utils
import Verif.Model.Num

/-!
# Model of `basic_representation_types.py` and `cont_fracs.py`

`ContFrac` objects with the default promotion matrix generator.  Coefficients are integers (as
produced by the enumerators), so `p`, `q` are exact integers, as in the code.
-/

namespace PiCF.ContFrac

/-- Interlaced polynomials: `[[x_1, y_1, ...], [x_2, y_2, ...], ...]` (cont_fracs.py:20-24).
Flat lists are wrapped by `__init__` (cont_fracs.py:35-38); only nested lists are modelled. -/
abbrev Coeffs := List (List ℤ)

/-- `((p_i, p_{i-1}), (q_i, q_{i-1}))`, cont_fracs.py:76 -/
abbrev Mat := (ℤ × ℤ) × (ℤ × ℤ)

/-- The dict `{'a_coeffs': ..., 'b_coeffs': ..., 'contfrac_res': ...}`, cont_fracs.py:40 -/
structure Params where
  a : Coeffs
  b : Coeffs
  res : Num
  deriving DecidableEq, Repr

/-- The strings used as approach types (cont_fracs.py:242, 300, 302, 329-333, 340-346, 363). -/
inductive ApproachType where
  | none | undefined | fast | exp | superExp | mixed | poly
  deriving DecidableEq, Repr

/-- The attributes of a `ContFrac` object.  `_params_log` is a dict with one list per parameter; the
lists always grow together (basic_representation_types.py:26, 45, 64-65, 75-76), so it is modelled as
one list of snapshots.  `approachParams = none` is the falsy value `0`. `_target_val` is not modelled. -/
structure CF where
  params : Params
  first : Mat
  autoFirst : Bool
  avoidZeroB : Bool
  logging : Bool
  approachType : ApproachType
  approachParams : Option (ℚ × ℚ)
  logs : List Params
  mats : List Mat
  executed : ℤ
  deriving DecidableEq, Repr

/-- cont_fracs.py:138-141 `_autogen_first_iter_matrix`: `(a_coeffs[0][0], 1), (1, 0)`. -/
def autogenFirst (a : Coeffs) : Except PyErr Mat :=
  match a with
  | (a00 :: _) :: _ => .ok ((a00, 1), (1, 0))
  | _ => .error .indexError

/-- cont_fracs.py:19-49 `__init__` with basic_representation_types.py:13-28 and 120-131.
`b_coeffs[0]` (line 37) is evaluated, so an empty `b` raises IndexError. -/
def init (a b : Coeffs) (avoidZeroB : Bool := true) (first : Option Mat := none) (logging : Bool := false) :
    Except PyErr CF :=
  if a = [] ∨ b = [] then .error .indexError
  else
    let params : Params := ⟨a, b, .fin 1⟩
    let mk (m : Mat) (auto : Bool) : CF :=
      { params := params, first := m, autoFirst := auto, avoidZeroB := avoidZeroB, logging := logging,
        approachType := .none, approachParams := none, -- overwritten by None, None at basic_representation_types.py:130
        logs := [params], mats := [m], executed := 0 }
    match first with
    | some m => .ok (mk m false)
    | none =>
      match autogenFirst a with
      | .error e => .error e
      | .ok m => .ok (mk m true)

/-- `if a_coeffs: params['a_coeffs'] = a_coeffs else: ...` (cont_fracs.py:55-62): a missing or empty list
keeps the old one. -/
def keepOr (new : Option Coeffs) (old : Coeffs) : Coeffs :=
  match new with
  | some (x :: xs) => x :: xs
  | _ => old

/-- cont_fracs.py:51-66 `reinitialize` with basic_representation_types.py:30-38.  Falsy (missing or
empty) coefficient lists keep the old ones.  Extra keyword arguments are not modelled. -/
def reinitialize (a b : Option Coeffs) (first : Option Mat := none) : PyM CF Unit := fun s =>
  let s := { s with approachType := .undefined, approachParams := none }
  let a' := keepOr a s.params.a
  let b' := keepOr b s.params.b
  if first.isNone && s.autoFirst then
    match autogenFirst a' with
    | .error e => (s, .error e)
    | .ok m => ({ s with params := { s.params with a := a', b := b' }, first := m }, .ok ())
  else
    ({ s with params := { s.params with a := a', b := b' }, first := first.getD s.first }, .ok ())

/-- The argument `a_coeffs` as the caller may write it: `[x, y, …]` for one polynomial, or a list of polynomials. -/
inductive CoeffArg where
  | flat (p : List ℤ)
  | nested (cs : Coeffs)

/-- cont_fracs.py:35-36: the constructor wraps a single polynomial (`a_coeffs[0]` of an empty list raises IndexError). -/
def CoeffArg.wrap : CoeffArg → Coeffs
  | .flat [] => []
  | .flat p => [p]
  | .nested cs => cs

/-- cont_fracs.py:51-66 `reinitialize` with such an argument for `a_coeffs`: nothing is wrapped, so `a_coeffs[0][0]` (line 141)
indexes a number; an empty list is falsy.  Only for objects without a first matrix of their own. -/
def reinitializeArg (a : CoeffArg) (b : Option Coeffs) : PyM CF Unit := fun s =>
  match a with
  | .nested cs => reinitialize (some cs) b none s
  | .flat [] => reinitialize none b none s
  | .flat _ => ({ s with approachType := .undefined, approachParams := none }, .error .typeError)

/-- `a2p(a_coeffs[i % len(a_coeffs)], i)`, cont_fracs.py:129-130.  For an empty list `i % 0` raises
ZeroDivisionError. -/
def coeffAt (cs : Coeffs) (i : ℤ) : Except PyErr ℤ :=
  if cs = [] then .error .zeroDivision
  else .ok (Utils.subsInPolynom (cs.getD (i.fmod cs.length).toNat []) i)

/-- cont_fracs.py:122-136 `_default_promo_mat_gen` (printing omitted). -/
def promoMatGen (avoidZeroB : Bool) (i : ℤ) (a b : Coeffs) : Except PyErr (ℤ × ℤ) :=
  match coeffAt a i with
  | .error e => .error e
  | .ok ai =>
    match coeffAt b i with
    | .error e => .error e
    | .ok bi => if avoidZeroB && bi == 0 && decide (i > 0) then .error (.zeroB i) else .ok (ai, bi)

/-- `NaN` if `q` is not normal (for an integer: zero), else `p / q`; cont_fracs.py:96-101, 112-118. -/
def quotient (p q : ℤ) : Num := if q = 0 then .nan else .fin ((p : ℚ) / q)

/-- cont_fracs.py:68-105 `iteration_algorithm`.  The checks against `dec('inf')` of lines 90-93 never
fire on integers and are omitted. -/
def iterationAlgorithm (avoidZeroB logging : Bool) (ps : Params) (m : Mat) (i : ℤ) :
    Except PyErr (Params × Mat) :=
  let i := i + 1
  match promoMatGen avoidZeroB i ps.a ps.b with
  | .error e => .error e
  | .ok (ai, bi) =>
    let newP := (m.1.1 * ai + m.1.2 * bi, m.1.1)
    let newQ := (m.2.1 * ai + m.2.2 * bi, m.2.1)
    let ps := if logging then { ps with res := quotient newP.1 newQ.1 } else ps
    .ok (ps, (newP, newQ))

/-- cont_fracs.py:107-120 `finalize_iterations`. -/
def finalizeIterations (ps : Params) (m : Mat) : Params :=
  { ps with res := quotient m.1.1 m.2.1 }

/-- basic_representation_types.py:60-68, the loop of `add_iterations`: `k` iterations are left, `i` is
the loop variable.  With logging every iteration is appended to the logs at once. -/
def addLoop : ℕ → ℕ → Params → Mat → PyM CF (Params × Mat)
  | 0, _, ps, m, s => (s, .ok (ps, m))
  | k + 1, i, ps, m, s =>
    match iterationAlgorithm s.avoidZeroB s.logging ps m (i + s.executed) with
    | .error e => (s, .error e)
    | .ok (ps', m') =>
      let s' := if s.logging then { s with logs := s.logs ++ [ps'], mats := s.mats ++ [m'] } else s
      addLoop k (i + 1) ps' m' s'

/-- basic_representation_types.py:52-78 `add_iterations` (145-152 only supplies the algorithm).
The log lists are never empty, so `[-1]` is `getLast`; the defaults are never used.  A negative
`num_of_iters` gives an empty range but is still added to the counter (line 78). -/
def addIterations (n : ℤ) (execFinalize : Bool := true) : PyM CF Unit := fun s =>
  let ps := s.logs.getLastD s.params
  let m := s.mats.getLastD s.first
  match addLoop n.toNat 0 ps m s with
  | (s, .error e) => (s, .error e)
  | (s, .ok (ps, m)) =>
    let ps := if execFinalize then finalizeIterations ps m else ps
    let s := if s.logging then s else { s with logs := [ps], mats := [m] }
    ({ s with executed := s.executed + n }, .ok ())

/-- basic_representation_types.py:40-50 `gen_iterations`. -/
def genIterations (n : ℤ) (execFinalize : Bool := true) : PyM CF Unit := fun s =>
  addIterations n execFinalize { s with logs := [s.params], mats := [s.first], executed := 0 }

/-- basic_representation_types.py:133-143 `BasicContFracAlgo.gen_iterations` with an `accuracy`.
`required accuracy base` is `math.ceil(abs((accuracy / power_base).ln() / power_base.ln()))`
(line 141), a parameter of the model; with `mpf` it raises AttributeError as `mpf` has no `ln`. -/
def genIterationsAcc (required : ℚ → ℚ → Except PyErr ℤ) (n : ℤ) (accuracy : ℚ)
    (execFinalize : Bool := true) : PyM CF Unit := fun s =>
  if (s.approachType = .exp ∨ s.approachType = .superExp) ∧ accuracy ≠ 0 then
    match s.approachParams with
    | none => genIterations n execFinalize s
    | some (base, _) =>
      match required accuracy base with
      | .error e => (s, .error e)
      | .ok r => genIterations (min n r) execFinalize s
  else genIterations n execFinalize s

/-- cont_fracs.py:147-149 `get_result` -/
def getResult (s : CF) : Num := (s.logs.getLastD s.params).res

/-- cont_fracs.py:151-154 `get_p_q`: `p_vec[-1], q_vec[-1]`. -/
def getPQ (s : CF) : ℤ × ℤ := ((s.mats.getLastD s.first).1.2, (s.mats.getLastD s.first).2.2)

/-- basic_representation_types.py:80-82 -/
def getNumOfExecutedIters (s : CF) : ℤ := s.executed

/-- cont_fracs.py:156-159 `is_result_valid`: the name `mpmath` is not imported in cont_fracs.py. -/
def isResultValid : PyM CF Bool := PyM.raise .nameError

/-- cont_fracs.py:189-193 -/
def setApproach (t : ApproachType) (ps : Option (ℚ × ℚ)) : PyM CF Unit :=
  PyM.modify fun s => { s with approachType := t, approachParams := ps }

/-! ## `is_convergence_fast` (cont_fracs.py:195-238) -/

/-- Number of elements of `range(lo, hi, step)` (`step = 0` raises ValueError in python and is treated
by the callers). -/
def rangeLen (lo hi step : ℤ) : ℕ :=
  if step > 0 then ((hi - lo + step - 1).fdiv step).toNat
  else ((lo - hi - step - 1).fdiv (-step)).toNat

/-- The comparison of cont_fracs.py:226-231 for one parity: true if `lhs - rhs <= rhs >> 4`,
`lhs = abs(q_4 (p_2 q_0 - p_0 q_2))`, `rhs = abs(q_0 (p_4 q_2 - p_2 q_4))`.
`>> 4` of a non-negative integer is floor division by 16. -/
def slowTest (x0 x2 x4 : ℤ × ℤ) : Bool :=
  let lhs := |x4.2 * (x2.1 * x0.2 - x0.1 * x2.2)|
  let rhs := |x0.2 * (x4.1 * x2.2 - x2.1 * x4.2)|
  lhs - rhs ≤ rhs.fdiv 16

/-- The body of the loop, cont_fracs.py:210-235; `none` means `break` with `return_val = False`. -/
def fastLoop (step : ℤ) : ℕ → PyM CF Bool
  | 0 => pure true
  | k + 1 => do
    let x0 := getPQ (← PyM.get)
    addIterations 1 false
    let x1 := getPQ (← PyM.get)
    addIterations 1 false
    let x2 := getPQ (← PyM.get)
    addIterations 1 false
    let x3 := getPQ (← PyM.get)
    addIterations 1 false
    let x4 := getPQ (← PyM.get)
    addIterations 1 false
    let x5 := getPQ (← PyM.get)
    if slowTest x0 x2 x4 || slowTest x1 x3 x5 then pure false
    else do
      addIterations (step - 5) false
      fastLoop step k

/-- The `for` statement of cont_fracs.py:209 (`range` raises ValueError for step 0). -/
def fastFor (iters cutoff step : ℤ) : PyM CF Bool :=
  if step = 0 then PyM.raise .valueError
  else fastLoop step (rangeLen (cutoff + step) (iters + 1) step)

/-- cont_fracs.py:195-238 `is_convergence_fast`.  The guard of lines 203-204 builds a ValueError but
does not raise it, so it has no effect.  `gen_iterations` is called with `accuracy=0`. -/
def isConvergenceFast (iters cutoff step : ℤ) : PyM CF Bool := do
  genIterations cutoff false
  let r ← fastFor iters cutoff step
  genIterations 0
  pure r

/-! ## Sampling of the convergence estimator (cont_fracs.py:261-295) -/

/-- Six consecutive results, cont_fracs.py:262-272 and 281-291: `get_result()` now and after each of
five single iterations. -/
def sixResults : PyM CF (List Num) := do
  let r0 := getResult (← PyM.get)
  addIterations 1
  let r1 := getResult (← PyM.get)
  addIterations 1
  let r2 := getResult (← PyM.get)
  addIterations 1
  let r3 := getResult (← PyM.get)
  addIterations 1
  let r4 := getResult (← PyM.get)
  addIterations 1
  let r5 := getResult (← PyM.get)
  pure [r0, r1, r2, r3, r4, r5]

/-- The loop of cont_fracs.py:278-295; `i` is the loop variable, `k` the number of rounds left.
The six results are recorded with the index `i` they are labelled with. -/
def sampleLoop (step : ℤ) : ℕ → ℤ → PyM CF (List (ℤ × List Num))
  | 0, _ => pure []
  | k + 1, i => do
    addIterations (step - 5)
    let rs ← sixResults
    let rest ← sampleLoop step k (i + step)
    pure ((i, rs) :: rest)

/-- The `for` statement of cont_fracs.py:278. -/
def sampleFor (iters cutoff step : ℤ) : PyM CF (List (ℤ × List Num)) :=
  if step = 0 then PyM.raise .valueError
  else sampleLoop step (rangeLen (cutoff + step) (iters + 1) step) (cutoff + step)

/-- cont_fracs.py:253-295, the sampling part of `_estimate_approach_type_and_params_inner_alg`: the
labelled results from which `delta_pair` and `delta_odd` are computed.  The guard of lines 253-254
builds a ValueError but does not raise it. -/
def estimateSamples (iters cutoff step : ℤ) : PyM CF (List (ℤ × List Num)) := do
  genIterations cutoff
  let rs ← sixResults
  let rest ← sampleFor iters cutoff step
  pure ((cutoff, rs) :: rest)

/-! ## `estimate_approach_type_and_params` (cont_fracs.py:161-187)

The inner estimator is a parameter: its answer for the arguments `(iters, initial_cutoff, iters_step)`
of the `k`-th call.  It may answer anything or raise; only the control flow is modelled here. -/

/-- The answers of the inner estimator. -/
abbrev Inner := ℕ → (ℤ × ℤ × ℤ) → Except PyErr (ApproachType × Option (ℚ × ℚ))

/-- `int((iters - cutoff) / 30)`: truncation towards zero. -/
def truncDiv30 (x : ℤ) : ℤ := x.tdiv 30

/-- cont_fracs.py:167-174, the first loop; `k` counts the calls made so far.  `>>= 1` on a positive int
is floor division by 2.  Returns the last answer, the final cutoff and the number of calls. -/
def estLoop1 (inner : Inner) (k : ℕ) (iters cutoff step : ℤ) (ans : ApproachType × Option (ℚ × ℚ)) :
    Except PyErr ((ApproachType × Option (ℚ × ℚ)) × ℤ × ℕ) :=
  if _h : ans.1 = .fast ∧ cutoff > 0 then
    let cutoff := cutoff.fdiv 2
    let iters := max 50 (iters.fdiv 2)
    let step := max (truncDiv30 (iters - cutoff)) (step.fdiv 2)
    match inner k (iters, cutoff, step) with
    | .error e => .error e
    | .ok ans => estLoop1 inner (k + 1) iters cutoff step ans
  else .ok (ans, cutoff, k)
termination_by cutoff.toNat
decreasing_by
  have _h1 := _h.2
  simp only [Int.fdiv_eq_ediv_of_nonneg _ (show (0:ℤ) ≤ 2 by decide)]
  omega

/-- cont_fracs.py:178-184, the second loop (`iters` decreases by 5 down to 10; `cutoff` stays 0). -/
def estLoop2 (inner : Inner) (k : ℕ) (iters : ℤ) (ans : ApproachType × Option (ℚ × ℚ)) :
    Except PyErr ((ApproachType × Option (ℚ × ℚ)) × ℕ) :=
  if _h : ans.1 = .fast ∧ iters > 10 then
    let iters := iters - 5
    match inner k (iters, 0, 1) with
    | .error e => .error e
    | .ok ans => estLoop2 inner (k + 1) iters ans
  else .ok (ans, k)
termination_by (iters - 10).toNat
decreasing_by
  have _h1 := _h.2
  omega

/-- cont_fracs.py:161-187.  Returns the stored approach and the number of inner estimations. -/
def estimateApproach (inner : Inner) (iters cutoff step : ℤ) :
    Except PyErr ((ApproachType × Option (ℚ × ℚ)) × ℕ) :=
  match inner 0 (iters, cutoff, step) with
  | .error e => .error e
  | .ok ans =>
    match estLoop1 inner 1 iters cutoff step ans with
    | .error e => .error e
    | .ok (ans, cutoff, k) =>
      if cutoff = 0 then estLoop2 inner k 50 ans else .ok (ans, k)

/-! ## Bottom-up evaluation (cont_fracs.py:378-428) -/

/-- The loop of cont_fracs.py:396-397 over the reversed lists; exact division, ZeroDivisionError when
`res` is zero. -/
def evalLoop : List (ℚ × ℚ) → ℚ → Except PyErr ℚ
  | [], res => .ok res
  | (a, b) :: rest, res => if res = 0 then .error .zeroDivision else evalLoop rest (a + b / res)

/-- cont_fracs.py:378-398 `eval_contfrac`. -/
def evalContfrac (a : List ℚ) (b : Option (List ℚ)) : Except PyErr ℚ :=
  let b := match b with
    | none => List.replicate (a.length - 1) 1
    | some b => b
  if a.length = b.length then evalLoop (a.reverse.zip b.reverse) 1
  else if a.length = b.length + 1 then
    evalLoop (a.dropLast.reverse.zip b.reverse) (a.getLastD 0)
  else .error .valueError

/-- cont_fracs.py:414-428 `eval_dec_contfrac_by_polys` (401-411 is the same without the conversion to
`dec`).  `a[i % len(a)]` raises ZeroDivisionError on an empty list (IndexError for `a[0]` before). -/
def evalByPolys (a b : Coeffs) (depth : ℕ) : Except PyErr ℚ :=
  if a = [] ∨ b = [] then .error .indexError
  else
    evalContfrac
      ((List.range depth).map fun i => Utils.subsInPolynom ((a.getD (i % a.length) []).map (Int.cast : ℤ → ℚ)) (i : ℚ))
      (some ((List.range' 1 (depth - 1)).map fun i =>
        Utils.subsInPolynom ((b.getD (i % b.length) []).map (Int.cast : ℤ → ℚ)) (i : ℚ)))

end PiCF.ContFrac
