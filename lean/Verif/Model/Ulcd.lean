import Mathlib.Algebra.Order.Field.Rat
import Verif.Model.EnumPoly

/-!
# Model of the ULCD classes of `lhs_evaluators.py`

The target constant and the values are exact rationals (decimals with finitely many digits are rationals; rounding
of the decimal context is not modelled).
-/

namespace PiCF.Lhs
open PiCF.EnumPoly

/-- lhs_evaluators.py:98-110, the attributes of a `ULCDEvaluator`. -/
structure Ulcd where
  params : ℤ × ℤ × ℤ × ℤ
  x : ℚ
  val : ℚ
  deriving DecidableEq, Repr

/-- lhs_evaluators.py:110, 117, 124: `(u / target + target / l + c) / d`.  A division by zero raises (ZeroDivisionError, or
`decimal.DivisionByZero` which is a subclass of it). -/
def ulcdVal (x : ℚ) (p : ℤ × ℤ × ℤ × ℤ) : Except PyErr ℚ :=
  match p with
  | (u, l, c, d) => if x = 0 ∨ l = 0 ∨ d = 0 then .error .zeroDivision else .ok ((u / x + x / l + c) / d)

namespace Ulcd

/-- lhs_evaluators.py:108-110: `self.params` is assigned before the value is computed. -/
def assign (p : ℤ × ℤ × ℤ × ℤ) : PyM Ulcd Unit := fun s =>
  match ulcdVal s.x p with
  | .error e => ({ s with params := p }, .error e)
  | .ok v => ({ s with params := p, val := v }, .ok ())

/-- lhs_evaluators.py:26-37 and 100-102: construction from a tuple. -/
def init (p : ℤ × ℤ × ℤ × ℤ) (x : ℚ) : Except PyErr Ulcd :=
  match ulcdVal x p with
  | .error e => .error e
  | .ok v => .ok ⟨p, x, v⟩

/-- lhs_evaluators.py:32-33: construction from another evaluator (`get_params()`, `get_target_const()`). -/
def copy (s : Ulcd) : Except PyErr Ulcd := init s.params s.x

/-- lhs_evaluators.py:104-110 -/
def reinitParams (p : ℤ × ℤ × ℤ × ℤ) : PyM Ulcd Unit := assign p

/-- lhs_evaluators.py:112-117 -/
def flipSign : PyM Ulcd Unit := fun s =>
  match s.params with
  | (u, l, c, d) => assign (u, l, c, d * -1) s

/-- lhs_evaluators.py:119-124 -/
def addInt (i : ℤ) : PyM Ulcd Unit := fun s =>
  match s.params with
  | (u, l, c, d) => assign (u, l, c + d * i, d) s

/-- lhs_evaluators.py:75-77: nothing to do for this class. -/
def canonalizeParams : PyM Ulcd Unit := pure ()

/-- lhs_evaluators.py:191-193 -/
def isDegenerate (s : Ulcd) : Bool :=
  match s.params with
  | (u, l, _, _) => decide (|u| = 1) && decide (u = -l)

end Ulcd

/-- A result of the search: `(ab, lhs, post_func_ind, convergence_info)`; the last one is not used by the comparison. -/
structure UlcdResult where
  a : Polys
  b : Polys
  params : ℤ × ℤ × ℤ × ℤ
  post : ℕ
  deriving DecidableEq, Repr

/-- `tuple(( tuple(( -k for k in p )) for p in pa2 ))` (lhs_evaluators.py:150, 378) -/
def negTuple (ps : Polys) : Polys := ps.map fun p => p.map fun k => -k

/-- lhs_evaluators.py:126-164 `ULCDEvaluator.is_equiv`, for two ULCD results.  `d1 / d2` is a float in the code and is
taken exactly here; a zero `d2` raises. -/
def ulcdIsEquiv (r1 r2 : UlcdResult) : Except PyErr Bool :=
  if r1.post ≠ 0 ∨ r2.post ≠ 0 then
    .ok (decide (r1.a = r2.a ∧ r1.b = r2.b) && decide (r1.params = r2.params) && decide (r1.post = r2.post))
  else if r1.a.length ≠ r2.a.length ∨ r1.b.length ≠ r2.b.length then .ok false
  else if r1.b = r2.b ∧ (r1.a = r2.a ∨ r1.a = negTuple r2.a) then
    match r1.params, r2.params with
    | (u1, l1, c1, d1), (u2, l2, c2, d2) =>
      if ([1, -1] : List ℤ).any (fun s => decide (u1 = u2 * s ∧ l1 = l2 * s ∧ c1 = c2 * s ∧ |d1| = |d2|)) then .ok true
      else if d2 = 0 then .error .zeroDivision
      else
        let ratio : ℚ := |(d1 : ℚ) / d2|
        if u1 = u2 * ratio ∧ ratio = 0 then .error .zeroDivision
        else if u1 = u2 * ratio ∧ l1 = l2 / ratio ∧ c1 = c2 * ratio then .ok true
        else if u1 = -u2 * ratio ∧ ratio = 0 then .error .zeroDivision
        else if u1 = -u2 * ratio ∧ l1 = -l2 / ratio ∧ c1 = -c2 * ratio then .ok true
        else .ok false
  else .ok false

/-! ## Enumeration -/

/-- A range as it can be given to the enumerator (lhs_evaluators.py:201-208). -/
inductive RangeSpec where
  | num (n : ℤ)
  | two (lo hi : ℤ)
  | three (lo hi step : ℤ)
  | iter (l : List ℤ)
  deriving DecidableEq, Repr

/-- `range(lo, hi, step)`; a zero step raises ValueError. -/
def pyRange3 (lo hi step : ℤ) : Except PyErr (List ℤ) :=
  if step = 0 then .error .valueError
  else if step > 0 then .ok ((List.range ((hi - lo + step - 1) / step).toNat).map fun n : ℕ => lo + n * step)
  else .ok ((List.range ((lo - hi - step - 1) / -step).toNat).map fun n : ℕ => lo + n * step)

/-- lhs_evaluators.py:212-223 for `u`, `l` and `c`. -/
def normRange : RangeSpec → Except PyErr (List ℤ)
  | .num n => .ok (pyRange (-n, n + 1))
  | .two lo hi => .ok (pyRange (lo, hi))
  | .three lo hi step => pyRange3 lo hi step
  | .iter l => .ok l

/-- lhs_evaluators.py:224-227 for `d`. -/
def normRangeD : RangeSpec → Except PyErr (List ℤ)
  | .num n => .ok (pyRange (1, n + 1))
  | r => normRange r

/-- lhs_evaluators.py:196-230, the attributes of a `ULCDEnumerator`. -/
structure UlcdEnum where
  u : List ℤ
  l : List ℤ
  c : List ℤ
  d : List ℤ
  x : ℚ
  iterLen : ℕ

/-- lhs_evaluators.py:198-230 -/
def UlcdEnum.init (ru rl rc rd : RangeSpec) (x : ℚ) : Except PyErr UlcdEnum := do
  let u ← normRange ru
  let l ← normRange rl
  let c ← normRange rc
  let d ← normRangeD rd
  return ⟨u, l, c, d, x, u.length * l.length * c.length * d.length⟩

/-- The loop of lhs_evaluators.py:238-247: the states of the (shared) evaluator when it is yielded, and how the generator
ends. -/
def ulcdLoop : List (ℤ × ℤ × ℤ × ℤ) → Ulcd → List Ulcd × Except PyErr Unit
  | [], _ => ([], .ok ())
  | (u, l, c, d) :: rest, s =>
    if d = 0 ∨ l = 0 then ulcdLoop rest s
    else if |c| ≥ |d| then ulcdLoop rest s
    else
      match s.reinitParams (u, l, c, d) with
      | (_, .error e) => ([], .error e)
      | (s, .ok ()) => let r := ulcdLoop rest s; (s :: r.1, r.2)

/-- `itertools.product` of the four ranges. -/
def product4 (u l c d : List ℤ) : List (ℤ × ℤ × ℤ × ℤ) :=
  u.flatMap fun u => l.flatMap fun l => c.flatMap fun c => d.map fun d => (u, l, c, d)

/-- lhs_evaluators.py:232-247 `generator`; the consumer is assumed not to modify the shared evaluator (it may: the
next `reinit_params` overwrites everything). -/
def UlcdEnum.generator (e : UlcdEnum) : List Ulcd × Except PyErr Unit :=
  match Ulcd.init (1, 1, 1, 1) e.x with
  | .error err => ([], .error err)
  | .ok s => ulcdLoop (product4 e.u e.l e.c e.d) s

end PiCF.Lhs
