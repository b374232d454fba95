import Mathlib.Algebra.Order.Ring.Rat
import Verif.Model.Dict
import Verif.Model.Num
import Verif.Model.PyStr

/-!
# Model of the tables of `postprocfuncs.py`
-/

namespace PiCF.Postproc
open PiCF.Hashtable PiCF.PyStr

/-- postprocfuncs.py:75-98 `POSTPROC_FUNCS` -/
def postprocFuncs : List Str :=
  ["lambda x: x".toList,
   "safe_inverse".toList,
   "lambda x: x**2".toList,
   "lambda x: safe_inverse(x**2)".toList,
   "lambda x: x**3".toList,
   "lambda x: safe_inverse(x**3)".toList,
   "lambda x: x**4".toList,
   "lambda x: safe_inverse(x**4)".toList,
   "lambda x: x**5".toList,
   "lambda x: safe_inverse(x**5)".toList,
   "safe_sqrt".toList,
   "lambda x: safe_inverse(safe_sqrt(x))".toList,
   "lambda x: dec_sin(x)".toList,
   "lambda x: safe_inverse(dec_sin(x))".toList,
   "lambda x: dec_cos(x)".toList,
   "lambda x: safe_inverse(dec_cos(x))".toList,
   "lambda x: dec_tan(x)".toList,
   "lambda x: safe_inverse(dec_tan(x))".toList,
   "lambda x: dec_cot(x)".toList,
   "lambda x: safe_inverse(dec_cot(x))".toList,
   "lambda x: x.exp()".toList,
   "lambda x: safe_inverse(x.exp())".toList,
   "lambda x: x.ln()".toList,
   "lambda x: safe_inverse(x.ln())".toList]

/-- `l[0::2]` -/
def evens {α : Type} : List α → List α
  | [] => []
  | [x] => [x]
  | x :: _ :: l => x :: evens l

/-- `l[1::2]` -/
def odds {α : Type} : List α → List α
  | [] => []
  | [_] => []
  | _ :: y :: l => y :: odds l

/-- `l.index(x)` -/
def index {α : Type} [DecidableEq α] (l : List α) (x : α) : Except PyErr ℕ :=
  match l with
  | [] => .error .valueError
  | y :: l =>
    if y = x then .ok 0
    else
      match index l x with
      | .error e => .error e
      | .ok n => .ok (n + 1)

/-- postprocfuncs.py:110, the list comprehension over the pairs. -/
def indexPairs {α : Type} [DecidableEq α] (l : List α) : List (α × α) → Except PyErr (List (ℕ × ℕ))
  | [] => .ok []
  | (f1, f2) :: ps =>
    match index l f1 with
    | .error e => .error e
    | .ok i =>
      match index l f2 with
      | .error e => .error e
      | .ok j =>
        match indexPairs l ps with
        | .error e => .error e
        | .ok r => .ok ((i, j) :: r)

/-- postprocfuncs.py:109-111 `INVERSE_POSTPROC_PAIRS` for a list of functions: pairs of neighbours, and the reversed
pairs. -/
def inversePairs {α : Type} [DecidableEq α] (funcs : List α) : Except PyErr (List (ℕ × ℕ)) :=
  match indexPairs funcs ((evens funcs).zip (odds funcs)) with
  | .error e => .error e
  | .ok ps => .ok (ps ++ ps.map fun p => (p.2, p.1))

/-- A function of the dictionary `POSTPROC_FUNCS_LATEX`. -/
abbrev LatexFn := Str → Str → Except PyErr (Str × Str)

/-- `lambda lhs, rhs: (lhs, template.format(rhs))` -/
def rhsTemplate (template : Str) : LatexFn := fun lhs rhs =>
  match format template [rhs] with
  | .error e => .error e
  | .ok r => .ok (lhs, r)

/-- postprocfuncs.py:117-140 `POSTPROC_FUNCS_LATEX` -/
def postprocFuncsLatex : Dict Str LatexFn :=
  [("lambda x: x".toList, fun lhs rhs => .ok (lhs, rhs)),
   ("safe_inverse".toList, rhsTemplate "\\frac{{1}}{{ {0} }}".toList),
   ("lambda x: x**2".toList, rhsTemplate "\\left( {0} \\right)^2".toList),
   ("lambda x: safe_inverse(x**2)".toList, rhsTemplate "\\frac{{1}}{{ \\left( {0} \\right)^2 }}".toList),
   ("lambda x: x**3".toList, rhsTemplate "\\left( {0} \\right)^3".toList),
   ("lambda x: safe_inverse(x**3)".toList, rhsTemplate "\\frac{{1}}{{ \\left( {0} \\right)^3 }}".toList),
   ("lambda x: x**4".toList, rhsTemplate "\\left( {0} \\right)^4".toList),
   ("lambda x: safe_inverse(x**4)".toList, rhsTemplate "\\frac{{1}}{{ \\left( {0} \\right)^4 }}".toList),
   ("lambda x: x**5".toList, rhsTemplate "\\left( {0} \\right)^5".toList),
   ("lambda x: safe_inverse(x**5)".toList, rhsTemplate "\\frac{{1}}{{ \\left( {0} \\right)^5 }}".toList),
   ("safe_sqrt".toList, fun lhs rhs =>
     match format "\\sqrt{ {0} }".toList [lhs] with
     | .error e => .error e
     | .ok l => .ok (l, rhs)),
   ("lambda x: safe_inverse(safe_sqrt(x))".toList, rhsTemplate "\\frac{{1}}{\\sqrt{ {0} }}".toList),
   ("lambda x: dec_sin(x)".toList, rhsTemplate "\\sin\\left( {0} \\right)".toList),
   ("lambda x: safe_inverse(dec_sin(x))".toList, rhsTemplate "\\frac{{1}}{{ \\sin\\left( {0} \\right) }}".toList),
   ("lambda x: dec_cos(x)".toList, rhsTemplate "\\cos\\left( {0} \\right)".toList),
   ("lambda x: safe_inverse(dec_cos(x))".toList, rhsTemplate "\\frac{{1}}{{ \\cos\\left( {0} \\right) }}".toList),
   ("lambda x: dec_tan(x)".toList, rhsTemplate "\\tan\\left( {0} \\right)".toList),
   ("lambda x: safe_inverse(dec_tan(x))".toList, rhsTemplate "\\frac{{1}}{{ \\tan\\left( {0} \\right) }}".toList),
   ("lambda x: dec_cot(x)".toList, rhsTemplate "\\cot\\left( {0} \\right)".toList),
   ("lambda x: safe_inverse(dec_cot(x))".toList, rhsTemplate "\\frac{{1}}{{ \\cot\\left( {0} \\right) }}".toList),
   ("lambda x: x.exp()".toList, fun _ rhs =>
     match format "\\exp\\left( {0} \\right)".toList [rhs] with
     | .error e => .error e
     | .ok r => .ok (rhs, r)),
   ("lambda x: safe_inverse(x.exp())".toList, rhsTemplate "\\frac{{1}}{{ \\exp\\left( {0} \\right) }}".toList),
   ("lambda x: x.ln()".toList, fun lhs rhs =>
     match format "\\ln\\left( {0} \\right)".toList [lhs] with
     | .error e => .error e
     | .ok r => .ok (rhs, r)),
   ("lambda x: safe_inverse(x.ln())".toList, rhsTemplate "\\frac{{1}}{{ \\ln\\left( {0} \\right) }}".toList)]

/-- `postproc_funcs_latex[postproc_funcs[i]](lhs, rhs)` (enum_params.py:442) -/
def postLatex (funcs : List Str) (table : Dict Str LatexFn) (i : ℕ) (lhs rhs : Str) : Except PyErr (Str × Str) :=
  match funcs[i]? with
  | none => .error .indexError
  | some name =>
    match table.get? name with
    | none => .error .keyError
    | some f => f lhs rhs

/-! ## The functions themselves -/

/-- A number a post-processing function is applied to or returns: an `mpf` (what the present code computes with) or a
`decimal.Decimal` (for which these functions are written; `dec` of postprocfuncs.py:4). -/
inductive Number where
  | mpf (v : Num)
  | dec (v : Num)
  deriving DecidableEq, Repr

/-- Square root, exponential and logarithm of exact numbers (rounded somehow); overflow and underflow are not
modelled. -/
structure Analysis where
  sqrt : ℚ → ℚ
  exp : ℚ → ℚ
  ln : ℚ → ℚ

/-- `1/x` of a non-zero number. -/
def recip : Num → Num
  | .fin q => .fin (1 / q)
  | .inf => .fin 0
  | .nan => .nan

/-- postprocfuncs.py:58-63; `mpf` has no method `is_zero`. -/
def safeInverse : Number → Except PyErr Number
  | .mpf _ => .error .attributeError
  | .dec v => if v = .fin 0 then .ok (.dec .inf) else .ok (.dec (recip v))

/-- postprocfuncs.py:65-70; comparing a Decimal NaN raises, comparing an `mpf` NaN gives False. -/
def safeSqrt (A : Analysis) : Number → Except PyErr Number
  | .mpf (.fin q) => if q < 0 then .ok (.dec .nan) else .ok (.mpf (.fin (A.sqrt q)))
  | .mpf v => .ok (.mpf v)
  | .dec (.fin q) => if q < 0 then .ok (.dec .nan) else .ok (.dec (.fin (A.sqrt q)))
  | .dec .inf => .ok (.dec .inf)
  | .dec .nan => .error .invalidOperation

/-- The power of a `Num`, positive exponent. -/
def powNum (n : ℕ) : Num → Num
  | .fin q => .fin (q ^ n)
  | v => v

/-- `x**n` for `n ≥ 2` -/
def power (n : ℕ) : Number → Except PyErr Number
  | .mpf v => .ok (.mpf (powNum n v))
  | .dec v => .ok (.dec (powNum n v))

/-- `x.exp()`: for an `mpf`, `x.exp` is an int, calling it raises TypeError. -/
def expMethod (A : Analysis) : Number → Except PyErr Number
  | .mpf _ => .error .typeError
  | .dec (.fin q) => .ok (.dec (.fin (A.exp q)))
  | .dec v => .ok (.dec v)

/-- `x.ln()`: `mpf` has no such method; of a negative Decimal it raises, of zero it is infinite. -/
def lnMethod (A : Analysis) : Number → Except PyErr Number
  | .mpf _ => .error .attributeError
  | .dec (.fin q) =>
    if q < 0 then .error .invalidOperation else if q = 0 then .ok (.dec .inf) else .ok (.dec (.fin (A.ln q)))
  | .dec v => .ok (.dec v)

/-- postprocfuncs.py:6-56 `dec_cos`, `dec_sin`: the first statement uses the name `getcontext`, which is not imported;
`dec_tan` and `dec_cot` do not exist. -/
def undefinedFn : Number → Except PyErr Number := fun _ => .error .nameError

/-- `lambda x: safe_inverse(f(x))` -/
def inverseOf (f : Number → Except PyErr Number) : Number → Except PyErr Number := fun x =>
  match f x with
  | .error e => .error e
  | .ok y => safeInverse y

/-- postprocfuncs.py:152 `EVALUATED_POSTPROC_FUNCS` -/
def evaluatedFuncs (A : Analysis) : List (Number → Except PyErr Number) :=
  [.ok, safeInverse,
   power 2, inverseOf (power 2),
   power 3, inverseOf (power 3),
   power 4, inverseOf (power 4),
   power 5, inverseOf (power 5),
   safeSqrt A, inverseOf (safeSqrt A),
   undefinedFn, inverseOf undefinedFn,
   undefinedFn, inverseOf undefinedFn,
   undefinedFn, inverseOf undefinedFn,
   undefinedFn, inverseOf undefinedFn,
   expMethod A, inverseOf (expMethod A),
   lnMethod A, inverseOf (lnMethod A)]

end PiCF.Postproc
