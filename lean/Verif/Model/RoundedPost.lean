import Verif.Model.Postproc

/-!
# Model of the post-processing functions with rounding (postprocfuncs.py:58-70, 75-98, 152)

`Model/Postproc.lean` models them with exact powers and inverses.  Here these are rounded by a function `rnd`; `sqrt`, `exp`, `ln` are parameters
with their rounding.
-/

namespace PiCF.Postproc

/-- `1/x` of a non-zero number. -/
def recipR (rnd : ℚ → ℚ) : Num → Num
  | .fin q => .fin (rnd (1 / q))
  | .inf => .fin 0
  | .nan => .nan

/-- postprocfuncs.py:58-63 -/
def safeInverseR (rnd : ℚ → ℚ) : Number → Except PyErr Number
  | .mpf _ => .error .attributeError
  | .dec v => if v = .fin 0 then .ok (.dec .inf) else .ok (.dec (recipR rnd v))

/-- The power of a `Num`, rounded once (as `Decimal.__pow__` and `mpf.__pow__` do for small integer exponents). -/
def powNumR (rnd : ℚ → ℚ) (n : ℕ) : Num → Num
  | .fin q => .fin (rnd (q ^ n))
  | v => v

/-- `x**n` for `n ≥ 2` (postprocfuncs.py:77-84) -/
def powerR (rnd : ℚ → ℚ) (n : ℕ) : Number → Except PyErr Number
  | .mpf v => .ok (.mpf (powNumR rnd n v))
  | .dec v => .ok (.dec (powNumR rnd n v))

/-- `lambda x: safe_inverse(f(x))` -/
def inverseOfR (rnd : ℚ → ℚ) (f : Number → Except PyErr Number) : Number → Except PyErr Number := fun x =>
  match f x with
  | .error e => .error e
  | .ok y => safeInverseR rnd y

/-- postprocfuncs.py:152 `EVALUATED_POSTPROC_FUNCS` -/
def evaluatedFuncsR (rnd : ℚ → ℚ) (A : Analysis) : List (Number → Except PyErr Number) :=
  [.ok, safeInverseR rnd,
   powerR rnd 2, inverseOfR rnd (powerR rnd 2),
   powerR rnd 3, inverseOfR rnd (powerR rnd 3),
   powerR rnd 4, inverseOfR rnd (powerR rnd 4),
   powerR rnd 5, inverseOfR rnd (powerR rnd 5),
   safeSqrt A, inverseOfR rnd (safeSqrt A),
   undefinedFn, inverseOfR rnd undefinedFn,
   undefinedFn, inverseOfR rnd undefinedFn,
   undefinedFn, inverseOfR rnd undefinedFn,
   undefinedFn, inverseOfR rnd undefinedFn,
   expMethod A, inverseOfR rnd (expMethod A),
   lnMethod A, inverseOfR rnd (lnMethod A)]

/-- The numerical value of a result, whatever its type. -/
def Number.num : Number → Num
  | .mpf v => v
  | .dec v => v

/-- A function on Decimals as a function on values: what the search calls (enum_params.py:281). -/
def decFun (g : Number → Except PyErr Number) (v : Num) : Except PyErr Num := (g (.dec v)).map Number.num

/-- The list `self.postproc_funcs` of a search that computes with Decimals. -/
def decFuncs (rnd : ℚ → ℚ) (A : Analysis) : List (Num → Except PyErr Num) := (evaluatedFuncsR rnd A).map decFun

end PiCF.Postproc
