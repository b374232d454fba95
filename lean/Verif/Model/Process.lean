import Verif.Model.ContFrac
import Verif.Model.Mitm
import Verif.Model.Json

/-!
# Model of parts of process_and_compare.py (and the same code in gen_errors_for_nips.py)
-/

namespace PiCF.Process
open PiCF.Hashtable PiCF.ContFrac PiCF.Mitm

/-! ## Errors of the convergents -/

/-- basic_representation_types.py:84-108 and 154-157 `compare_result()` without arguments, for an object with the target value
`target` (ContFrac always has one). -/
def compareResult (target : Num) (s : CF) : Num := absNum (subNum (getResult s) target)

/-- basic_representation_types.py:84-108 and 154-157 `compare_result(target_val, calc_abs)`; `own` is the target value of the
object (None for other subclasses only; cont_fracs.py:32-33 replaces None by pi).  Subtraction of numbers does not raise. -/
def compareResultArgs (own given : Option Num) (calcAbs : Bool) (s : CF) : Except PyErr Num :=
  match given.or own with
  | none => .error .valueError
  | some t => .ok (if calcAbs then absNum (subNum (getResult s) t) else subNum (getResult s) t)

/-- The loop of process_and_compare.py:179-181. -/
def errorsLoop (target : Num) : ℕ → ℕ → PyM CF (List (ℕ × Num))
  | 0, _ => pure []
  | k + 1, i => do
    addIterations 1
    let s ← PyM.get
    let rest ← errorsLoop target k (i + 1)
    pure ((i + 1, compareResult target s) :: rest)

/-- process_and_compare.py:175-185 `build_contfrac_errors` (also gen_errors_for_nips.py:118-128), without printing. -/
def buildErrors (target : Num) (iters : ℕ) : PyM CF (List (ℕ × Num)) := do
  genIterations 0
  let errors ← errorsLoop target iters 0
  genIterations 0
  pure errors

/-! ## Reading polynomials from a CSV file -/

/-- `s.replace(old, new)` for a non-empty `old`: occurrences are replaced from the left; the number counts the characters of
an occurrence still to be skipped. -/
def replaceAll (old new : Str) : ℕ → Str → Str
  | _, [] => []
  | k + 1, _ :: s => replaceAll old new k s
  | 0, c :: s => if old.isPrefixOf (c :: s) then new ++ replaceAll old new (old.length - 1) s else c :: replaceAll old new 0 s

/-- process_and_compare.py:69, 70: the text given to `json.loads` -/
def listText (s : Str) : Str :=
  replaceAll ")".toList "]".toList 0 (replaceAll ",)".toList "]".toList 0 (replaceAll "(".toList "[".toList 0 s))

/-- process_and_compare.py:69-74, for one polynomial: an interlace is a list of lists, a single polynomial is wrapped.  (The
first character of a str is not a list.) -/
def readPoly (s : Str) : Except PyErr Json.Val :=
  match Json.loads (listText s) with
  | .error e => .error e
  | .ok (.arr []) => .error .indexError
  | .ok (.arr (.arr l :: r)) => .ok (.arr (.arr l :: r))
  | .ok (.arr (v :: r)) => .ok (.arr [.arr (v :: r)])
  | .ok (.str []) => .error .indexError
  | .ok (.str s) => .ok (.arr [.str s])
  | .ok _ => .error .typeError

/-- The characters removed by `strip('.csv')`. -/
def csvChar (c : Char) : Bool := c = '.' || c = 'c' || c = 's' || c = 'v'

/-- process_and_compare.py:81 `csv_path.strip('.csv')`: a set of characters, at both ends -/
def pdfPath (csvPath : Str) : Str := ((csvPath.dropWhile csvChar).reverse.dropWhile csvChar).reverse

example : (replaceAll "aa".toList "b".toList 0 "aaaaxa".toList) = "bbxa".toList := by decide +kernel
example : listText "((1, -2), (3,))".toList = "[[1, -2], [3]]".toList := by decide +kernel

end PiCF.Process
