import Verif.Model.Process
import Verif.Model.Pipeline
import Verif.Model.Config
import Verif.Model.Path

/-!
# Model of `load_cont_fracs` and `analyze_contfracs_csv` (process_and_compare.py) and of run_distributed_configs.py

A CSV file is the list of its rows as `csv.reader` yields them (a blank line is the empty row).
-/

namespace PiCF.Process
open PiCF.Hashtable PiCF.ContFrac PiCF.Mitm PiCF.Json PiCF.EnumPoly

/-- `\-?[0-9]+` at the beginning of the text, with the rest; the digits are matched greedily (what follows in the regular
expression is not a digit). -/
def numAt (s : Str) : Option (ℤ × Str) :=
  match s with
  | '-' :: r => if r.takeWhile isDigit = [] then none else some (-(digitsVal (r.takeWhile isDigit) : ℤ), r.dropWhile isDigit)
  | r => if r.takeWhile isDigit = [] then none else some ((digitsVal (r.takeWhile isDigit) : ℤ), r.dropWhile isDigit)

/-- ` ?`: an optional space -/
def optSpace (s : Str) : Str :=
  match s with
  | ' ' :: s => s
  | s => s

/-- The regular expression of process_and_compare.py:136 and 141 at the beginning of the text: three integers in brackets. -/
def tripleAt (s : Str) : Option (List ℤ × Str) :=
  match s with
  | '[' :: s =>
    match numAt s with
    | some (x, ',' :: s) =>
      match numAt (optSpace s) with
      | some (y, ',' :: s) =>
        match numAt (optSpace s) with
        | some (z, ']' :: s) => some ([x, y, z], s)
        | _ => none
      | _ => none
    | _ => none
  | _ => none

/-- `re.findall` with this expression and `int` of the groups (process_and_compare.py:136, 141); the number counts the
characters of a match still to be skipped. -/
def findTriples : ℕ → Str → List (List ℤ)
  | _, [] => []
  | k + 1, _ :: s => findTriples k s
  | 0, c :: s =>
    match tripleAt (c :: s) with
    | some (p, r) => p :: findTriples (s.length - r.length) s
    | none => findTriples 0 s

/-- The characters `[0-9+\-*/x ()]`. -/
def formulaChar (c : Char) : Bool := isDigit c || c ∈ "+-*/x ()".toList

/-- process_and_compare.py:146: `re.match('[0-9+\\-*/x ()]+', s)` matches at the beginning only. -/
def formulaMatch (s : Str) : Bool :=
  match s with
  | [] => false
  | c :: _ => formulaChar c

/-- process_and_compare.py:159: `re.match('^\\-?[0-9]+(\\.[0-9]+)?$', s)`, `s` does not end with a line break. -/
def isDecimalText (s : Str) : Bool :=
  match numAt s with
  | none => false
  | some (_, []) => true
  | some (_, '.' :: r) => r ≠ [] && r.all isDigit
  | _ => false

/-- `target_x`: a constant, or the number with this text. -/
inductive TargetX where
  | pi
  | e
  | num (text : Str)
  deriving DecidableEq

/-- A loaded row; `formula` is the text evaluated by the function `target_formula`. -/
structure Loaded where
  a : Polys
  b : Polys
  formula : Str
  x : TargetX
  deriving DecidableEq

/-- process_and_compare.py:154-163 -/
def targetX (cell : Str) : Option TargetX :=
  let s := Config.lower (Config.strip cell)
  if s = "pi".toList then some .pi
  else if s = "e".toList then some .e
  else if isDecimalText s then some (.num s)
  else none

/-- process_and_compare.py:135-165, one row; `none`: a message is printed and the row is skipped.  `compiles` says whether
`eval('lambda x: ' + s)` succeeds (the body is not executed by it). -/
def loadRow (compiles : Str → Bool) (row : List Str) : Except PyErr (Option Loaded) :=
  match row[0]? with
  | none => .error .indexError
  | some ca =>
    if findTriples 0 ca = [] then .ok none
    else
      match row[1]? with
      | none => .error .indexError
      | some cb =>
        if findTriples 0 cb = [] then .ok none
        else
          match row[2]? with
          | none => .error .indexError
          | some cf =>
            if !formulaMatch (Config.strip cf) then .ok none
            else if !compiles (Config.strip cf) then .ok none
            else
              match row[3]? with
              | none => .error .indexError
              | some cx =>
                match targetX cx with
                | none => .ok none
                | some x => .ok (some ⟨findTriples 0 ca, findTriples 0 cb, Config.strip cf, x⟩)

/-- process_and_compare.py:130-167 `load_cont_fracs` -/
def loadContFracs (compiles : Str → Bool) : List (List Str) → Except PyErr (List Loaded)
  | [] => .ok []
  | row :: rows =>
    match loadRow compiles row with
    | .error e => .error e
    | .ok r =>
      match loadContFracs compiles rows with
      | .error e => .error e
      | .ok rs => .ok (r.toList ++ rs)

/-! ## Analysis of the loaded continued fractions -/

/-- What the analysis uses: the value of the formula (process_and_compare.py:172), the fit of the errors (lines 246-266) and
the plot. -/
structure AnalyzeEnv where
  target : Str → TargetX → Except PyErr Num
  fit : List (ℕ × Num) → Except PyErr Unit
  plot : ℕ → List (ℕ × Num) → Except PyErr Unit
  analysis : Analysis

/-- The methods called on the object in process_and_compare.py:284-292; the object is new in every round. -/
def analyzeObj (E : AnalyzeEnv) (i : ℕ) (target : Num) : PyM CF (Bool × Conv) := do
  let errors ← buildErrors target 2000
  liftE (E.fit errors)
  liftE (E.plot i errors)
  let fast ← isConvergenceFast 600 200 50
  estimateApproachObj E.analysis 600 200 50
  let s ← PyM.get
  pure (fast, (s.approachType, s.approachParams))

/-- process_and_compare.py:283 with 170-172, and 284-292 -/
def analyzeRow (E : AnalyzeEnv) (i : ℕ) (l : Loaded) : Except PyErr (Bool × Conv) :=
  match E.target l.formula l.x with
  | .error e => .error e
  | .ok t =>
    match init l.a l.b with
    | .error e => .error e
    | .ok s => (analyzeObj E i t s).2

/-- The loop of process_and_compare.py:282. -/
def analyzeLoop (E : AnalyzeEnv) : ℕ → List Loaded → Except PyErr (List Bool × List Conv)
  | _, [] => .ok ([], [])
  | i, l :: ls =>
    match analyzeRow E i l with
    | .error e => .error e
    | .ok (f, c) =>
      match analyzeLoop E (i + 1) ls with
      | .error e => .error e
      | .ok (fs, cs) => .ok (f :: fs, c :: cs)

/-- process_and_compare.py:269-293 `analyze_contfracs_csv`.  The function called for 'enum_res', the default of the
argument, is commented out (lines 86-128): NameError. -/
def analyzeCsv (E : AnalyzeEnv) (compiles : Str → Bool) (rows : List (List Str)) (filetype : Str := "enum_res".toList) :
    Except PyErr (List Bool × List Conv) :=
  if filetype = "enum_res".toList then .error .nameError
  else if filetype = "cont_frac".toList then
    match loadContFracs compiles rows with
    | .error e => .error e
    | .ok ls => analyzeLoop E 0 ls
  else .error .valueError

/-! ## The cutoff of the fit -/

/-- `err < 10**-15` (process_and_compare.py:249); comparisons with NaN are false. -/
def tiny (x : Num) : Bool :=
  match x with
  | .fin q => decide (q < 1 / 10 ^ 15)
  | _ => false

/-- process_and_compare.py:249-250: `while errors[c][1] < 10**-15 and c > 0: c >>= 1`. -/
def fitCutoff (errors : List (ℕ × Num)) (c : ℕ) : Except PyErr ℕ :=
  match errors[c]? with
  | none => .error .indexError
  | some (_, x) =>
    if _h : tiny x = true ∧ 0 < c then fitCutoff errors (c / 2)
    else .ok c
termination_by c

/-! ## run_distributed_configs.py -/

/-- run_distributed_configs.py:4-7: the commands given to `os.system`, in the order of `os.listdir`. -/
def runConfigs (dir : Str) (listdir : List Str) : List Str :=
  ((listdir.filter fun f => (Path.splitext f).2 = ".ini".toList).map (Path.join dir)).map
    fun f => "start cmd.exe /k python main.py ".toList ++ f

example : findTriples 0 "[[1, -2,3], [4, 5], [06, 7, 8]]".toList = [[1, -2, 3], [6, 7, 8]] := by decide +kernel
example : isDecimalText "-12.50".toList = true ∧ isDecimalText "1.".toList = false ∧ isDecimalText "x".toList = false := by decide +kernel

end PiCF.Process
