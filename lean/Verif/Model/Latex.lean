import Verif.Model.Mitm
import Verif.Model.RationalFunc
import Verif.Model.Postproc

/-!
# Model of the LaTeX export: `latex.py`, `get_latex_exp`, `get_results_as_eqns`

`generate_latex` (latex.py:5-17), which hands the equations to pylatex, is not modelled.
-/

namespace PiCF.Latex
open PiCF.Hashtable PiCF.PyStr PiCF.Lhs PiCF.Mitm PiCF.Postproc PiCF.EnumPoly PiCF.ContFrac

/-- latex.py:29-34, the recursion of `latex_cont_frac` with a non-empty expression; the number bounds the calls (every call has
one `a` less; python's recursion limit is not modelled). -/
def contFracLoop : ℕ → List ℤ → List ℤ → Str → Except PyErr Str
  | 0, _, _, cur => .ok cur
  | n + 1, a, b, cur =>
    if a.length > 1 then
      match a.dropLast.getLast?, b.getLast? with
      | some a', some b' =>
        match format "{0} + \\frac{{ {1} }} {{ {2} }}".toList [strInt a', strInt b', cur] with
        | .error e => .error e
        | .ok new => contFracLoop n a.dropLast b.dropLast new
      | _, _ => .error .indexError
    else .ok cur

/-- latex.py:20-34 `latex_cont_frac(a, b)` -/
def latexContFrac (a b : List ℤ) : Except PyErr Str :=
  match a.getLast? with
  | none => .error .indexError
  | some x => contFracLoop a.length a b (strInt x ++ " + \\dots".toList)

/-! ## Left hand sides -/

/-- lhs_evaluators.py:173-174 -/
def ulcdPartU (name : Str) (u : ℤ) : Except PyErr (List Str) :=
  if u ≠ 0 then (format "\\frac{{ {0} }}{{ {1} }}".toList [strInt u, name]).map fun s => [s] else .ok []

/-- lhs_evaluators.py:175-180 -/
def ulcdPartL (name : Str) (l : ℤ) : Except PyErr (List Str) :=
  if |l| ≠ 1 then (format "\\frac{{ {0} }}{{ {1} }}".toList [name, strInt l]).map fun s => [s]
  else if l = -1 then (format "\\left(-1\\right) \\cdot {0}".toList [name]).map fun s => [s]
  else .ok [name]

/-- lhs_evaluators.py:181-182 -/
def ulcdPartC (c : ℤ) : List Str := if c ≠ 0 then [strInt c] else []

/-- lhs_evaluators.py:184-187 -/
def ulcdPartD (d : ℤ) (exp : Str) : Except PyErr Str :=
  if |d| ≠ 1 then format "\\frac{{ 1 }}{{ {0} }} \\left( {1} \\right)".toList [strInt d, exp]
  else if d = -1 then format "- \\left( {1} \\right)".toList [strInt d, exp]
  else .ok exp

/-- lhs_evaluators.py:166-189 `ULCDEvaluator.get_latex_exp` -/
def ulcdLatex (name : Str) (s : Ulcd) : Except PyErr Str :=
  match s.params with
  | (u, l, c, d) =>
    match ulcdPartU name u, ulcdPartL name l with
    | .ok pu, .ok pl => ulcdPartD d (join ['+'] (pu ++ pl ++ ulcdPartC c))
    | .error e, _ => .error e
    | _, .error e => .error e

/-- `s.replace(old, '')` for a non-empty `old`: occurrences are removed from the left; the number counts the characters of
an occurrence still to be skipped. -/
def removeAll (old : Str) : ℕ → Str → Str
  | _, [] => []
  | k + 1, _ :: s => removeAll old k s
  | 0, c :: s => if old.isPrefixOf (c :: s) then removeAll old (old.length - 1) s else c :: removeAll old 0 s

/-- `s.strip()` for the characters that can occur (spaces). -/
def strip (s : Str) : Str := ((s.dropWhile (· = ' ')).reverse.dropWhile (· = ' ')).reverse

/-- lhs_evaluators.py:406-422, the element of the coefficient `c` of power `i`, if it has one. -/
def rfElement (name : Str) (i : ℕ) (c : ℤ) : Except PyErr (Option Str) :=
  if c = 0 then .ok none
  else if i = 0 then .ok (some (strInt c))
  else if i = 1 then
    if c = 1 then (format "{0}".toList [name]).map some
    else if c = -1 then (format "-{0}".toList [name]).map some
    else (format "{0} {1}".toList [strInt c, name]).map some
  else if c = 1 then (format "{0}^{1}".toList [name, strNat i]).map some
  else (format "{0} {1}^{2}".toList [strInt c, name, strNat i]).map some

/-- lhs_evaluators.py:405-422, the loop over the coefficients from index `i` on. -/
def rfElements (name : Str) : ℕ → List ℤ → Except PyErr (List Str)
  | _, [] => .ok []
  | i, c :: cs =>
    match rfElement name i c with
    | .error e => .error e
    | .ok o =>
      match rfElements name (i + 1) cs with
      | .error e => .error e
      | .ok r => .ok (o.toList ++ r)

/-- lhs_evaluators.py:404-424, one polynomial; line 423 raises IndexError if there are no elements. -/
def rfPoly (name : Str) (p : List ℤ) : Except PyErr Str :=
  match rfElements name 0 p with
  | .error e => .error e
  | .ok [] => .error .indexError
  | .ok (s :: ss) =>
    match format "{0}^{1}".toList [name, strNat 0] with
    | .error e => .error e
    | .ok old => .ok (join ['+'] (removeAll old 0 s :: ss))

/-- lhs_evaluators.py:425-428 -/
def rfFraction (num den : Str) : Except PyErr Str :=
  if strip den = ['1'] then .ok num else format "\\frac{{ {0} }}{{ {1} }}".toList [num, den]

/-- lhs_evaluators.py:429-430 -/
def rfAdded (added : ℤ) (exp : Str) : Except PyErr Str :=
  if added ≠ 0 then (format "+ {0}".toList [strInt added]).map fun s => exp ++ s else .ok exp

/-- lhs_evaluators.py:403-431 after the canonicalisation. -/
def rfLatexText (name : Str) (s : RF) : Except PyErr Str :=
  match rfPoly name s.num with
  | .error e => .error e
  | .ok num =>
    match rfPoly name s.den with
    | .error e => .error e
    | .ok den =>
      match rfFraction num den with
      | .error e => .error e
      | .ok f => rfAdded s.added f

/-- lhs_evaluators.py:397-431 `RationalFuncEvaluator.get_latex_exp` -/
noncomputable def rfLatex (name : Str) : PyM RF Str := do
  RF.canonalizeParams
  let s ← PyM.get
  RF.lift (rfLatexText name s)

/-! ## Equations -/

/-- enum_params.py:414-415, 432-436 -/
def exportName (target : Str) : Str :=
  if target = "pi".toList then "\\pi".toList else if target = "phi".toList then "\\varphi".toList else target

/-- `pa[i % len(pa)]`; no polynomials: ZeroDivisionError. -/
def polyAt (ps : Polys) (i : ℕ) : Except PyErr (List ℤ) :=
  if ps.length = 0 then .error .zeroDivision else .ok (ps.getD (i % ps.length) [])

/-- enum_params.py:429-430, the values of a sequence for the indices `i, …, i + n - 1`. -/
def firstValues (ps : Polys) : ℕ → ℕ → Except PyErr (List ℤ)
  | _, 0 => .ok []
  | i, n + 1 =>
    match polyAt ps i with
    | .error e => .error e
    | .ok p =>
      match firstValues ps (i + 1) n with
      | .error e => .error e
      | .ok r => .ok (Utils.subsInPolynom p (i : ℤ) :: r)

variable {L : Type}

/-- enum_params.py:428-443, one equation; the LaTeX method may change the LHS object. `depth` is a natural number
(`range` of a negative number is empty like `range(0)`). -/
def equation (latex : Str → PyM L Str) (funcs : List Str) (table : Dict Str LatexFn) (target : Str) (depth : ℕ) (c : Click L) :
    L × Except PyErr Str :=
  match firstValues c.a 0 depth with
  | .error e => (c.lhs, .error e)
  | .ok a =>
    match firstValues c.b 0 depth with
    | .error e => (c.lhs, .error e)
    | .ok b =>
      match latex (exportName target) c.lhs with
      | (l, .error e) => (l, .error e)
      | (l, .ok lhs) =>
        match latexContFrac a b with
        | .error e => (l, .error e)
        | .ok rhs =>
          match postLatex funcs table c.post lhs rhs with
          | .error e => (l, .error e)
          | .ok (lhs', rhs') => (l, format "{0} = {1}".toList [lhs', rhs'])

/-- enum_params.py:417-448, the loop; the first component is the list of results with the LHS objects as they are when the loop
ends. `build` is `build_contfrac_from_params`. -/
def eqnsLoop (build : Click L → Except PyErr Unit) (eqn : Click L → L × Except PyErr Str) (ignore : Bool) :
    List (Click L) → List (Click L) × Except PyErr (List Str)
  | [] => ([], .ok [])
  | c :: cs =>
    match build c with
    | .error (.zeroB i) =>
      if ignore then
        match eqnsLoop build eqn ignore cs with
        | (cs', r) => (c :: cs', r)
      else (c :: cs, .error (.zeroB i))
    | .error e => (c :: cs, .error e)
    | .ok () =>
      match eqn c with
      | (l, .error e) => ({ c with lhs := l } :: cs, .error e)
      | (l, .ok s) =>
        match eqnsLoop build eqn ignore cs with
        | (cs', .error e) => ({ c with lhs := l } :: cs', .error e)
        | (cs', .ok r) => ({ c with lhs := l } :: cs', .ok (s :: r))

/-- enum_params.py:400-448 `get_results_as_eqns`; `post` are the evaluated functions of the `MITM` object, `funcs` the texts passed
as argument. Results are assumed to hold different LHS objects. -/
def getResultsAsEqns (latex : Str → PyM L Str) (post : List (Num → Except PyErr Num)) (funcs : List Str) (table : Dict Str LatexFn)
    (target : Str) (ignore : Bool := true) (depth : ℕ := 5) : PyM (List (Click L)) (List Str) :=
  eqnsLoop (fun c => (buildFromParams post 400 c).map fun _ => ()) (equation latex funcs table target depth) ignore

end PiCF.Latex
