import Verif.Model.Process
import Verif.Model.Latex
import Verif.Model.Main

/-!
# Model of `old_enum_csv_to_pdf` (process_and_compare.py)

The cells of the file are given (the `csv` module is not modelled).  Writing the PDF is not modelled: the result is the name
and the equations passed to `generate_latex`.
-/

namespace PiCF.Process
open PiCF.Hashtable PiCF.EnumPoly PiCF.Mitm PiCF.Lhs PiCF.Main

/-- `s.strip(c)` for a single character -/
def stripChar (c : Char) (s : Str) : Str := ((s.dropWhile (· == c)).reverse.dropWhile (· == c)).reverse

/-- `s.split(sep)` for a non-empty separator: the number counts the characters of a separator still to be skipped, `cur` is the
current piece, reversed. -/
def splitGo (sep : Str) : ℕ → Str → Str → List Str
  | _, cur, [] => [cur.reverse]
  | k + 1, cur, _ :: s => splitGo sep k cur s
  | 0, cur, c :: s =>
    if sep.isPrefixOf (c :: s) then cur.reverse :: splitGo sep (sep.length - 1) [] s else splitGo sep 0 (c :: cur) s

/-- `s.split(sep)` -/
def split (sep s : Str) : List Str := splitGo sep 0 [] s

/-- process_and_compare.py:48, the names of the functions -/
def readNames (cell : Str) : List Str :=
  split ", ".toList (replaceAll "'".toList [] 0 (stripChar ']' (stripChar '[' cell)))

/-- process_and_compare.py:49 -/
def readFuncs (funcs : List (Num → Except PyErr Num)) : List Str → Except PyErr (List (Num → Except PyErr Num))
  | [] => .ok []
  | n :: ns => do
    let i ← Postproc.index Postproc.postprocFuncs n
    let f ← (match funcs[i]? with | some f => .ok f | none => .error .indexError)
    let fs ← readFuncs funcs ns
    return f :: fs

/-- `int(constant.split(',')[1].strip())` -/
def constIndex (s : Str) : Except PyErr ℤ :=
  match (split ",".toList s)[1]? with
  | none => .error .indexError
  | some t => Config.intParser t

/-- process_and_compare.py:30-44 and 53-60: the generator for a name; `none`: the variable is not assigned. -/
def oldGen (s : Str) : Except PyErr (Option Gen) :=
  if s = "e".toList then .ok (some ⟨.e, []⟩)
  else if s = "pi".toList then .ok (some ⟨.pi, []⟩)
  else if s = "feig".toList then .ok (some ⟨.feig, []⟩)
  else if s = "euler_masch".toList then .ok (some ⟨.eulerMasch, []⟩)
  else if s = "percolation".toList then .ok (some ⟨.percolation, []⟩)
  else if "feig".toList.isPrefixOf s then (constIndex s).map fun i => some ⟨.feig, [some i]⟩
  else if "percolation".toList.isPrefixOf s then (constIndex s).map fun i => some ⟨.percolation, [some i]⟩
  else .ok none

/-- process_and_compare.py:50-63: the constant named in the header (`pi` if there is none). -/
def headerConst (row : List Str) : Except PyErr (Str × Option Gen) :=
  if 2 < row.length then
    match row[3]? with
    | none => .error .indexError
    | some [] => .ok ("pi".toList, some ⟨.pi, []⟩)
    | some s => (oldGen s).map fun g => (s, g)
  else .ok ("pi".toList, some ⟨.pi, []⟩)

/-- An int. -/
def intOf : Json.Val → Except PyErr ℤ
  | .int n => .ok n
  | _ => .error .typeError

/-- A list of ints. -/
def polyOf : Json.Val → Except PyErr Poly
  | .arr l => l.mapM intOf
  | _ => .error .typeError

/-- A list of lists of ints.  Other values (cells with texts, booleans or deeper lists) are not modelled: TypeError is a stand-in. -/
def polysOf : Json.Val → Except PyErr Polys
  | .arr l => l.mapM polyOf
  | _ => .error .typeError

/-- `row[i]` -/
def cell (row : List Str) (i : ℕ) : Except PyErr Str :=
  match row[i]? with
  | none => .error .indexError
  | some s => .ok s

/-- process_and_compare.py:69-79, one row.  `gen` is the call `constant_gen()`.  A negative function index counts from the end, like
python's; one that is out of range raises IndexError later, as the stand-in `count` does. -/
def oldRow (gen : Except PyErr ℚ) (count : ℕ) (row : List Str) : Except PyErr (Click Ulcd) := do
  let ca ← cell row 0
  let _ ← Json.loads (listText ca)
  let cb ← cell row 1
  let _ ← Json.loads (listText cb)
  let a ← readPoly ca
  let b ← readPoly cb
  let ns ← ((row.drop 3).take 4).mapM Config.intParser
  match ns with
  | [u, l, c, d] =>
    let x ← gen
    let lhs ← Ulcd.init (u, l, c, d) x
    let cp ← cell row 2
    let i ← Config.intParser cp
    let a ← polysOf a
    let b ← polysOf b
    return ⟨a, b, lhs, if 0 ≤ i then i.toNat else if 0 ≤ i + count then (i + count).toNat else count, none⟩
  | _ => .error .valueError

/-- process_and_compare.py:24-84 `old_enum_csv_to_pdf`.  `funcs` are the `EVALUATED_POSTPROC_FUNCS`, `call` is the call of a generator
(gen_consts.py) after the constructor of `MITM` has set the precision.  A variable that was not assigned raises
UnboundLocalError, a NameError. -/
def oldCsvToPdf (funcs : List (Num → Except PyErr Num)) (call : Gen → Except PyErr ℚ) (path : Str) (constant : Option Str)
    (rows : List (List Str)) : Except PyErr (Str × List Str) := do
  let given := constant.filter (· ≠ [])
  let chosen ← (match given with
    | some s => (oldGen s).map fun g => some (s, g)
    | none => .ok none)
  match rows with
  | [] => .error .stopIteration
  | header :: rest =>
    let c1 ← cell header 1
    let names := readNames c1
    let fs ← readFuncs funcs names
    let const ← (match chosen with
      | some c => .ok c
      | none => headerConst header)
    match rest with
    | [] => .error .stopIteration
    | _ :: rest =>
      match const.2 with
      | none => .error .nameError
      | some g =>
        let clicks ← rest.mapM (oldRow (call g) names.length)
        let eqns ← (Latex.getResultsAsEqns (fun name s => (s, Latex.ulcdLatex name s)) fs names Postproc.postprocFuncsLatex const.1 true 5
          clicks).2
        return (pdfPath path, eqns)

end PiCF.Process
