import Verif.Model.Main
import Verif.Model.Ini

/-!
# main.py: which step reads which option

`Parameters` (main.py:23-32) is a dictionary whose items can be written as attributes; the loop of lines 49-52 copies the options of
CONFIG_PARAMS_TYPES into it, so that it is the loaded configuration here (`params.const` is only reassigned for feig and percolation, where the
right hand side raises).  `Model/Main` with the steps as functions of the options that they are given, and with the messages that print options with `%d`.
-/

namespace PiCF.Main
open PiCF.Hashtable PiCF.Config

/-- The methods called by main.py:86-196 on a MITM object (its other attributes: `S`), as functions of the options passed to them.
`output` is main.py:162-196 (it creates the directory of the results and writes the files). -/
structure Steps (S : Type) where
  create : (filter prec cls special iterations : Option Value) → Except PyErr S
  redefine : (filter prec cls special : Option Value) → S → Except PyErr S
  build : (rangeA rangeB : Option Value) → S → Except PyErr S
  findClicks : (lhsType lhsParams : Option Value) → ℚ → S → Except PyErr S
  refineConst : (accuracy iterations : Option Value) → PyM S Unit
  refineInfo : (accuracy iterations : Option Value) → PyM S Unit
  uniq : PyM S Unit
  onlyExp : (print : Option Value) → PyM S Unit
  approach : PyM S Unit
  posRoots : PyM S Unit
  output : Config.Dict → S → Except PyErr Unit

/-- `'%d' % v`: None, strings, lists and classes raise TypeError (no option is a float). -/
def formatD (v : Option Value) : Except PyErr Unit :=
  match dataOf v with
  | .int _ => .ok ()
  | .bool _ => .ok ()
  | _ => .error .typeError

/-- The message of main.py:125-127, 138-140 and 148-150. -/
def report {S : Type} (accuracy iterations : Option Value) : PyM S Unit := fun s =>
  match formatD accuracy with
  | .error e => (s, .error e)
  | .ok () => (s, formatD iterations)

/-- main.py:123-140 -/
def Steps.filters {S : Type} (T : Steps S) (d : Config.Dict) : PyM S Unit := do
  T.refineConst (d "first_filtering_precision".toList) (d "first_filtering_num_of_iterations".toList)
  report (d "first_filtering_precision".toList) (d "first_filtering_num_of_iterations".toList)
  T.uniq
  T.onlyExp (d "print_surprising_nonexp_contfracs".toList)
  T.approach
  T.refineInfo (d "second_filtering_precision".toList) (d "second_filtering_max_num_of_iterations".toList)
  report (d "second_filtering_precision".toList) (d "second_filtering_max_num_of_iterations".toList)

/-- main.py:144-157, the body of the `try`. -/
def Steps.last {S : Type} (T : Steps S) (d : Config.Dict) : PyM S Unit := do
  T.refineInfo (d "third_filtering_precision".toList) (d "third_filtering_max_num_of_iterations".toList)
  report (d "third_filtering_precision".toList) (d "third_filtering_max_num_of_iterations".toList)
  T.uniq
  T.uniq
  T.posRoots

/-- main.py:122-196; `reset_hashtable` (line 122) sets one attribute and does not raise; it is part of `findClicks` here. -/
def Steps.tail {S : Type} (T : Steps S) (d : Config.Dict) (s : S) : Except PyErr Unit :=
  match T.filters d s with
  | (_, .error e) => .error e
  | (s, .ok ()) =>
    match T.last d s with
    | (s, .ok ()) => T.output d s
    | (s, .error .keyboardInterrupt) => T.output d s
    | (_, .error e) => .error e

/-- The steps with the options of the configuration (main.py:86-119). -/
def Steps.ops {S : Type} (T : Steps S) : Ops S where
  create d := T.create (d "postproc_funcs_filter".toList) (d "hashtable_precision".toList) (d "ab_polys_type".toList)
    (d "ab_polys_special_params".toList) (d "hashtable_num_of_iterations".toList)
  redefine d := T.redefine (d "postproc_funcs_filter".toList) (d "hashtable_precision".toList) (d "ab_polys_type".toList)
    (d "ab_polys_special_params".toList)
  build d := T.build (d "a_coeffs_range".toList) (d "b_coeffs_range".toList)
  search d := T.findClicks (d "lhs_type".toList) (d "lhs_params".toList)
  tail d _ s := T.tail d s

/-- main.py:44-52 and the rest: `text` is the content of the configuration file, `none` if it cannot be opened (`read` then returns an empty list,
the configuration is an empty dictionary, and the first look-up in line 51 raises KeyError). -/
def mainFile {S : Type} (K : Consts) (rnd : ℤ → ℚ → ℚ) (O : Ops S) (listdir : Str → Except PyErr (List Str)) (text : Option Str) :
    PyM (World S) Unit := fun w =>
  match text with
  | none => (w, .error .keyError)
  | some t =>
    match Ini.loadText listdir t with
    | .error e => (w, .error e)
    | .ok d => main K rnd O d w

end PiCF.Main
