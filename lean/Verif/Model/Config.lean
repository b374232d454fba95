import Verif.Model.Json
import Verif.Model.Path
import Verif.Model.Postproc
import Verif.Model.Mitm

/-!
# `configfile.py`

A configuration file is modelled as the list of its options and their texts, in the order in which
`parsed_config[section].items()` gives them for all sections (names are lower case, as configparser makes them).  The file
format itself is in `Model/Ini`; the text of an option has no leading or trailing white space.  `load` and `save`
are for texts without `%`, which configparser replaces; `loadFile` and `saveFile` are for all texts.  File names have no line breaks.  Letters other than ASCII ones are not changed by `lower` here.
-/

namespace PiCF.Config
open PiCF.Hashtable PiCF.PyStr PiCF.Json

/-- `s.lower()` (ASCII letters) -/
def lower (s : Str) : Str := s.map Char.toLower

/-- `c.isspace()`, the characters removed by `strip`. -/
def isSpace (c : Char) : Bool :=
  let n := c.toNat
  (9 ≤ n && n ≤ 13) || (28 ≤ n && n ≤ 32) || n = 0x85 || n = 0xA0 || n = 0x1680 || (0x2000 ≤ n && n ≤ 0x200A) || n = 0x2028 ||
    n = 0x2029 || n = 0x202F || n = 0x205F || n = 0x3000

/-- `s.strip()` -/
def strip (s : Str) : Str := ((s.dropWhile isSpace).reverse.dropWhile isSpace).reverse

/-- The two kinds of left hand sides, values of `LHS_TYPES` (lhs_evaluators.py:560-582). -/
inductive LhsType where
  | ulcd
  | rationalfunc
  deriving DecidableEq, Repr

/-- The value of an option: data (None, bool, int, str, list), a class of polynomials (a value of `AB_POLYS_TYPES`), or
a dictionary of left hand side classes (a value of `LHS_TYPES`). -/
inductive Value where
  | data (v : Json.Val)
  | poly (c : Mitm.PolyClass)
  | lhs (t : LhsType)

/-- configfile.py:123-134 `string_parameter_parser` -/
def stringParser (s : Str) : Json.Val :=
  let s := strip s
  if lower s = "none".toList then .null
  else if lower s = "false".toList then .bool false
  else if lower s = "true".toList then .bool true
  else .str (lower s)

/-- configfile.py:136-144 `bool_parser` -/
def boolParser (s : Str) : Except PyErr Bool :=
  if lower s = "false".toList then .ok false
  else if lower s = "true".toList then .ok true
  else .error .valueError

/-- configfile.py:146-149 `path_parameter_parser`, with `os.path.sep = '/'`: None and bools have no `replace`. -/
def pathParser (s : Str) : Except PyErr Json.Val :=
  match stringParser s with
  | .str t => .ok (.str t)
  | _ => .error .attributeError

/-- configfile.py:151-157 `poly_type_parser`; `AB_POLYS_TYPES` has the keys normal, indexed, sparse
(enum_poly_params.py:41, 194, 229, 280-300). -/
def polyParser (s : Str) : Except PyErr Mitm.PolyClass :=
  match stringParser s with
  | .str t =>
    if t = "normal".toList then .ok .basic
    else if t = "indexed".toList then .ok .indexed
    else if t = "sparse".toList then .ok .sparse
    else .error .valueError
  | _ => .error .valueError

/-- configfile.py:159-166 `lhs_type_parser`; `LHS_TYPES` has the keys ulcd, rationalfunc (lhs_evaluators.py:92-95, 250-253,
560-582). -/
def lhsParser (s : Str) : Except PyErr LhsType :=
  match stringParser s with
  | .str t =>
    if t = "ulcd".toList then .ok .ulcd
    else if t = "rationalfunc".toList then .ok .rationalfunc
    else .error .valueError
  | _ => .error .valueError

/-- The digits of an int literal: single underscores are allowed between digits.  The first argument tells whether the
character before is a digit. -/
def digitsOk : Bool → Str → Bool
  | p, [] => p
  | p, c :: s => if isDigit c then digitsOk true s else if c = '_' && p then digitsOk false s else false

/-- An int literal without sign. -/
def natParser (s : Str) : Except PyErr ℕ :=
  if digitsOk false s then .ok (digitsVal (s.filter isDigit)) else .error .valueError

/-- `int(s)` of a str (decimal digits 0-9). -/
def intParser (s : Str) : Except PyErr ℤ :=
  match strip s with
  | '-' :: r => (natParser r).map fun n => -(n : ℤ)
  | '+' :: r => (natParser r).map fun n => (n : ℤ)
  | r => (natParser r).map fun n => (n : ℤ)

/-- The parsers named in `CONFIG_PARAMS_TYPES`. -/
inductive Kind where
  | string
  | poly
  | json
  | bool
  | lhs
  | int
  | path
  deriving DecidableEq, Repr

/-- configfile.py:206-229 `CONFIG_PARAMS_TYPES` -/
def params : List (Str × Kind) :=
  [("const".toList, .string),
   ("ab_polys_type".toList, .poly),
   ("ab_polys_special_params".toList, .json),
   ("print_surprising_nonexp_contfracs".toList, .bool),
   ("gen_hashtable_only".toList, .string),
   ("a_coeffs_range".toList, .json),
   ("b_coeffs_range".toList, .json),
   ("lhs_type".toList, .lhs),
   ("lhs_params".toList, .json),
   ("postproc_funcs_filter".toList, .json),
   ("i".toList, .int),
   ("hashtable_file_operation".toList, .string),
   ("validate_hashtable_extend_no_replication".toList, .bool),
   ("hashtable_file".toList, .path),
   ("hashtable_num_of_iterations".toList, .int),
   ("hashtable_precision".toList, .int),
   ("first_filtering_num_of_iterations".toList, .int),
   ("first_filtering_precision".toList, .int),
   ("second_filtering_max_num_of_iterations".toList, .int),
   ("second_filtering_precision".toList, .int),
   ("third_filtering_max_num_of_iterations".toList, .int),
   ("third_filtering_precision".toList, .int),
   ("is_test".toList, .bool)]

/-- The parser of an option. -/
def kindOf (k : Str) : Option Kind := params.lookup k

/-- The call `CONFIG_PARAMS_TYPES[param_key](param_val)`. -/
def parse (k : Kind) (s : Str) : Except PyErr Value :=
  match k with
  | .string => .ok (.data (stringParser s))
  | .poly => (polyParser s).map .poly
  | .json => (loads s).map .data
  | .bool => (boolParser s).map fun b => .data (.bool b)
  | .lhs => (lhsParser s).map .lhs
  | .int => (intParser s).map fun n => .data (.int n)
  | .path => (pathParser s).map .data

/-- configfile.py:63-76 `_cast_param_val` for an option of `CONFIG_PARAMS_TYPES` -/
def cast (k : Kind) (s : Str) : Except PyErr Value :=
  if strip (lower s) = "none".toList then .ok (.data .null) else parse k s

/-- The dictionary of options.  Options that are not in `CONFIG_PARAMS_TYPES` are left out: `_cast_unknown_param_val` does
not raise and nothing reads their values. -/
abbrev Dict := Str → Option Value

/-- `d[k] = v` -/
def Dict.set (d : Dict) (k : Str) (v : Value) : Dict := fun k' => if k' = k then some v else d k'

/-- configfile.py:168-188 `_cast_unknown_param_val`; where the code makes a float, the text is kept here.
The limits of python for the length of numbers and the depth of nested lists are not modelled. -/
def castUnknown (s : Str) : Json.Val :=
  match stringParser s with
  | .str t =>
    match intParser t with
    | .ok n => .int n
    | .error _ =>
      match loads t with
      | .ok v => v
      | .error _ => .str t
  | v => v

/-- configfile.py:40-43, the loop over the options of the file, with lines 63-76 for options that are not in the table -/
def readItems : Dict → List (Str × Str) → Except PyErr Dict
  | d, [] => .ok d
  | d, (key, text) :: items =>
    match kindOf key with
    | none => readItems (d.set key (.data (castUnknown text))) items
    | some k =>
      match cast k text with
      | .error e => .error e
      | .ok v => readItems (d.set key v) items

/-- configfile.py:44-46, missing options become None. -/
def fillMissing (d : Dict) : Dict := fun k =>
  match d k with
  | some v => some v
  | none => if (kindOf k).isSome then some (.data .null) else none

/-- Is `pat` at the beginning of a tail of `s` (a match of `(.*?)(pat)`)? -/
def occurs (p : Str → Bool) (s : Str) : Bool := s.tails.any p

/-- The regular expression `\.pkl` at the beginning of the text. -/
def atPkl (s : Str) : Bool := ".pkl".toList.isPrefixOf s

/-- The regular expression `_v[0-9]+\.pkl` at the beginning of the text: the text after the match. -/
def versionPkl (s : Str) : Option Str :=
  match s with
  | '_' :: 'v' :: r =>
    if (r.takeWhile isDigit) ≠ [] ∧ atPkl (r.dropWhile isDigit) then some ((r.dropWhile isDigit).drop 4) else none
  | _ => none

/-- `[0-9.]` -/
def isDigitDot (c : Char) : Bool := isDigit c || c = '.'

/-- The regular expression `(_v[0-9.]+)?(\.pkl)` at the beginning of the text: the second group without `_v`.  As `p` is not
in `[0-9.]`, the dot of `.pkl` has to be the last character of the run of digits and dots. -/
def suffixMatch (s : Str) : Option Str :=
  if atPkl s then some []
  else
    match s with
    | '_' :: 'v' :: r =>
      let run := r.takeWhile isDigitDot
      if 2 ≤ run.length ∧ run.getLast? = some '.' ∧ "pkl".toList.isPrefixOf (r.dropWhile isDigitDot) then some run.dropLast
      else none
    | _ => none

/-- A regular expression made of ordinary characters and dots at the beginning of the text: the text after the match. -/
def stemMatch : Str → Str → Option Str
  | [], s => some s
  | _ :: _, [] => none
  | c :: p, d :: s => if c = '.' ∨ c = d then stemMatch p s else none

/-- `re.split('_v[0-9]+\\.pkl$', filename)[0]` -/
def stripVersion : Str → Str
  | [] => []
  | c :: s => if versionPkl (c :: s) = some [] then [] else c :: stripVersion s

/-- The order of strings. -/
def strLe : Str → Str → Bool
  | [], _ => true
  | _ :: _, [] => false
  | a :: s, b :: t => if a = b then strLe s t else a.toNat < b.toNat

/-- Insertion into a sorted list. -/
def insertStr (x : Str) : List Str → List Str
  | [] => [x]
  | y :: l => if strLe x y then x :: y :: l else y :: insertStr x l

/-- `l.sort()`, the sorted list -/
def sortStr (l : List Str) : List Str := l.foldr insertStr []

/-- `re.findall('(.*?)(_v[0-9.]+)?(\\.pkl)', s)[0]` without the last group: the shortest text before a match of the other
groups; IndexError if there is none. -/
def findVersion : Str → Except PyErr (Str × Str)
  | [] =>
    match suffixMatch [] with
    | some v => .ok ([], v)
    | none => .error .indexError
  | c :: s =>
    match suffixMatch (c :: s) with
    | some v => .ok ([], v)
    | none => (findVersion s).map fun (b, v) => (c :: b, v)

/-- configfile.py:88-94, the extension and a version are added if missing. -/
def normalName (filename : Str) : Str :=
  let filename := if occurs atPkl filename then filename else filename ++ ".pkl".toList
  if occurs (fun t => (versionPkl t).isSome) filename then filename
  else filename.take (filename.length - 4) ++ "_v1.pkl".toList

/-- configfile.py:98, the filter of the files of the directory.  The name is used as a regular expression; special
characters other than the dot are not modelled. -/
def isVersion (stem fn : Str) : Bool :=
  match stemMatch stem fn with
  | some r => (suffixMatch r).isSome
  | none => false

/-- The version found in a file name, plus one (configfile.py:105-108); `v` consists of digits and dots. -/
def nextVersion (v : Str) : Except PyErr ℤ := if v = [] then .ok 1 else (intParser v).map (· + 1)

/-- configfile.py:97-112, the name chosen among the files of the directory -/
def chooseName (files : List Str) (operation : Json.Val) (filename : Str) : Except PyErr Str :=
  let old := sortStr (files.filter (isVersion (stripVersion filename)))
  match old.getLast? with
  | none => .ok filename
  | some last =>
    match operation with
    | .str ['g', 'e', 'n', 'e', 'r', 'a', 't', 'e'] =>
      match findVersion last with
      | .error e => .error e
      | .ok (base, v) => (nextVersion v).map fun n => base ++ "_v".toList ++ strInt n ++ ".pkl".toList
    | _ => .ok last

/-- configfile.py:78-112 `_gen_hashtable_filename`, the new value of the option; `listdir` is `os.listdir`. -/
def genFilename (listdir : Str → Except PyErr (List Str)) (operation : Json.Val) (file : Json.Val) : Except PyErr Json.Val :=
  match file with
  | .str p =>
    let dir := if (Path.split p).1 = [] then ['.'] else (Path.split p).1
    let filename := (Path.split p).2
    if filename = [] then .ok file
    else
      match listdir dir with
      | .error e => .error e
      | .ok files => (chooseName files operation (normalName filename)).map fun f => .str (Path.join dir f)
  | _ => .error .typeError

/-- The elements of the list given as `postproc_funcs_filter`, as positions in `POSTPROC_FUNCS`. -/
def funcIndices : List Json.Val → Except PyErr (List Json.Val)
  | [] => .ok []
  | .str f :: l =>
    match Postproc.index Postproc.postprocFuncs f with
    | .error e => .error e
    | .ok i => (funcIndices l).map fun is => .int i :: is
  | _ :: _ => .error .valueError

/-- configfile.py:114-121 `_gen_postproc_funcs_filter`, the new value of the option (the copy under
`postproc_funcs_filter_textual` is not read by any module).  A str is iterated as characters, none of which is a function. -/
def genFilter : Json.Val → Except PyErr Json.Val
  | .arr l => (funcIndices l).map .arr
  | .str [] => .ok (.arr [])
  | .str _ => .error .valueError
  | _ => .error .typeError

/-- A data value (the options read here are never classes). -/
def dataOf : Option Value → Json.Val
  | some (.data v) => v
  | _ => .null

/-- configfile.py:52-61, the check of the operation and the translation of 'auto' -/
def finish (d : Dict) : Except PyErr Dict :=
  match dataOf (d "hashtable_file_operation".toList) with
  | .str op =>
    if op = "generate".toList ∨ op = "expand".toList ∨ op = "use".toList then
      match dataOf (d "gen_hashtable_only".toList) with
      | .str g =>
        if g = "auto".toList then .ok (d.set "gen_hashtable_only".toList (.data (.bool (op ≠ "use".toList)))) else .ok d
      | _ => .ok d
    else .error .valueError
  | _ => .error .valueError

/-- configfile.py:47-61, after the options have been read and completed -/
def afterRead (listdir : Str → Except PyErr (List Str)) (d : Dict) : Except PyErr Dict :=
  match genFilename listdir (dataOf (d "hashtable_file_operation".toList)) (dataOf (d "hashtable_file".toList)) with
  | .error e => .error e
  | .ok f =>
    let d := d.set "hashtable_file".toList (.data f)
    match genFilter (dataOf (d "postproc_funcs_filter".toList)) with
    | .error e => .error e
    | .ok is => finish (d.set "postproc_funcs_filter".toList (.data is))

/-- configfile.py:17-61 `ConfigParser.__init__` for a file that can be read, from the texts without `%` -/
def load (listdir : Str → Except PyErr (List Str)) (items : List (Str × Str)) : Except PyErr Dict :=
  match readItems (fun _ => none) items with
  | .error e => .error e
  | .ok d =>
    let d := fillMissing d
    match genFilename listdir (dataOf (d "hashtable_file_operation".toList)) (dataOf (d "hashtable_file".toList)) with
    | .error e => .error e
    | .ok f =>
      let d := d.set "hashtable_file".toList (.data f)
      match genFilter (dataOf (d "postproc_funcs_filter".toList)) with
      | .error e => .error e
      | .ok is => finish (d.set "postproc_funcs_filter".toList (.data is))

/-! ### Replacement of `%`

configfile.py:34 makes a `configparser.ConfigParser()`, whose default interpolation (`BasicInterpolation` in Lib/configparser.py) is
applied by `.items()` in line 42. -/

/-- A part of a text: a character, a reference `%(name)s`, or a `%` that is neither `%%` nor a reference. -/
inductive Piece where
  | lit (c : Char)
  | ref (name : Str)
  | bad
  deriving DecidableEq

/-- `re.match(r'%\(([^)]+)\)s', '%(' + s)`: the name and the rest -/
def splitRef (s : Str) : Option (Str × Str) :=
  if s.takeWhile (· ≠ ')') = [] then none
  else
    match s.dropWhile (· ≠ ')') with
    | ')' :: 's' :: r => some (s.takeWhile (· ≠ ')'), r)
    | _ => none

/-- The parts of a text in the order in which `_interpolate_some` finds them; nothing follows a bad one (it raises).  The number
bounds the steps. -/
def piecesAux : ℕ → Str → List Piece
  | 0, _ => []
  | _ + 1, [] => []
  | n + 1, '%' :: '%' :: r => .lit '%' :: piecesAux n r
  | n + 1, '%' :: '(' :: r =>
    match splitRef r with
    | some (name, r') => .ref name :: piecesAux n r'
    | none => [.bad]
  | n + 1, c :: r => if c = '%' then [.bad] else .lit c :: piecesAux n r

/-- Every step removes a character at least. -/
def pieces (s : Str) : List Piece := piecesAux s.length s

/-- `''.join(L)` with the texts of the references -/
def joinPieces (text : Str → Except PyErr Str) : List Piece → Except PyErr Str
  | [] => .ok []
  | .lit c :: ps => (joinPieces text ps).map (c :: ·)
  | .ref name :: ps =>
    match text name with
    | .error e => .error e
    | .ok t => (joinPieces text ps).map (t ++ ·)
  | .bad :: _ => .error .interpolation

/-- `_interpolate_some` with the options of the section and the number of levels left (`InterpolationSyntaxError`,
`InterpolationMissingOptionError` and `InterpolationDepthError` are one exception here). -/
def interpolate (sec : List (Str × Str)) : ℕ → Str → Except PyErr Str
  | 0, _ => .error .interpolation
  | n + 1, s => joinPieces (fun name =>
      match sec.lookup (lower name) with
      | none => .error .interpolation
      | some t => if '%' ∈ t then interpolate sec n t else .ok t) (pieces s)

/-- `MAX_INTERPOLATION_DEPTH` -/
def maxDepth : ℕ := 10

/-- configfile.py:42-43 for the section `sec` -/
def readSection (sec : List (Str × Str)) : Dict → List (Str × Str) → Except PyErr Dict
  | d, [] => .ok d
  | d, (key, text) :: items =>
    match interpolate sec maxDepth text with
    | .error e => .error e
    | .ok text =>
      match readItems d [(key, text)] with
      | .error e => .error e
      | .ok d => readSection sec d items

/-- configfile.py:41-43 -/
def readSections : Dict → List (List (Str × Str)) → Except PyErr Dict
  | d, [] => .ok d
  | d, sec :: secs =>
    match readSection sec d sec with
    | .error e => .error e
    | .ok d => readSections d secs

/-- configfile.py:17-61 for a file that can be read.  Every section is given by its options with their texts as they stand in the
file, including the options of the section DEFAULT. -/
def loadFile (listdir : Str → Except PyErr (List Str)) (secs : List (List (Str × Str))) : Except PyErr Dict :=
  match readSections (fun _ => none) secs with
  | .error e => .error e
  | .ok d => afterRead listdir (fillMissing d)

/-- `str(v)` of a data value. -/
def dataStr : Json.Val → Str
  | .str s => s
  | .null => Val.repr .null
  | .bool b => Val.repr (.bool b)
  | .int n => Val.repr (.int n)
  | .arr l => Val.repr (.arr l)

/-- `str(value)` of an option.  The metaclasses of the polynomial classes define `__str__` (enum_poly_params.py:41, 194,
229); the text of a dictionary uses the `repr` of the classes, which they do not define. -/
def Value.str (v : Value) : Str :=
  match v with
  | .data v => dataStr v
  | .poly c =>
    match c with
    | .basic => "normal".toList
    | .indexed => "indexed".toList
    | .sparse => "sparse".toList
  | .lhs t =>
    match t with
    | .ulcd => "{'enum': <class 'lhs_evaluators.ULCDEnumerator'>, 'eval': <class 'lhs_evaluators.ULCDEvaluator'>}".toList
    | .rationalfunc =>
      "{'enum': <class 'lhs_evaluators.RationalFuncEnumerator'>, 'eval': <class 'lhs_evaluators.RationalFuncEvaluator'>}".toList

/-- The names of the functions with the given positions (configfile.py:195), in double quotes; a negative position counts
from the end. -/
def quotedFuncs : List Json.Val → Except PyErr (List Str)
  | [] => .ok []
  | .int i :: l =>
    let n := Postproc.postprocFuncs.length
    if -(n : ℤ) ≤ i ∧ i < n then
      (quotedFuncs l).map fun r => ('"' :: Postproc.postprocFuncs.getD (if i < 0 then (i + n).toNat else i.toNat) [] ++ ['"']) :: r
    else .error .indexError
  | .bool b :: l => (quotedFuncs l).map fun r => ('"' :: Postproc.postprocFuncs.getD (if b then 1 else 0) [] ++ ['"']) :: r
  | _ :: _ => .error .typeError

/-- configfile.py:190-198 `set`, the text stored for an option -/
def setText (option value : Str) : Except PyErr Str :=
  if option = "postproc_funcs_filter".toList ∧ value ≠ [] then
    match loads value with
    | .error e => .error e
    | .ok (.arr l) => (quotedFuncs l).map fun names => '[' :: PyStr.join ", ".toList names ++ [']']
    | .ok _ => .error .typeError
  else .ok value

/-- main.py:176-179 (and distribute_run.py:34-45 without the changed options), the options written for a run with the
configuration `d` -/
def saveItems (d : Dict) : List (Str × Kind) → Except PyErr (List (Str × Str))
  | [] => .ok []
  | (key, _) :: ps =>
    match d key with
    | none => .error .keyError
    | some v =>
      match setText key v.str with
      | .error e => .error e
      | .ok t => (saveItems d ps).map fun r => (key, t) :: r

/-- main.py:176-184, the saved configuration file -/
def save (d : Dict) : Except PyErr (List (Str × Str)) := saveItems d params

/-- `value.replace('%%', '')` -/
def dropPairs : Str → Str
  | '%' :: '%' :: r => dropPairs r
  | c :: r => c :: dropPairs r
  | [] => []

/-- `re.sub(r'%\(([^)]+)\)s', '', s)`; the number bounds the steps. -/
def dropRefs : ℕ → Str → Str
  | 0, _ => []
  | _ + 1, [] => []
  | n + 1, '%' :: '(' :: r =>
    match splitRef r with
    | some (_, r') => dropRefs n r'
    | none => '%' :: dropRefs n ('(' :: r)
  | n + 1, c :: r => c :: dropRefs n r

/-- `BasicInterpolation.before_set` accepts the text. -/
def beforeSet (value : Str) : Bool := '%' ∉ dropRefs (dropPairs value).length (dropPairs value)

/-- main.py:176-184 for all texts: `set` of configparser raises ValueError for a text with a `%` that is not part of `%%` or a
reference.  (If several options fail, the exception of the first is raised; here those of `save` come first.) -/
def saveFile (d : Dict) : Except PyErr (List (Str × Str)) :=
  match save d with
  | .error e => .error e
  | .ok items => if items.all (fun x => beforeSet x.2) then .ok items else .error .valueError

end PiCF.Config
