import Verif.Model.Config

/-!
# The format of configuration files

`configfile.py:34-35` reads a file with `configparser.ConfigParser()`, main.py:175-184 and distribute_run.py:34-51 write one with the
`write` inherited from it.  This is the part of python's library (Lib/configparser.py of python 3.11: `RawConfigParser._read`,
`_join_multiline_values`, `write`, `_write_section`, with the default arguments) that they use.  The text is what `open` gives: line ends
are `\n`.  The four exceptions of the parser (missing section header, duplicate section, duplicate option, parsing error) are one here.
-/

namespace PiCF.Ini
open PiCF.Hashtable (Str)
open PiCF.Config

/-- Iterating over a file: the lines without their ends. -/
def lines : Str → List Str
  | [] => []
  | c :: s =>
    if c = '\n' then [] :: lines s
    else
      match lines s with
      | [] => [[c]]
      | l :: ls => (c :: l) :: ls

/-- `s.rstrip()` -/
def rstrip (s : Str) : Str := (s.reverse.dropWhile isSpace).reverse

/-- The variables of `_read`: the sections with their options and the lines of their values (the section DEFAULT is kept in the same
list), `cursect`/`sectname`, `optname` (empty for None), `indent_level`, and whether there was a line that is no option (`e`).
`elements_added` has the names of these sections and options, as there is one file only. -/
structure St where
  secs : List (Str × List (Str × List Str))
  cur : Option Str
  opt : Str
  indent : ℕ
  bad : Bool
  deriving DecidableEq

/-- `default_section` -/
def defaultName : Str := "DEFAULT".toList

/-- `cursect[optname].append(t)` -/
def St.append (s : St) (t : Str) : St :=
  if s.opt = [] then s
  else
    { s with secs := s.secs.map fun sec =>
        if some sec.1 = s.cur then (sec.1, sec.2.map fun o => if o.1 = s.opt then (o.1, o.2 ++ [t]) else o) else sec }

/-- `line.strip().startswith(prefix)` for one of the prefixes `#` and `;` -/
def isComment : Str → Bool
  | c :: _ => c = '#' || c = ';'
  | [] => false

/-- `SECTCRE.match(value)`, the regular expression `\[(.+)\]`: the name goes to the last bracket. -/
def sectionHeader : Str → Option Str
  | '[' :: r =>
    match r.reverse.dropWhile (· ≠ ']') with
    | _ :: h => if h = [] then none else some h.reverse
    | [] => none
  | _ => none

/-- A delimiter, `=` or `:`. -/
def isDelim (c : Char) : Bool := c = '=' || c = ':'

/-- `_optcre.match(value)`, the regular expression `(.*?)\s*(=|:)\s*(.*)$`: the option and its text, not stripped. -/
def optionLine (value : Str) : Option (Str × Str) :=
  match value.dropWhile (fun c => !isDelim c) with
  | _ :: r => some (rstrip (value.takeWhile fun c => !isDelim c), r)
  | [] => none

/-- The option is in the section already. -/
def hasOption (secs : List (Str × List (Str × List Str))) (sec opt : Str) : Bool :=
  match secs.lookup sec with
  | some os => os.any (·.1 = opt)
  | none => false

/-- `cursect[optname] = [optval]` for a new option -/
def addOption (secs : List (Str × List (Str × List Str))) (sec opt text : Str) : List (Str × List (Str × List Str)) :=
  secs.map fun s => if s.1 = sec then (s.1, s.2 ++ [(opt, [text])]) else s

/-- The body of the loop over the lines in `_read`. -/
def readLine (s : St) (line : Str) : Except PyErr St :=
  let value := strip line
  if isComment value then .ok s
  else if value = [] then .ok (s.append [])
  else
    let ind := (line.takeWhile isSpace).length
    if s.cur.isSome ∧ s.opt ≠ [] ∧ s.indent < ind then .ok (s.append value)
    else
      match sectionHeader value with
      | some name =>
        if s.secs.any (·.1 = name) then
          if name = defaultName then .ok { s with cur := some name, opt := [], indent := ind } else .error .iniError
        else .ok { s with secs := s.secs ++ [(name, [])], cur := some name, opt := [], indent := ind }
      | none =>
        match s.cur with
        | none => .error .iniError
        | some sec =>
          match optionLine value with
          | none => .ok { s with indent := ind, bad := true }
          | some (name, text) =>
            if hasOption s.secs sec (lower name) then .error .iniError
            else
              .ok { s with secs := addOption s.secs sec (lower name) (strip text), opt := lower name, indent := ind,
                           bad := s.bad || name = [] }

/-- The loop of `_read`. -/
def readLines : St → List Str → Except PyErr St
  | s, [] => .ok s
  | s, l :: ls =>
    match readLine s l with
    | .error e => .error e
    | .ok s => readLines s ls

/-- `_join_multiline_values` for one section -/
def joinValues (os : List (Str × List Str)) : List (Str × Str) := os.map fun o => (o.1, rstrip (PyStr.join ['\n'] o.2))

/-- `parser[section].items()` before the replacement of `%`: the options of the section, then those of DEFAULT that it does not have. -/
def withDefaults (defaults os : List (Str × Str)) : List (Str × Str) :=
  os ++ defaults.filter fun o => !os.any (·.1 = o.1)

/-- `read` and then, for each of `parser.sections()`, its options (configfile.py:34-42) -/
def fileSections (text : Str) : Except PyErr (List (List (Str × Str))) :=
  match readLines ⟨[], none, [], 0, false⟩ (lines text) with
  | .error e => .error e
  | .ok s =>
    if s.bad then .error .iniError
    else
      .ok ((s.secs.filter (·.1 ≠ defaultName)).map fun sec =>
        withDefaults (joinValues ((s.secs.lookup defaultName).getD [])) (joinValues sec.2))

/-- configfile.py:17-61 `ConfigParser.__init__` for the text of a file -/
def loadText (listdir : Str → Except PyErr (List Str)) (text : Str) : Except PyErr Config.Dict :=
  match fileSections text with
  | .error e => .error e
  | .ok secs => loadFile listdir secs

/-- `write` of a parser with one section (`_write_section`; main.py:183-184, distribute_run.py:50-51). -/
def iniText (name : Str) (items : List (Str × Str)) : Str :=
  '[' :: name ++ "]\n".toList ++
    (items.flatMap fun x => x.1 ++ " = ".toList ++ x.2.flatMap (fun c => if c = '\n' then "\n\t".toList else [c]) ++ "\n".toList) ++
    "\n".toList

/-- main.py:175-184 and the file written: the text of the saved configuration (section Setup). -/
def saveText (d : Config.Dict) : Except PyErr Str := (saveFile d).map (iniText "Setup".toList)

end PiCF.Ini
