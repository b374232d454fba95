import Verif.Spec.Config

/-!
# Specification of the layout of configuration files
-/

namespace PiCF.Spec
open PiCF.Hashtable

/-- A line of white space. -/
def Blanks (s : Str) : Prop := ∀ c ∈ s, Space c ∧ c ≠ '\n'

/-- A line, or nothing, without white space around it. -/
structure OneLine (s : Str) : Prop where
  first : ∀ c ∈ s.head?, ¬ Space c
  last : ∀ c ∈ s.getLast?, ¬ Space c
  single : '\n' ∉ s

/-- The name of an option as it can be written in a file. -/
def IniName (name : Str) : Prop :=
  name ≠ [] ∧ OneLine name ∧ ('=' ∉ name ∧ ':' ∉ name) ∧ ∀ c ∈ name.head?, c ≠ '[' ∧ c ≠ '#' ∧ c ≠ ';'

/-- A further line of a text. -/
def IniMore (t : Str) : Prop := t ≠ [] ∧ OneLine t ∧ ∀ c ∈ t.head?, c ≠ '#' ∧ c ≠ ';'

/-- What may be written in a section.  An option has a name, white space, `=` or `:`, white space, its text, white space, and may go on
with further lines (each with its indentation, text and white space). -/
inductive IniLine where
  | blank (ws : Str)
  | comment (ws : Str) (mark : Char) (text : Str)
  | option (name ws₁ : Str) (delim : Char) (ws₂ text ws₃ : Str) (more : List (Str × Str × Str))

/-- The lines of the file. -/
def IniLine.texts : IniLine → List Str
  | .blank ws => [ws]
  | .comment ws mark text => [ws ++ mark :: text]
  | .option name ws₁ delim ws₂ text ws₃ more => (name ++ ws₁ ++ delim :: ws₂ ++ text ++ ws₃) :: more.map fun m => m.1 ++ m.2.1 ++ m.2.2

/-- The layout is correct: options begin at the margin, further lines are indented and no comments, and white space is white space. -/
def IniLine.WF : IniLine → Prop
  | .blank ws => Blanks ws
  | .comment ws mark text => Blanks ws ∧ (mark = '#' ∨ mark = ';') ∧ '\n' ∉ text
  | .option name ws₁ delim ws₂ text ws₃ more =>
    IniName name ∧ Blanks ws₁ ∧ (delim = '=' ∨ delim = ':') ∧ Blanks ws₂ ∧ OneLine text ∧ Blanks ws₃ ∧
    ∀ m ∈ more, m.1 ≠ [] ∧ Blanks m.1 ∧ IniMore m.2.1 ∧ Blanks m.2.2

/-- Lines put together, with line breaks between them. -/
def glue : Str → List Str → Str
  | s, [] => s
  | s, t :: ts => s ++ '\n' :: glue t ts

/-- A text that can be written in a file: its lines are trimmed, and only the first may be empty or look like a comment. -/
def Writable (v : Str) : Prop := ∃ t ts, v = glue t ts ∧ OneLine t ∧ ∀ u ∈ ts, IniMore u

/-- The option given by a line: its name and its text. -/
def IniLine.item : IniLine → Option (Str × Str)
  | .option name _ _ _ text _ more => some (name, glue text (more.map fun m => m.2.1))
  | _ => none

/-- A section: its name and what follows the header. -/
structure IniSection where
  name : Str
  ws : Str
  body : List IniLine

/-- A file: lines before the first section, and the sections. -/
structure IniFile where
  top : List IniLine
  sections : List IniSection

/-- The lines of a section. -/
def IniSection.texts (s : IniSection) : List Str := ('[' :: s.name ++ ']' :: s.ws) :: s.body.flatMap IniLine.texts

/-- The text of the file. -/
def IniFile.text (f : IniFile) : Str :=
  ((f.top.flatMap IniLine.texts) ++ f.sections.flatMap IniSection.texts).flatMap (· ++ ['\n'])

/-- The options of a section: names in small letters, texts as written. -/
def IniSection.items (s : IniSection) : List (Str × Str) :=
  (s.body.filterMap IniLine.item).map fun i => (i.1.map Char.toLower, i.2)

/-- No section has an option twice. -/
def IniFile.Distinct (f : IniFile) : Prop := ∀ s ∈ f.sections, (s.items.map Prod.fst).Nodup

/-- The options that all sections have. -/
def IniFile.defaults (f : IniFile) : List (Str × Str) :=
  (f.sections.filter fun s => s.name = "DEFAULT".toList).flatMap IniSection.items

/-- The options of a file, section by section; those of DEFAULT come after those of the section, unless it has them itself. -/
def IniFile.items (f : IniFile) : List (List (Str × Str)) :=
  (f.sections.filter fun s => s.name ≠ "DEFAULT".toList).map fun s =>
    s.items ++ f.defaults.filter fun i => i.1 ∉ s.items.map Prod.fst

/-- A file with a correct layout: no options before the first section, different section names. -/
structure IniFile.WF (f : IniFile) : Prop where
  top : ∀ l ∈ f.top, l.WF ∧ l.item = none
  header : ∀ s ∈ f.sections, s.name ≠ [] ∧ '\n' ∉ s.name ∧ ']' ∉ s.name ∧ Blanks s.ws
  body : ∀ s ∈ f.sections, ∀ l ∈ s.body, l.WF
  sections : (f.sections.map IniSection.name).Nodup

end PiCF.Spec
