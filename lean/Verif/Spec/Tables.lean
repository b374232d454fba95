import Verif.Model.Hashtable

/-!
# Specification of the names of stored tables
-/

namespace PiCF.Spec
open PiCF.Hashtable

/-- The text ends with a version number `_v<digits>`. -/
def EndsInVersion (s : Str) : Prop :=
  ∃ t ds, s = t ++ "_v".toList ++ ds ∧ ds ≠ [] ∧ ∀ c ∈ ds, c ∈ "0123456789".toList

/-- What can follow the name of a table in the name of its file: nothing, or `_v` and digits or dots. -/
def VersionText (v : Str) : Prop := v = [] ∨ ∃ ds, v = "_v".toList ++ ds ∧ ds ≠ [] ∧ ∀ c ∈ ds, c ∈ "0123456789.".toList

/-- `f` is the name of a file that belongs to the table `s`: `<s>.pkl` or `<s>_v<version>.pkl`, possibly followed by something. -/
def TableName (s f : Str) : Prop := ∃ v r, f = s ++ v ++ ".pkl".toList ++ r ∧ VersionText v

/-- The path `q` leads to a file of the table `s` in some directory. -/
def TablePath (s q : Str) : Prop := ∃ d f, q = d ++ '/' :: f ∧ '/' ∉ f ∧ TableName s f

/-- A table has a plain name: no dots, and it does not end with a version. -/
structure PlainTable (s : Str) : Prop where
  noDot : '.' ∉ s
  noVersion : ¬ EndsInVersion s

end PiCF.Spec
