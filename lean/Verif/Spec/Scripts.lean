import Verif.Model.Hashtable

/-!
# Specification of command lines
-/

namespace PiCF.Spec
open PiCF.Hashtable

/-- The arguments of a script whose usage message shows `required` arguments and optional ones with the given defaults: the values of all of
them, or nothing if there are too few or too many. -/
def commandLine (required : ℕ) (defaults : List Str) (args : List Str) : Option (List Str) :=
  if required ≤ args.length ∧ args.length ≤ required + defaults.length then some (args ++ defaults.drop (args.length - required)) else none

end PiCF.Spec
