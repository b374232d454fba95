import Verif.Model.Process

/-!
# Model of the examples of gen_errors_for_nips.py

The plots (lines 35-92, 131-141) are in `Model/Plot`, the regression is in `Model/Fit`; `build_contfrac_errors` (lines 118-128) is `Process.buildErrors`.
The targets are real numbers there (100 digits of them); they are an argument of `buildErrors`.
-/

namespace PiCF.Process
open PiCF.ContFrac

/-- gen_errors_for_nips.py:13-15 -/
def cf1 : Except PyErr CF := init [[2, 2]] [[0, 4]] true none true

/-- gen_errors_for_nips.py:19-21 -/
def cf2 : Except PyErr CF := init [[1, 3]] [[0, 3, -2]] true none true

/-- gen_errors_for_nips.py:25-27 -/
def cf3 : Except PyErr CF := init [[1, 2]] [[0, 0, 1]] true none true

/-- gen_errors_for_nips.py:31-33 -/
def cf4 : Except PyErr CF := init [[6]] [[1, -4, 4]] true none true

end PiCF.Process
