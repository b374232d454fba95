import Verif.Model.Config
import Verif.Model.Distribute
import Verif.Model.Output

/-!
# Model of `distribute_run.main` (distribute_run.py:12-51)
-/

namespace PiCF.DistributeMain
open PiCF.Hashtable PiCF.EnumPoly PiCF.Json PiCF.Config PiCF.Distribute PiCF.Output

/-- The value `[lo, hi]` of a range. -/
def rngVal (r : Rng) : Val := .arr [.int r.1, .int r.2]

/-- The value of an option with ranges, a list of lists of `[lo, hi]`. -/
def rangesVal (rs : Ranges) : Val := .arr (rs.map fun r => .arr (r.map rngVal))

/-- A range read from its value. -/
def rngOf : Val → Option Rng
  | .arr [.int lo, .int hi] => some (lo, hi)
  | _ => none

/-- The ranges of one polynomial read from their value. -/
def polyRngs : Val → Option (List Rng)
  | .arr l => l.mapM rngOf
  | _ => none

/-- The ranges read from the value of an option. -/
def rangesOf : Val → Option Ranges
  | .arr l => l.mapM polyRngs
  | _ => none

/-- distribute_run.py:14-16, the exponent of the number of parts.  `math.log(split_num, 2)` is taken to be exact; ValueError for a
number that is not positive or not a power of 2. -/
def exponent (splitNum : ℤ) : Except PyErr ℕ :=
  if splitNum ≤ 0 then .error .valueError
  else if (2 : ℤ) ^ splitNum.toNat.log2 = splitNum then .ok splitNum.toNat.log2
  else .error .valueError

/-- distribute_run.py:36-45, the text written for an option of part `i` with the ranges `part` -/
def partText (d : Config.Dict) (part : Ranges × Ranges) (i : ℕ) (key : Str) : Except PyErr Str :=
  if key = "a_coeffs_range".toList then setText key (Value.data (rangesVal part.1)).str
  else if key = "b_coeffs_range".toList then setText key (Value.data (rangesVal part.2)).str
  else
    match d key with
    | none => .error .keyError
    | some v => if key = "hashtable_file".toList then setText key (partHashtable v.str i) else setText key v.str

/-- distribute_run.py:35-45, the options written for part `i`, in the order of `CONFIG_PARAMS_TYPES` -/
def partItems (d : Config.Dict) (part : Ranges × Ranges) (i : ℕ) : List (Str × Kind) → Except PyErr (List (Str × Str))
  | [] => .ok []
  | (key, _) :: ps =>
    match partText d part i key with
    | .error e => .error e
    | .ok t => (partItems d part i ps).map fun r => (key, t) :: r

/-- What a configuration file holds: the options and texts of its section, without `%`. -/
abbrev File := List (Str × Str)

/-- distribute_run.py:32-51, the loop, from part `i` on -/
def writeParts (d : Config.Dict) (configfile : Str) (k : ℕ) : ℕ → List (Ranges × Ranges) → PyM (FS File) Unit
  | _, [] => pure ()
  | i, part :: parts => do
    let items ← lift (partItems d part i params)
    write (partConfig configfile k i) items
    writeParts d configfile k (i + 1) parts

/-- distribute_run.py:28-29 -/
def ensureDir (p : Str) : PyM (FS File) Unit := fun fs => if fs.dirs p then (fs, .ok ()) else mkdir p fs

/-- distribute_run.py:31.  Ranges that are not lists of lists of two integers are taken to raise (they do as soon as there is
something to split, with an exception that depends on the value; here TypeError). -/
def partsOf (d : Config.Dict) (k : ℕ) : Except PyErr (List (Ranges × Ranges)) :=
  match rangesOf (dataOf (d "a_coeffs_range".toList)), rangesOf (dataOf (d "b_coeffs_range".toList)) with
  | some a, some b => splitParams k (a, b)
  | _, _ => .error .typeError

/-- distribute_run.py:12-51 `main`, for a configuration file `configfile` with the options `items`; `listdir` is `os.listdir`.  The messages
(lines 13, 25, 32) are not modelled. -/
def main (listdir : Str → Except PyErr (List Str)) (splitNum : ℤ) (configfile : Str) (items : File) : PyM (FS File) Unit := do
  let k ← lift (exponent splitNum)
  let d ← lift (load listdir items)
  ensureDir (distroDir configfile k)
  let parts ← lift (partsOf d k)
  writeParts d configfile k 0 parts

end PiCF.DistributeMain
