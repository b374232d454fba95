import Verif.Model.EnumPoly
import Verif.Model.Path

/-!
# Model of `distribute_run.py`
-/

namespace PiCF.Distribute
open PiCF.Hashtable PiCF.EnumPoly PiCF.PyStr

/-- distribute_run.py:60-62 (and 67-69): the index of the first range of width larger than 1, if there is one. -/
def splitIndex (rs : List Rng) : Option ℕ := rs.findIdx? fun r => decide (r.2 - r.1 > 1)

/-- distribute_run.py:65, 72: `int((hi + lo)/2)`.  The float division is taken to be exact (bounds below `2^52`); `int`
truncates towards zero. -/
def newBound (r : Rng) : ℤ := (r.2 + r.1).tdiv 2

/-- distribute_run.py:76-77: the upper bound of range `i` of the first copy and the lower bound of range `i` of the second
copy are replaced. -/
def halves (rs : List Rng) (i : ℕ) : List Rng × List Rng :=
  (rs.modify i fun r => (r.1, newBound r), rs.modify i fun r => (newBound r, r.2))

/-- `+` of two lists whose computation may raise. -/
def append {α : Type} (x y : Except PyErr (List α)) : Except PyErr (List α) :=
  match x with
  | .error e => .error e
  | .ok l =>
    match y with
    | .error e => .error e
    | .ok l' => .ok (l ++ l')

/-- distribute_run.py:53-78 `split_params`.  The ranges are lists `[lo, hi]` of integers; `split_num` is not negative (a
negative one recurses until ValueError). -/
def splitParams : ℕ → Ranges × Ranges → Except PyErr (List (Ranges × Ranges))
  | 0, ab => .ok [ab]
  | n + 1, (a :: as, b :: bs) =>
    match splitIndex a with
    | some i => append (splitParams n ((halves a i).1 :: as, b :: bs)) (splitParams n ((halves a i).2 :: as, b :: bs))
    | none =>
      match splitIndex b with
      | some i => append (splitParams n (a :: as, (halves b i).1 :: bs)) (splitParams n (a :: as, (halves b i).2 :: bs))
      | none => .error .valueError
  | _ + 1, _ => .error .indexError

/-- `'%02d' % i` -/
def pad2 (i : ℕ) : Str := if (strNat i).length < 2 then '0' :: strNat i else strNat i

/-- distribute_run.py:42, the hashtable file of part `i`. -/
def partHashtable (file : Str) (i : ℕ) : Str :=
  PyStr.join ("_part".toList ++ pad2 i) [(Path.splitext file).1, (Path.splitext file).2]

/-- distribute_run.py:27, the directory of the parts, for `2**k` parts. -/
def distroDir (configfile : Str) (k : ℕ) : Str := (Path.splitext configfile).1 ++ "_dist_".toList ++ strNat (2 ^ k)

/-- distribute_run.py:46-49, the configuration file of part `i`. -/
def partConfig (configfile : Str) (k i : ℕ) : Str :=
  Path.join (distroDir configfile k) ((Path.splitext configfile).1 ++ ('_' :: strNat i) ++ (Path.splitext configfile).2)

end PiCF.Distribute
