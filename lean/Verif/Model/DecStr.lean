import Verif.Model.Mitm
import Verif.Model.PyStr

/-!
# The text of a finite `decimal.Decimal`

The comparison of digits (enum_params.py:501-508) was written for `decimal.Decimal`.  This is the text
`Decimal.to_eng_string()` of the Python library (Lib/_pydecimal.py, `__str__` with `eng=True`), for finite numbers and the default
context (`capitals=1`).
-/

namespace PiCF.DecStr
open PiCF.Hashtable PiCF.PyStr

/-- A finite Decimal: sign, coefficient, exponent.  Its value is `± coef * 10^exp`; different triples can have equal values. -/
structure Dec where
  neg : Bool
  coef : ℕ
  exp : ℤ
  deriving DecidableEq, Repr

/-- The value. -/
def Dec.value (d : Dec) : ℚ := (if d.neg then -1 else 1) * d.coef * (10 : ℚ) ^ d.exp

/-- `'%+d' % n` -/
def plusInt (n : ℤ) : Str := if 0 ≤ n then '+' :: strInt n else strInt n

/-- `leftdigits`, the number of digits of the coefficient before the decimal point -/
def Dec.left (d : Dec) : ℤ := d.exp + (strNat d.coef).length

/-- `dotplace` -/
def Dec.dot (d : Dec) : ℤ :=
  if d.exp ≤ 0 ∧ -6 < d.left then d.left
  else if d.coef = 0 then (d.left + 1) % 3 - 1
  else (d.left - 1) % 3 + 1

/-- The digits with the decimal point at `dot`. -/
def placed (digits : Str) (dot : ℤ) : Str :=
  if dot ≤ 0 then '0' :: '.' :: (List.replicate (-dot).toNat '0' ++ digits)
  else if (digits.length : ℤ) ≤ dot then digits ++ List.replicate (dot - digits.length).toNat '0'
  else digits.take dot.toNat ++ '.' :: digits.drop dot.toNat

/-- `to_eng_string()` -/
def Dec.eng (d : Dec) : Str :=
  (if d.neg then ['-'] else []) ++ placed (strNat d.coef) d.dot ++ (if d.left = d.dot then [] else 'E' :: plusInt (d.left - d.dot))

example : (Dec.mk false 12345 (-3)).eng = "12.345".toList ∧ (Dec.mk false 1 (-9)).eng = "1E-9".toList ∧
    (Dec.mk false 1 (-10)).eng = "100E-12".toList ∧ (Dec.mk true 5 (-3)).eng = "-0.005".toList ∧
    (Dec.mk false 0 (-9)).eng = "0.000000000".toList.take 1 ++ "E-9".toList ∧ (Dec.mk false 123 2).eng = "12.3E+3".toList := by
  decide +kernel

end PiCF.DecStr
