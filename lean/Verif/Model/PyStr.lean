import Mathlib.Data.Nat.Digits.Defs
import Verif.Py
import Verif.Model.Hashtable

/-!
# Python strings

The parts of python's `str` used by the modelled code.
-/

namespace PiCF.PyStr
open PiCF.Hashtable

/-- The character of a decimal digit. -/
def digitChar (d : ℕ) : Char := Char.ofNat (48 + d)

/-- `str(n)` of a non-negative int. -/
def strNat (n : ℕ) : Str := if n = 0 then ['0'] else (Nat.digits 10 n).reverse.map digitChar

/-- `str(n)` of an int. -/
def strInt (n : ℤ) : Str := if n < 0 then '-' :: strNat n.natAbs else strNat n.natAbs

/-- `sep.join(parts)` -/
def join (sep : Str) : List Str → Str
  | [] => []
  | [p] => p
  | p :: ps => p ++ sep ++ join sep ps

/-- A piece of a format string: text or the number of an argument. -/
inductive Piece where
  | text (s : Str)
  | arg (i : ℕ)
  deriving DecidableEq, Repr

/-- The number written by a list of decimal digits, if it is not empty. -/
def fieldNumber (s : Str) : Option ℕ :=
  if s ≠ [] ∧ s.all Char.isDigit then some (s.foldl (fun n c => 10 * n + (c.toNat - 48)) 0) else none

/-- The state of the parser of format strings: the pieces so far, and either the text being read, or the name of the
replacement field being read, or a single closing brace has been read in text. -/
inductive FmtState where
  | text (acc : Str)
  | openBrace (acc : Str)
  | field (name : Str)
  | closeBrace (acc : Str)

/-- Parsing a format string of `str.format`: `{{` and `}}` are braces, `{n}` is argument `n`; a `{` within a field name or
a single `}` raises ValueError.  Field names that are not numbers are not used by the code (they raise KeyError here); nor
are conversions and format specifications. -/
def parseFmt : List Piece → FmtState → Str → Except PyErr (List Piece)
  | ps, .text acc, [] => .ok (ps ++ [.text acc])
  | _, .openBrace _, [] => .error .valueError
  | _, .field _, [] => .error .valueError
  | _, .closeBrace _, [] => .error .valueError
  | ps, .text acc, c :: s =>
    if c = '{' then parseFmt ps (.openBrace acc) s
    else if c = '}' then parseFmt ps (.closeBrace acc) s
    else parseFmt ps (.text (acc ++ [c])) s
  | ps, .openBrace acc, c :: s =>
    if c = '{' then parseFmt ps (.text (acc ++ ['{'])) s
    else if c = '}' then .error .keyError
    else parseFmt (ps ++ [.text acc]) (.field [c]) s
  | ps, .closeBrace acc, c :: s => if c = '}' then parseFmt ps (.text (acc ++ ['}'])) s else .error .valueError
  | ps, .field name, c :: s =>
    if c = '{' then .error .valueError
    else if c = '}' then
      match fieldNumber name with
      | some n => parseFmt (ps ++ [.arg n]) (.text []) s
      | none => .error .keyError
    else parseFmt ps (.field (name ++ [c])) s

/-- Substitution of the arguments; a missing argument raises IndexError. -/
def fillFmt (args : List Str) : List Piece → Except PyErr Str
  | [] => .ok []
  | .text s :: ps =>
    match fillFmt args ps with
    | .error e => .error e
    | .ok r => .ok (s ++ r)
  | .arg i :: ps =>
    match args[i]? with
    | none => .error .indexError
    | some a =>
      match fillFmt args ps with
      | .error e => .error e
      | .ok r => .ok (a ++ r)

/-- `template.format(*args)` for string arguments (numbers are passed as their `str`).  Errors of the template are reported
before missing arguments; the code has no template with both. -/
def format (template : Str) (args : List Str) : Except PyErr Str :=
  match parseFmt [] (.text []) template with
  | .error e => .error e
  | .ok ps => fillFmt args ps

end PiCF.PyStr
