import Verif.Model.PyStr

/-!
# `json.loads` and the python text of lists

The part of python's `json.decoder` (pure python version) used by `configfile.py` and `process_and_compare.py`: `null`,
booleans, integers, strings without escapes, arrays.  A text with floats, objects or escapes is not read by this model (it
raises JSONDecodeError here); none of the modelled options is documented to hold such a value.
-/

namespace PiCF.Json
open PiCF.Hashtable

/-- A value read by `json.loads`: None, a bool, an int, a str or a list. -/
inductive Val where
  | null
  | bool (b : Bool)
  | int (n : ℤ)
  | str (s : Str)
  | arr (l : List Val)

/-- The white space of JSON (`WHITESPACE` of json.decoder). -/
def isWs (c : Char) : Bool := c = ' ' || c = '\t' || c = '\n' || c = '\r'

/-- `_w(s, 0).end()`: the text after leading white space. -/
def skipWs (s : Str) : Str := s.dropWhile isWs

/-- A decimal digit. -/
def isDigit (c : Char) : Bool := '0' ≤ c && c ≤ '9'

/-- The number written by decimal digits. -/
def digitsVal (s : Str) : ℕ := s.foldl (fun n c => 10 * n + (c.toNat - 48)) 0

/-- The integer part `0|[1-9]\d*` of `NUMBER_RE` (json.scanner) at the beginning of `s`, with the rest of the text. -/
def scanNat : Str → Option (ℕ × Str)
  | [] => none
  | c :: s =>
    if c = '0' then some (0, s)
    else if isDigit c then some (digitsVal (c :: s.takeWhile isDigit), s.dropWhile isDigit)
    else none

/-- A string after its opening quote (`py_scanstring` without escapes; control characters are not allowed). -/
def scanStr (s : Str) : Except PyErr (Val × Str) :=
  match s.dropWhile (· ≠ '"') with
  | [] => .error .jsonDecodeError
  | _ :: r =>
    if (s.takeWhile (· ≠ '"')).any (fun c => c = '\\' || c.toNat < 32) then .error .jsonDecodeError
    else .ok (.str (s.takeWhile (· ≠ '"')), r)

/-- A number, with an optional minus sign. -/
def scanInt (s : Str) : Except PyErr (Val × Str) :=
  match s with
  | '-' :: r =>
    match scanNat r with
    | some (n, r) => .ok (.int (-(n : ℤ)), r)
    | none => .error .jsonDecodeError
  | s =>
    match scanNat s with
    | some (n, r) => .ok (.int n, r)
    | none => .error .jsonDecodeError

mutual
/-- `_scan_once` of json.scanner at the beginning of the text: a value and the rest.  The first argument bounds the
recursion; `loads` gives a bound that is never reached. -/
def scanOnce : ℕ → Str → Except PyErr (Val × Str)
  | 0, _ => .error .runtimeError
  | fuel + 1, s =>
    match s with
    | '"' :: r => scanStr r
    | '[' :: r =>
      match skipWs r with
      | ']' :: r => .ok (.arr [], r)
      | r =>
        match scanItems fuel r with
        | .error e => .error e
        | .ok (l, r) => .ok (.arr l, r)
    | 'n' :: 'u' :: 'l' :: 'l' :: r => .ok (.null, r)
    | 't' :: 'r' :: 'u' :: 'e' :: r => .ok (.bool true, r)
    | 'f' :: 'a' :: 'l' :: 's' :: 'e' :: r => .ok (.bool false, r)
    | s => scanInt s

/-- The loop of `JSONArray` of json.decoder: values separated by commas, up to the closing bracket. -/
def scanItems : ℕ → Str → Except PyErr (List Val × Str)
  | 0, _ => .error .runtimeError
  | fuel + 1, s =>
    match scanOnce fuel s with
    | .error e => .error e
    | .ok (v, r) =>
      match skipWs r with
      | ']' :: r => .ok ([v], r)
      | ',' :: r =>
        match scanItems fuel (skipWs r) with
        | .error e => .error e
        | .ok (l, r) => .ok (v :: l, r)
      | _ => .error .jsonDecodeError
end

/-- `json.loads(s)` -/
def loads (s : Str) : Except PyErr Val :=
  match scanOnce (2 * s.length + 2) (skipWs s) with
  | .error e => .error e
  | .ok (v, r) => if skipWs r = [] then .ok v else .error .jsonDecodeError

mutual
/-- `repr(v)`, which is `str(v)` except for a str itself.  (The `repr` of a str with quotes, backslashes or unprintable
characters is not modelled.) -/
def Val.repr : Val → Str
  | .null => "None".toList
  | .bool true => "True".toList
  | .bool false => "False".toList
  | .int n => PyStr.strInt n
  | .str s => '\'' :: s ++ ['\'']
  | .arr [] => "[]".toList
  | .arr (v :: l) => '[' :: v.repr ++ reprTail l

/-- The text after the first item of a list. -/
def reprTail : List Val → Str
  | [] => [']']
  | v :: l => ',' :: ' ' :: v.repr ++ reprTail l
end

/-- Nested lists and tuples of ints, as python objects. -/
inductive Nest where
  | int (n : ℤ)
  | list (l : List Nest)
  | tuple (l : List Nest)

mutual
/-- `str` of nested lists and tuples of ints: a tuple of one element has a trailing comma. -/
def Nest.str : Nest → Str
  | .int n => PyStr.strInt n
  | .list [] => "[]".toList
  | .list (v :: l) => '[' :: v.str ++ strTail ']' l
  | .tuple [] => "()".toList
  | .tuple [v] => '(' :: v.str ++ ",)".toList
  | .tuple (v :: w :: l) => '(' :: v.str ++ ',' :: ' ' :: w.str ++ strTail ')' l

/-- The text after the first item(s); `c` closes. -/
def strTail (c : Char) : List Nest → Str
  | [] => [c]
  | v :: l => ',' :: ' ' :: v.str ++ strTail c l
end

example : (Val.arr [.int 1, .arr [.int (-20), .bool true], .arr []]).repr = "[1, [-20, True], []]".toList := by
  decide +kernel
example : (Nest.tuple [.tuple [.int 1, .int 2], .tuple [.int (-3)], .list [.int 4]]).str = "((1, 2), (-3,), [4])".toList := by
  decide +kernel
example : (loads " [1, [-20,true ], [\"ab\"] ,[ ]] ".toList).toOption.map Val.repr = some "[1, [-20, True], ['ab'], []]".toList := by
  decide +kernel
example : (loads "[01]".toList).toOption.isNone ∧ (loads "[1,]".toList).toOption.isNone ∧
    (loads "[True]".toList).toOption.isNone ∧ (loads "1 2".toList).toOption.isNone := by decide +kernel

end PiCF.Json
