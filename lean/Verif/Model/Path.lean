import Verif.Model.PyStr

/-!
# `os.path` on a POSIX system

The functions of `posixpath.py` (python 3) used by the modelled code, on strings as lists of characters.
-/

namespace PiCF.Path
open PiCF.Hashtable

/-- `p[:p.rfind('/')+1]` and `p[p.rfind('/')+1:]` -/
def rsplitSlash (p : Str) : Str × Str :=
  ((p.reverse.dropWhile (· ≠ '/')).reverse, (p.reverse.takeWhile (· ≠ '/')).reverse)

/-- `os.path.split(p)`: the tail has no slash; trailing slashes of the head are removed unless it consists of slashes. -/
def split (p : Str) : Str × Str :=
  let head := (rsplitSlash p).1
  let tail := (rsplitSlash p).2
  if head.all (· = '/') then (head, tail) else ((head.reverse.dropWhile (· = '/')).reverse, tail)

/-- `os.path.splitext(p)`: the extension starts at the last dot of the last component, unless only dots come before it. -/
def splitext (p : Str) : Str × Str :=
  let dir := (rsplitSlash p).1
  let name := (rsplitSlash p).2
  let ext := (name.reverse.takeWhile (· ≠ '.')).reverse
  let root := (name.reverse.dropWhile (· ≠ '.')).reverse.dropLast
  if '.' ∈ name ∧ root.any (· ≠ '.') then (dir ++ root, '.' :: ext) else (p, [])

/-- `os.path.join(a, b)` -/
def join (a b : Str) : Str :=
  match b with
  | '/' :: _ => b
  | _ => if a = [] ∨ a.getLast? = some '/' then a ++ b else a ++ '/' :: b

theorem rsplit_append (p : Str) : (rsplitSlash p).1 ++ (rsplitSlash p).2 = p := by
  rw [rsplitSlash, ← List.reverse_append, List.takeWhile_append_dropWhile, List.reverse_reverse]

example : split "a/b/c.pkl".toList = ("a/b".toList, "c.pkl".toList) ∧ split "c".toList = ([], ['c']) ∧
    split "/c".toList = ("/".toList, ['c']) ∧ split "a//".toList = ("a".toList, []) ∧ split "//c".toList = ("//".toList, ['c']) := by
  decide
example : splitext "a.b/c.d.pkl".toList = ("a.b/c.d".toList, ".pkl".toList) ∧ splitext ".rc".toList = (".rc".toList, []) ∧
    splitext "a.b/c".toList = ("a.b/c".toList, []) ∧ splitext "..a.".toList = ("..a".toList, ".".toList) := by decide
example : join "a".toList "b".toList = "a/b".toList ∧ join "a/".toList "b".toList = "a/b".toList ∧
    join [] "b".toList = "b".toList ∧ join "a".toList "/b".toList = "/b".toList := by decide

end PiCF.Path
