import Verif.Model.Hashtable

/-!
# Specification vocabulary for the hashtable properties (C24-C33)
-/

namespace PiCF.Spec
open PiCF.Hashtable

/-- The decimal text of a key, if it has one. -/
def text (eng : Eng) : Key → Option Str
  | .str s => some s
  | .num x => (eng x).toOption
  | .other _ => none

/-- A plain map keyed by the first `n` characters, given by the log of all writes (oldest first): reading `s`
gives the last value written under a text with the same first `n` characters. -/
def lastWrite {V : Type} (n : ℕ) (log : List (Str × V)) (s : Str) : Option V :=
  log.foldl (fun acc w => if w.1.take n = s.take n then some w.2 else acc) none

/-- The entries a table holds under a raw key: those of a list, or the single stored object. -/
def entries {α : Type} (t : Table (Val α)) (k : Key) : List α :=
  match t.data.get? k with
  | none => []
  | some (.list xs) => xs
  | some (.item x) => [x]

/-- A raw key is present. -/
def present {V : Type} (t : Table V) (k : Key) : Prop := k ∈ t.data.keys

/-- A python dict has no key twice. -/
def WF {V : Type} (t : Table V) : Prop := t.data.keys.Nodup

/-- What the fix-up script should leave of the entries: all except those with a b polynomial reported to have an
integer root, in the same order; keys without entries are gone; `'parameters'` is untouched. -/
def cleaned (bad : List ℤ → Bool) (d : List (Key × List Entry)) : List (Key × List Entry) :=
  d.filterMap fun (k, es) =>
    if k = paramsKey then some (k, es)
    else
      match es.filter (fun e => e.1.2.all fun b => !bad b) with
      | [] => none
      | es' => some (k, es')

end PiCF.Spec
