import Mathlib.Data.Rat.Defs
import Verif.Py
import Verif.Model.Dict

/-!
# Model of `decimal_hashtable.py`, `join_hashtables.py`, `fix_hashtable_filter_init_b_root.py`
-/

namespace PiCF.Hashtable

/-- A python string. -/
abbrev Str := List Char

/-- Python objects used as keys of a dict: strings, numbers (`mpf`, compared by value) and other hashable
objects. -/
inductive Key where
  | str (s : Str)
  | num (x : ℚ)
  | other (n : ℕ)
  deriving DecidableEq, Repr

/-- The method `to_eng_string` of numbers.  It is a parameter of the model: `decimal.Decimal` has it, but
`mpmath.mpf`, which the code imports under the name `dec` (decimal_hashtable.py:7), has not. -/
abbrev Eng := ℚ → Except PyErr Str

/-- `mpf.to_eng_string()`: the attribute does not exist. -/
def mpfEng : Eng := fun _ => .error .attributeError

/-- `s[:n]` of a python sequence; a negative `n` counts from the end. -/
def sliceTo {α : Type} (s : List α) (n : ℤ) : List α :=
  if 0 ≤ n then s.take n.toNat else s.take (s.length - (-n).toNat)

/-- A `DecimalHashTable`: the attributes and the underlying `dict`. -/
structure Table (V : Type) where
  accuracy : ℤ
  history : List ℤ
  data : Dict Key V
  deriving DecidableEq

namespace Table
variable {V : Type}

/-- decimal_hashtable.py:13-17 `__init__` (`dict.__init__` is not called; the dict is empty). -/
def init (accuracy : ℤ) : Table V := ⟨accuracy + 1, [], []⟩

/-- decimal_hashtable.py:19-22 `update_accuracy` -/
def updateAccuracy (t : Table V) (accuracy : ℤ) : Table V :=
  { t with history := t.history ++ [t.accuracy], accuracy := accuracy + 1 }

/-- decimal_hashtable.py:24-33 `_manipulate_key` -/
def manipulateKey (eng : Eng) (t : Table V) (k : Key) : Except PyErr (List Key × Key) :=
  let slices (s : Str) := (t.history.map fun i => Key.str (sliceTo s (i + 1)), Key.str (sliceTo s (t.accuracy + 1)))
  match k with
  | .other _ => .error .typeError
  | .str s => .ok (slices s)
  | .num x =>
    match eng x with
    | .error e => .error e
    | .ok s => .ok (slices s)

/-- The loop of decimal_hashtable.py:37-39: every old key that is present is deleted. -/
def dropOld (d : Dict Key V) : List Key → Dict Key V
  | [] => d
  | k :: ks => dropOld (if d.contains k then d.erase k else d) ks

/-- decimal_hashtable.py:35-40 `__setitem__` -/
def setItem (eng : Eng) (k : Key) (v : V) : PyM (Table V) Unit := fun t =>
  match t.manipulateKey eng k with
  | .error e => (t, .error e)
  | .ok (old, cur) => ({ t with data := (dropOld t.data old).set cur v }, .ok ())

/-- The loop shared by lines 44-46, 51-53, 58-60: the first old key that is present. -/
def firstOld (d : Dict Key V) (old : List Key) : Option Key := old.find? d.contains

/-- `super().__getitem__(k)` -/
def rawGet (d : Dict Key V) (k : Key) : Except PyErr V :=
  match d.get? k with
  | some v => .ok v
  | none => .error .keyError

/-- decimal_hashtable.py:42-47 `__getitem__` -/
def getItem (eng : Eng) (t : Table V) (k : Key) : Except PyErr V :=
  match t.manipulateKey eng k with
  | .error e => .error e
  | .ok (old, cur) =>
    match firstOld t.data old with
    | some k' => rawGet t.data k'
    | none => rawGet t.data cur

/-- decimal_hashtable.py:49-54 `__delitem__`.  Line 54 reads the current entry instead of deleting it. -/
def delItem (eng : Eng) (k : Key) : PyM (Table V) Unit := fun t =>
  match t.manipulateKey eng k with
  | .error e => (t, .error e)
  | .ok (old, cur) =>
    match firstOld t.data old with
    | some k' => ({ t with data := t.data.erase k' }, .ok ())
    | none =>
      match rawGet t.data cur with
      | .ok _ => (t, .ok ())
      | .error e => (t, .error e)

/-- decimal_hashtable.py:56-61 `__contains__` -/
def containsItem (eng : Eng) (t : Table V) (k : Key) : Except PyErr Bool :=
  match t.manipulateKey eng k with
  | .error e => .error e
  | .ok (old, cur) =>
    match firstOld t.data old with
    | some _ => .ok true
    | none => .ok (t.data.contains cur)

/-! ### Methods inherited from `dict` unchanged: they use the raw key -/

/-- `dict.get(k, default)` -/
def get (t : Table V) (k : Key) (default : V) : V := (t.data.get? k).getD default

/-- `dict.setdefault(k, default)`: the value, and the table with the key present. -/
def setDefault (k : Key) (default : V) : PyM (Table V) V := fun t =>
  match t.data.get? k with
  | some v => (t, .ok v)
  | none => ({ t with data := t.data.set k default }, .ok default)

/-- `dict.pop(k)` -/
def pop (k : Key) : PyM (Table V) V := fun t =>
  match t.data.get? k with
  | some v => ({ t with data := t.data.erase k }, .ok v)
  | none => (t, .error .keyError)

/-- `dict.update(data)` for a plain dict: raw insertion of every entry. -/
def update (t : Table V) (data : Dict Key V) : Table V :=
  { t with data := data.foldl (fun d kv => d.set kv.1 kv.2) t.data }

/-! ### Serialisation -/

/-- What pickle stores: decimal_hashtable.py:63-65 and 72-74, `(DecimalHashTable, (self.accuracy,), state)`
with `state = (accuracy, accuracy_history, dict(self))`. -/
structure Pickled (V : Type) where
  arg : ℤ
  accuracy : ℤ
  history : List ℤ
  data : Dict Key V

/-- decimal_hashtable.py:63-65, 72-74 -/
def reduce (t : Table V) : Pickled V := ⟨t.accuracy, t.accuracy, t.history, t.data⟩

/-- Unpickling: call the class with the stored argument, then `__setstate__` (lines 67-70). -/
def unpickle (p : Pickled V) : Table V :=
  let t : Table V := init p.arg
  let t := { t with accuracy := p.accuracy, history := p.history }
  t.update p.data

end Table

/-! ## `append_dict` -/

/-- A stored value: a list, or some other object (decimal_hashtable.py:87-90). -/
inductive Val (α : Type) where
  | list (xs : List α)
  | item (x : α)
  deriving DecidableEq, Repr

/-- decimal_hashtable.py:87-90: non-lists are wrapped. -/
def Val.toList {α : Type} : Val α → List α
  | .list xs => xs
  | .item x => [x]

/-- The loop of decimal_hashtable.py:82-98 over the entries of the appended dict. -/
def appendLoop {α : Type} : Dict Key (Val α) → Dict Key (Val α) → Dict Key (Val α)
  | d, [] => d
  | d, (k, v) :: rest =>
    match d.get? k with
    | some w => appendLoop (d.set k (.list (w.toList ++ v.toList))) rest
    | none => appendLoop (d.set k v) rest

/-- decimal_hashtable.py:76-98 `append_dict` (for two different objects).  Both operands of line 91 are
lists, so the `except TypeError` branch is never taken. -/
def appendDict {α : Type} (other : Table (Val α)) : PyM (Table (Val α)) Unit := fun t =>
  if t.accuracy ≠ other.accuracy then (t, .error .typeError)
  else
    ({ t with history := t.history ++ other.history.filter (fun a => !t.history.contains a),
              data := appendLoop t.data other.data }, .ok ())

/-- The loop of join_hashtables.py:14-17. -/
def joinLoop {α : Type} : Table (Val α) → List (Table (Val α)) → Except PyErr (Table (Val α))
  | t, [] => .ok t
  | t, o :: os =>
    match appendDict o t with
    | (t', .ok ()) => joinLoop t' os
    | (_, .error e) => .error e

/-- join_hashtables.py:9-19 `main`: the hashtables in the order of `os.listdir`; `pop(0)` of an empty list
raises IndexError.  Reading and writing the files is not modelled (C30 covers the serialisation). -/
def joinTables {α : Type} : List (Table (Val α)) → Except PyErr (Table (Val α))
  | [] => .error .indexError
  | t :: ts => joinLoop t ts

/-! ## The fix-up script -/

/-- The entries stored by `_iter2hashtalbe`: `((a polynomials, b polynomials), index of the postproc function)`. -/
abbrev Entry := (List (List ℤ) × List (List ℤ)) × ℕ

/-- fix_hashtable_filter_init_b_root.py:21-27, the loop over the entries of one key: `orig` is the rest of the
copy being iterated, `i` its index, `removed` the counter, `cur` the list in the table.  `list.pop` with
an index in range. -/
def fixLoop (bad : List ℤ → Bool) : (orig : List Entry) → (i removed : ℕ) → (cur : List Entry) → List Entry
  | [], _, _, cur => cur
  | e :: orig, i, removed, cur =>
    if e.1.2.any bad then fixLoop bad orig (i + 1) (removed + 1) (cur.eraseIdx (i - removed))
    else fixLoop bad orig (i + 1) removed cur

/-- fix_hashtable_filter_init_b_root.py:20-29 for one key.  `mitm.dec_hashtable[k]` is `__getitem__`, which may find
the list under an older key `k'`; the list object found is modified in place. -/
def fixKey (eng : Eng) (bad : List ℤ → Bool) (k : Key) : PyM (Table (List Entry)) Unit := fun t =>
  match t.manipulateKey eng k with
  | .error e => (t, .error e)
  | .ok (old, cur) =>
    let k' := (Table.firstOld t.data old).getD cur
    match t.data.get? k' with
    | none => (t, .error .keyError)
    | some es =>
      let es' := fixLoop bad es 0 0 es
      let t := { t with data := t.data.set k' es' }
      if es'.length = 0 then
        match Table.pop k t with
        | (t, .ok _) => (t, .ok ())
        | (t, .error e) => (t, .error e)
      else (t, .ok ())

/-- The loop of fix_hashtable_filter_init_b_root.py:19-29 over the keys. -/
def fixKeys (eng : Eng) (bad : List ℤ → Bool) : List Key → PyM (Table (List Entry)) Unit
  | [] => pure ()
  | k :: ks => do fixKey eng bad k; fixKeys eng bad ks

/-- The key `'parameters'` (main.py:111, fix_hashtable_filter_init_b_root.py:17). -/
def paramsKey : Key := .str "parameters".toList

/-- fix_hashtable_filter_init_b_root.py:12-29 `main`.  `bad` is `_does_have_integer_roots`.  The value of the key
`'parameters'` is never looked at; it is represented by any list. `list.remove` raises ValueError if the key
is missing. -/
def fixMain (eng : Eng) (bad : List ℤ → Bool) : PyM (Table (List Entry)) Unit := fun t =>
  let ks := t.data.keys
  if paramsKey ∈ ks then fixKeys eng bad (ks.erase paramsKey) t else (t, .error .valueError)

end PiCF.Hashtable
