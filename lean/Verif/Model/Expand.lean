import Verif.Model.Mitm

/-!
# Model of the hashtable stage of `main` (main.py:76-116) on `MITM` objects

One run of the program obtains a `MITM` object (new, or loaded from the file `hashtable_file`), builds its table over the
ranges of the configuration and writes the object back.  The state is the content of the file.
-/

namespace PiCF.Mitm
open PiCF.Hashtable PiCF.EnumPoly

/-- The options of the configuration used by main.py:76-116 (without target and name, which the table does not depend on). -/
structure Opts where
  cls : PolyClass
  special : Option (ℕ × ℕ)
  prec : ℤ
  iters : ℕ
  filter : List ℕ
  ra : Ranges
  rb : Ranges

/-- What a run does not take from the configuration: the functions of postprocfuncs.py, the orders in which python visits
sets, the value stored under `'parameters'` (main.py:111-112, any object that is not a list), and the outcome of
`pickle.dump` (`some e`: it raises, for example because the disk is full). -/
structure Surroundings where
  funcs : List (Num → Except PyErr Num)
  order : List ℕ → List ℕ
  maskOrder : List (List (List ℕ)) → List (List (List ℕ))
  params : Entry
  dump : Option PyErr

/-- A `MITM` object: the settings, `_polys_enumer_num_of_iterations` and `_polys_enumer_enum_only_exp_conv`
(enum_params.py:68-88).  `avoid_int_roots`, `avoid_zero_b` and `should_gen_contfrac` of the enumerator are the same for all
objects (lines 69-70; in `redefine_settings` `avoid_zero_b` has its default, which is also True). -/
structure Object where
  set : Settings (Val Entry)
  iters : ℕ
  expOnly : Bool

/-- enum_params.py:39-88 `__init__`, called as in main.py:96-103 (`trunc_integer` and `enum_only_exp_conv` have their default
True). -/
def newObject (o : Opts) : Except PyErr Object :=
  match makeEnumer o.cls o.special with
  | .error e => .error e
  | .ok (c, sp) => .ok ⟨⟨c, sp, Table.init o.prec, o.prec, o.filter, true⟩, o.iters, true⟩

/-- The `manipulate_poly` of the enumerator (enum_poly_params.py:187, 208, 250).  There is no sparse enumerator without special parameters. -/
def manipOf (maskOrder : List (List (List ℕ)) → List (List (List ℕ))) : PolyClass → Option (ℕ × ℕ) → Manip
  | .basic, _ => manipBasic
  | .indexed, _ => manipIndexed
  | .sparse, some (nA, nB) => manipSparse maskOrder nA nB
  | .sparse, none => manipBasic

/-- The enumerator as made in enum_params.py:68-72 or 102-107. -/
def Object.config (x : Object) : Config :=
  { numIters := x.iters, expOnly := x.expOnly, avoidIntRoots := true, genContFrac := false, avoidZeroB := true }

/-- The attributes used by `_iter2hashtalbe`; the continued fractions are evaluated with
`_polys_enumer_num_of_iterations` (enum_params.py:166). -/
def Object.env (w : Surroundings) (x : Object) : Env where
  funcs := w.funcs
  filter := x.set.filter
  trunc := x.set.trunc
  cfv := polysValue x.iters
  order := w.order

/-- enum_params.py:123-133 `build_hashtable`, called as in main.py:108 -/
def Object.build (w : Surroundings) (x : Object) (o : Opts) : Object × Except PyErr Unit :=
  let r := buildHashtable (x.env w) (manipOf w.maskOrder x.set.polyClass x.set.special) x.config true o.ra o.rb x.set.table
  ({ x with set := { x.set with table := r.1 } }, r.2)

/-- main.py:84-90, `redefine_settings` on an object -/
def Object.redefine (x : Object) (o : Opts) : Except PyErr Object :=
  match redefineSettings o.cls o.special o.prec o.filter true x.set with
  | (_, .error e) => .error e
  | (s, .ok ()) => .ok { x with set := s }

/-- main.py:111-112 -/
def Object.mark (w : Surroundings) (x : Object) : Object :=
  { x with set := { x.set with table := (Table.setItem mpfEng paramsKey (.item w.params) x.set.table).1 } }

/-- A stored object: pickle stores the table as decimal_hashtable.py:63-65, 72-74, everything else as it is. -/
structure Stored where
  object : Object
  table : Table.Pickled (Val Entry)

/-- The content of the file: a complete object, or something `pickle.load` raises for. -/
inductive Content where
  | whole (s : Stored)
  | broken

/-- main.py:79-80 -/
def Stored.load (s : Stored) : Object := { s.object with set := { s.object.set with table := Table.unpickle s.table } }

/-- What `pickle.dump` writes. -/
def Object.pickled (x : Object) : Stored := ⟨x, x.set.table.reduce⟩

/-- `hashtable_file_operation` (other values raise, main.py:106). -/
inductive Op where
  | use
  | expand
  | generate
  deriving DecidableEq, Repr

/-- main.py:78-104: load or create the object.  For a file that is no complete pickle `load` raises EOFError or UnpicklingError
(here a RuntimeError). -/
def obtainObject (op : Op) (o : Opts) (file : Option Content) : Except PyErr Object :=
  match op with
  | .generate => newObject o
  | .use =>
    match file with
    | none => .error .fileNotFound
    | some .broken => .error .runtimeError
    | some (.whole s) => .ok s.load
  | .expand =>
    match file with
    | none => .error .fileNotFound
    | some .broken => .error .runtimeError
    | some (.whole s) => s.load.redefine o

/-- main.py:76-116.  The state is the content of `hashtable_file`, the result is the object used for the search.  `open(…, 'wb')` empties the file
before `pickle.dump` writes to it. -/
def tableStage (w : Surroundings) (op : Op) (o : Opts) : PyM (Option Content) Object := fun file =>
  match obtainObject op o file with
  | .error e => (file, .error e)
  | .ok x =>
    if op = .use then (file, .ok x)
    else
      match x.build w o with
      | (_, .error e) => (file, .error e)
      | (x, .ok ()) =>
        match w.dump with
        | some e => (some .broken, .error e)
        | none => (some (.whole (x.mark w).pickled), .ok (x.mark w))

end PiCF.Mitm
