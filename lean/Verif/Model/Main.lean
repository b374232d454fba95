import Verif.Model.Config

/-!
# Model of gen_consts.py and main.py

The numbers of gen_consts.py are parameters (`Consts`), and so is the rounding of a product with `dec(1)` to the current
precision.  The steps of a run that are modelled elsewhere (construction of the MITM object, settings, building the table,
what follows the search) are parameters (`Ops`): the model shows which object they get, in which order they are called, and
what is written where.  Printing and time measurement are left out.
-/

namespace PiCF.Main
open PiCF.Hashtable PiCF.Config

/-- The numbers of gen_consts.py:12-62.  `zeta_consts` is a dictionary with int keys. -/
structure Consts where
  pi : ℚ
  e : ℚ
  eulerMasch : ℚ
  phi : ℚ
  percolation : List ℚ
  feig : List ℚ
  zeta : ℤ → Option ℚ

/-- The functions of gen_consts.py:79-118. -/
inductive ConstFun where
  | pi
  | e
  | feig
  | eulerMasch
  | percolation
  | zeta
  | phi
  | apery
  deriving DecidableEq, Repr

/-- `l[i]` of a python list with an int, or `None` (TypeError). -/
def pyIndex (l : List ℚ) : Option ℤ → Except PyErr ℚ
  | none => .error .typeError
  | some i =>
    if -(l.length : ℤ) ≤ i ∧ i < l.length then .ok (l.getD (if i < 0 then (i + l.length).toNat else i.toNat) 0)
    else .error .indexError

/-- `zeta_consts[i]` -/
def zetaAt (K : Consts) : Option ℤ → Except PyErr ℚ
  | none => .error .keyError
  | some i =>
    match K.zeta i with
    | some x => .ok x
    | none => .error .keyError

/-- gen_consts.py:79-118, the functions without decorator, called with positional arguments.  A wrong number of arguments is
a TypeError.  `rnd dps x` is `x * dec(1)` with `dps` decimal digits. -/
def ConstFun.body (K : Consts) (rnd : ℤ → ℚ → ℚ) (dps : ℤ) : ConstFun → List (Option ℤ) → Except PyErr ℚ
  | .pi, [] => .ok (rnd dps K.pi)
  | .e, [] => .ok (rnd dps K.e)
  | .eulerMasch, [] => .ok (rnd dps K.eulerMasch)
  | .phi, [] => .ok (rnd dps K.phi)
  | .apery, [] => (zetaAt K (some 3)).map (rnd dps)
  | .feig, [i] => (pyIndex K.feig i).map (rnd dps)
  | .percolation, [i] => (pyIndex K.percolation i).map (rnd dps)
  | .zeta, [i] => (zetaAt K i).map (rnd dps)
  | _, _ => .error .typeError

/-- gen_consts.py:65-67 `set_precision`; the setter of mpmath uses at least one digit. -/
def setPrecision (prec : Option ℤ) (dps : ℤ) : ℤ :=
  match prec with
  | none => dps
  | some n => if n = 0 then dps else max 1 n

/-- gen_consts.py:70-76 `set_precision_decor`: the first positional argument is the precision, the others are passed on.
The state is the precision `mpmath.mp.dps`. -/
def ConstFun.call (K : Consts) (rnd : ℤ → ℚ → ℚ) (f : ConstFun) (args : List (Option ℤ)) : PyM ℤ ℚ := fun dps =>
  match args with
  | [] => (dps, f.body K rnd dps [])
  | prec :: rest => (setPrecision prec dps, f.body K rnd (setPrecision prec dps) rest)

/-- `functools.partial(f, *bound)`, or a plain function (no bound arguments). -/
structure Gen where
  f : ConstFun
  bound : List (Option ℤ)
  deriving DecidableEq, Repr

/-- A call of such an object without further arguments (enum_params.py:210). -/
def Gen.call (K : Consts) (rnd : ℤ → ℚ → ℚ) (g : Gen) : PyM ℤ ℚ := g.f.call K rnd g.bound

/-- main.py:54-69, the choice of the generator; the second component tells that it is one of the names for which line 73 or
75 raises NameError (the global `i` does not exist). -/
def chooseGen (const : Json.Val) (i : Option ℤ) : Except PyErr (Gen × Bool) :=
  match const with
  | .str s =>
    if s = "e".toList then .ok (⟨.e, []⟩, false)
    else if s = "pi".toList then .ok (⟨.pi, []⟩, false)
    else if s = "feig".toList then .ok (⟨.feig, [i]⟩, true)
    else if s = "euler_masch".toList then .ok (⟨.eulerMasch, []⟩, false)
    else if s = "percolation".toList then .ok (⟨.percolation, [i]⟩, true)
    else if s = "zeta".toList then .ok (⟨.zeta, [i]⟩, false)
    else if s = "phi".toList then .ok (⟨.phi, []⟩, false)
    else if s = "apery".toList then .ok (⟨.apery, []⟩, false)
    else .error .valueError
  | _ => .error .valueError

/-- A MITM object: its target, the name of the target, and everything else. -/
structure Mitm (S : Type) where
  target : Gen
  name : Json.Val
  rest : S

/-- The steps modelled elsewhere, as functions of the configuration and the rest of the object.  They may raise.  `tail` is
everything after the search (it gets the target value). -/
structure Ops (S : Type) where
  create : Config.Dict → Except PyErr S
  redefine : Config.Dict → S → Except PyErr S
  build : Config.Dict → S → Except PyErr S
  search : Config.Dict → ℚ → S → Except PyErr S
  tail : Config.Dict → ℚ → S → Except PyErr Unit

/-- What a run can change: the precision, the stored hashtables, and the record of the searches (target value, name used for
the results, the object searched). -/
structure World (S : Type) where
  dps : ℤ
  files : Str → Option (Mitm S)
  searches : List (ℚ × Json.Val × S)

/-- The option `i`, an int or None. -/
def indexOf (d : Config.Dict) : Option ℤ :=
  match dataOf (d "i".toList) with
  | .int n => some n
  | _ => none

/-- Truth value of an option that is a string, bool or None. -/
def truthy : Json.Val → Bool
  | .null => false
  | .bool b => b
  | .int n => n ≠ 0
  | .str s => s ≠ []
  | .arr l => !l.isEmpty

/-- `DECIMAL_PREC`, main.py:20 -/
def decimalPrec : ℤ := 50

/-- main.py:78-106: load or create the object.  `set_precision(50)` is called by the constructor and by `redefine_settings`
(enum_params.py:76, 109), after the enumerator of polynomials has been made. -/
def obtain {S : Type} (O : Ops S) (d : Config.Dict) (g : Gen) (name : Json.Val) (op : Str) (file : Str) : PyM (World S) (Mitm S) := fun w =>
  if op = "use".toList ∨ op = "expand".toList then
    match w.files file with
    | none => (w, .error .fileNotFound)
    | some m =>
      if op = "expand".toList then
        match O.redefine d m.rest with
        | .error e => (w, .error e)
        | .ok s => ({ w with dps := decimalPrec }, .ok ⟨g, name, s⟩)
      else (w, .ok m)
  else if op = "generate".toList then
    match O.create d with
    | .error e => (w, .error e)
    | .ok s => ({ w with dps := decimalPrec }, .ok ⟨g, name, s⟩)
  else (w, .error .valueError)

/-- main.py:107-116: build the table and store the object. -/
def buildStore {S : Type} (O : Ops S) (d : Config.Dict) (op file : Str) (m : Mitm S) : PyM (World S) (Mitm S) := fun w =>
  if op = "expand".toList ∨ op = "generate".toList then
    match O.build d m.rest with
    | .error e => (w, .error e)
    | .ok s => ({ w with files := fun f => if f = file then some { m with rest := s } else w.files f }, .ok { m with rest := s })
  else (w, .ok m)

/-- main.py:117-186: the search and what follows.  Simplification: with `lhs_type` left out (None) the program raises while it evaluates the
arguments of the search; here this is part of `Ops.search`, and the search counts as started. -/
def searchRest {S : Type} (K : Consts) (rnd : ℤ → ℚ → ℚ) (O : Ops S) (d : Config.Dict) (m : Mitm S) : PyM (World S) Unit := fun w =>
  if truthy (dataOf (d "gen_hashtable_only".toList)) then (w, .ok ())
  else
    match m.target.call K rnd w.dps with
    | (dps, .error e) => ({ w with dps := dps }, .error e)
    | (dps, .ok x) =>
      let w' := { w with dps := dps, searches := w.searches ++ [(x, m.name, m.rest)] }
      match O.search d x m.rest with
      | .error e => (w', .error e)
      | .ok s => (w', O.tail d x s)

/-- main.py:39-186 `main`, with the loaded configuration. -/
def main {S : Type} (K : Consts) (rnd : ℤ → ℚ → ℚ) (O : Ops S) (d : Config.Dict) : PyM (World S) Unit := fun w =>
  match chooseGen (dataOf (d "const".toList)) (indexOf d) with
  | .error e => (w, .error e)
  | .ok (_, true) => (w, .error .nameError)
  | .ok (g, false) =>
    match dataOf (d "hashtable_file_operation".toList), dataOf (d "hashtable_file".toList) with
    | .str op, .str file =>
      match obtain O d g (dataOf (d "const".toList)) op file w with
      | (w, .error e) => (w, .error e)
      | (w, .ok m) =>
        match buildStore O d op file m w with
        | (w, .error e) => (w, .error e)
        | (w, .ok m) => searchRest K rnd O d m w
    | _, _ => (w, .error .typeError)

end PiCF.Main
