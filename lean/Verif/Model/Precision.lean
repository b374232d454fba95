import Verif.Model.Main
import Verif.Model.Mitm

/-!
# Model of the working precision

The number of decimal digits of all calculations is `mpmath.mp.dps`, a variable of the process.  This file models the calls
that set it: constructors of enumerators and of `MITM`, `redefine_settings`, `reset_precision` and the constant generators.
-/

namespace PiCF.Precision
open PiCF.Mitm PiCF.Main

/-- enum_poly_params.py:13-16 `set_precision`; the setter of mpmath uses at least one digit.  (`None` is not modelled.) -/
def setPrec (prec : ℤ) : ℤ := max 1 prec

/-- What an enumerator of polynomials keeps: its class and `_prec` (enum_poly_params.py:80). -/
structure Enumer where
  cls : PolyClass
  prec : ℤ
  deriving DecidableEq

/-- What a `MITM` object keeps: `rhs_polys_enumer` and `prec` (enum_params.py:69, 82). -/
structure Object where
  enumer : Enumer
  prec : ℤ
  deriving DecidableEq

/-- The process: `mpmath.mp.dps` and the `MITM` objects made so far. -/
structure State where
  dps : ℤ
  objects : List Object

/-- The process after the imports (gen_consts.py:10). -/
def State.start : State := ⟨150, []⟩

/-- enum_poly_params.py:50-81, 202-206, 235-248: the constructors; a sparse enumerator without special parameters raises
before the precision is set. -/
def newEnumer (cls : PolyClass) (special : Option (ℕ × ℕ)) (prec : ℤ) : PyM State Enumer := fun s =>
  match makeEnumer cls special with
  | .error e => (s, .error e)
  | .ok (c, _) => ({ s with dps := setPrec prec }, .ok ⟨c, prec⟩)

/-- enum_params.py:36-88 `MITM.__init__` -/
def newMitm (cls : PolyClass) (special : Option (ℕ × ℕ)) (prec : ℤ) : PyM State Unit := fun s =>
  match newEnumer cls special prec s with
  | (s, .error e) => (s, .error e)
  | (s, .ok en) => (⟨setPrec prec, s.objects ++ [⟨en, prec⟩]⟩, .ok ())

/-- enum_params.py:90-120 `redefine_settings` of the `k`-th object: a new enumerator gets `self.prec`, and `self.prec` is not
assigned. -/
def redefine (k : ℕ) (cls : PolyClass) (special : Option (ℕ × ℕ)) (prec : ℤ) : PyM State Unit := fun s =>
  match s.objects[k]? with
  | none => (s, .error .nameError)
  | some x =>
    if isInstance x.enumer.cls cls then ({ s with dps := setPrec prec }, .ok ())
    else
      match newEnumer cls special x.prec s with
      | (s, .error e) => (s, .error e)
      | (s, .ok en) => (⟨setPrec prec, s.objects.set k { x with enumer := en }⟩, .ok ())

/-- enum_poly_params.py:83-85 `reset_precision`, of the enumerator of the `k`-th object. -/
def reset (k : ℕ) : PyM State Unit := fun s =>
  match s.objects[k]? with
  | none => (s, .error .nameError)
  | some x => ({ s with dps := setPrec x.enumer.prec }, .ok ())

/-- A call that can set the precision. -/
inductive Act where
  | construct (cls : PolyClass) (special : Option (ℕ × ℕ)) (prec : ℤ)
  | redefine (k : ℕ) (cls : PolyClass) (special : Option (ℕ × ℕ)) (prec : ℤ)
  | reset (k : ℕ)
  | enumer (cls : PolyClass) (special : Option (ℕ × ℕ)) (prec : ℤ)
  | constant (f : ConstFun) (args : List (Option ℤ))

/-- One call; exceptions are caught by the caller.  The values of the constants do not matter. -/
def Act.run (K : Consts) (rnd : ℤ → ℚ → ℚ) : Act → State → State × Except PyErr Unit
  | .construct cls special prec, s => newMitm cls special prec s
  | .redefine k cls special prec, s => Precision.redefine k cls special prec s
  | .reset k, s => Precision.reset k s
  | .enumer cls special prec, s =>
    match newEnumer cls special prec s with
    | (s, .error e) => (s, .error e)
    | (s, .ok _) => (s, .ok ())
  | .constant f args, s => ({ s with dps := (f.call K rnd args s.dps).1 }, (f.call K rnd args s.dps).2.map fun _ => ())

/-- A sequence of calls. -/
def runs (K : Consts) (rnd : ℤ → ℚ → ℚ) : List Act → State → State
  | [], s => s
  | x :: l, s => runs K rnd l (x.run K rnd s).1

end PiCF.Precision
