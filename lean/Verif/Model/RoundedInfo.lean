import Verif.Model.Rounded

/-!
# Model of the evaluation by convergence info with rounding (enum_params.py:250-260)
-/

namespace PiCF.Rounded
open PiCF.ContFrac PiCF.Mitm

/-- enum_params.py:250-260, the evaluator of `refine_clicks_with_convergence_info`, with rounding: the matrices hold integers (cont_fracs.py:69-92),
only the result (cont_fracs.py:112-118) is computed with `mpf` numbers.  `required` as in `genIterationsAcc`: it stands for all of line 141 of
basic_representation_types.py, with whatever rounding is done there. -/
def evalInfoR (rnd : ℚ → ℚ) (required : ℚ → ℚ → Except PyErr ℤ) (n accuracy : ℤ) (a b : EnumPoly.Polys) (info : Option Conv) : Except PyErr Num :=
  match init a b with
  | .error e => .error e
  | .ok s =>
    let s := match info with
      | some t => { s with approachType := t.1, approachParams := t.2 }
      | none => s
    match genIterationsAcc required n (10 ^ (-(accuracy + 100))) true s with
    | (_, .error e) => .error e
    | (s, .ok ()) => .ok (quotientR rnd (s.mats.getLastD s.first).1.1 (s.mats.getLastD s.first).2.1)

end PiCF.Rounded
