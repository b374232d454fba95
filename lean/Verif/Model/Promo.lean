import Verif.Model.ContFrac

/-!
# `ContFrac` objects with a promotion matrix generator of the caller (`cont_fracs.py`, `basic_representation_types.py`)

`Model/ContFrac` has the default generator; here it is any function.  `Props/Promo` shows that the two agree for the default one.
-/

namespace PiCF.ContFrac

/-- The argument `iter_promo_matrix_generator` (cont_fracs.py:19, 27-28): called with the index and both coefficient lists, it returns
`(a_i, b_i)` or raises.  `print_calc` is left out; the numbers are integers, and the function keeps no state. -/
abbrev PromoGen := ℤ → Coeffs → Coeffs → Except PyErr (ℤ × ℤ)

/-- cont_fracs.py:68-105 `iteration_algorithm` with `self._iter_promo_matrix_generator` (line 84).  The test for a zero `b_i` is part of
the default generator only (lines 131-132). -/
def iterationAlgorithmG (gen : PromoGen) (logging : Bool) (ps : Params) (m : Mat) (i : ℤ) : Except PyErr (Params × Mat) :=
  let i := i + 1
  match gen i ps.a ps.b with
  | .error e => .error e
  | .ok (ai, bi) =>
    let newP := (m.1.1 * ai + m.1.2 * bi, m.1.1)
    let newQ := (m.2.1 * ai + m.2.2 * bi, m.2.1)
    let ps := if logging then { ps with res := quotient newP.1 newQ.1 } else ps
    .ok (ps, (newP, newQ))

/-- basic_representation_types.py:60-68, the loop of `add_iterations`. -/
def addLoopG (gen : PromoGen) : ℕ → ℕ → Params → Mat → PyM CF (Params × Mat)
  | 0, _, ps, m, s => (s, .ok (ps, m))
  | k + 1, i, ps, m, s =>
    match iterationAlgorithmG gen s.logging ps m (i + s.executed) with
    | .error e => (s, .error e)
    | .ok (ps', m') =>
      let s' := if s.logging then { s with logs := s.logs ++ [ps'], mats := s.mats ++ [m'] } else s
      addLoopG gen k (i + 1) ps' m' s'

/-- basic_representation_types.py:52-78 `add_iterations`. -/
def addIterationsG (gen : PromoGen) (n : ℤ) (execFinalize : Bool := true) : PyM CF Unit := fun s =>
  let ps := s.logs.getLastD s.params
  let m := s.mats.getLastD s.first
  match addLoopG gen n.toNat 0 ps m s with
  | (s, .error e) => (s, .error e)
  | (s, .ok (ps, m)) =>
    let ps := if execFinalize then finalizeIterations ps m else ps
    let s := if s.logging then s else { s with logs := [ps], mats := [m] }
    ({ s with executed := s.executed + n }, .ok ())

/-- basic_representation_types.py:40-50 `gen_iterations`. -/
def genIterationsG (gen : PromoGen) (n : ℤ) (execFinalize : Bool := true) : PyM CF Unit := fun s =>
  addIterationsG gen n execFinalize { s with logs := [s.params], mats := [s.first], executed := 0 }

end PiCF.ContFrac
