import Verif.Model.Rounded
import Verif.Model.RationalFunc

/-!
# Model of the rational function classes with rounding (lhs_evaluators.py:264-336, 433-460, 525-557)

As `Model/RationalFunc.lean`, but the result of every operation on numbers that are not integers is rounded by `rnd`.  The coefficients and the
added number are python integers: they are not rounded, neither alone nor as operands.
-/

namespace PiCF.Rounded
open PiCF.Lhs PiCF.EnumPoly PiCF.ContFrac Polynomial

/-- utils.py:69-75 `subs_in_polynom` on integer coefficients and a number `x` that is not an integer: the power, the product and every sum are
rounded.  `sum` starts with 0. -/
def subsAtR (rnd : ℚ → ℚ) (coeffs : List ℤ) (x : ℚ) : ℚ :=
  ((List.range coeffs.length).map fun j => rnd (coeffs.getD j 0 * rnd (x ^ j))).foldl (fun acc t => rnd (acc + t)) 0

/-- lhs_evaluators.py:304-313 `_calc_val`; `is_normal()` means that the rounded number is not zero (exponents are unbounded). -/
def calcValR (rnd : ℚ → ℚ) (num den : List ℤ) (added : ℤ) (x : ℚ) : Num :=
  let n := subsAtR rnd num x
  let d := subsAtR rnd den x
  if d = 0 ∨ n = 0 then .nan else .fin (rnd (rnd (n / d) + added))

/-- lhs_evaluators.py:26-37 and 257-262: construction from a tuple. -/
def rfInitR (rnd : ℚ → ℚ) (p : List ℤ × List ℤ × ℤ) (x : ℚ) : RF :=
  { params := p, num := p.1, den := p.2.1, added := p.2.2, x := x, val := calcValR rnd p.1 p.2.1 p.2.2 x, canon := false,
    numSym := none, denSym := none, numStale := true, denStale := true }

/-- lhs_evaluators.py:329-336 -/
def rfUpdateR (rnd : ℚ → ℚ) : PyM RF Unit := fun s =>
  ({ s with params := (s.num, s.den, s.added), numStale := true, denStale := true, canon := false,
            val := calcValR rnd s.num s.den s.added s.x }, .ok ())

/-- lhs_evaluators.py:315-322 -/
def rfFlipR (rnd : ℚ → ℚ) : PyM RF Unit := do
  PyM.modify fun s => { s with den := s.den.map fun c => -1 * c, denStale := true, canon := false }
  PyM.modify fun s => { s with added := s.added * -1 }
  rfUpdateR rnd
  PyM.modify fun s => { s with val := calcValR rnd s.num s.den s.added s.x }

/-- lhs_evaluators.py:324-327 -/
def rfAddR (rnd : ℚ → ℚ) (n : ℤ) : PyM RF Unit := do
  PyM.modify fun s => { s with added := s.added + n }
  rfUpdateR rnd

/-- lhs_evaluators.py:433-453; the polynomials are computed with exact rationals (sympy). -/
noncomputable def rfCanonR (rnd : ℚ → ℚ) : PyM RF Unit := do
  let s ← PyM.get
  if s.canon then pure ()
  else do
    let n ← RF.numeratorSym
    let d ← RF.denominatorSym
    let g := polyGcd n d
    let n1 ← RF.lift (rrDiv n g)
    let d1 ← RF.lift (rrDiv d g)
    let qr ← RF.lift (RF.qqDiv n1.1 d1.1)
    let k := ⌈qr.1.coeff 0⌉
    PyM.modify fun s => { s with added := s.added + k }
    PyM.modify fun s => { s with num := sympoly2polyQ ((qr.1 - C (k : ℚ)) * toQ d1.1 + qr.2) }
    PyM.modify fun s => { s with den := sympoly2poly d1.1 }
    PyM.modify fun s => { s with canon := true }
    rfUpdateR rnd

/-- lhs_evaluators.py:455-460 -/
noncomputable def rfIsDegenerateR (rnd : ℚ → ℚ) : PyM RF Bool := do
  rfCanonR rnd
  let s ← PyM.get
  pure (decide ((s.num.length = 1 ∧ s.den.length = 1) ∨ s.num.length = 0 ∨ s.num = [0]))

/-- lhs_evaluators.py:540-557: what is yielded for one pair. -/
def rfBodyR (rnd : ℚ → ℚ) (e : RFEnum) (n d : List ℤ) : List RF :=
  if !d.any (· != 0) then []
  else if strippedLen n < 2 ∧ strippedLen d < 2 then []
  else if e.bigger = true ∧ strippedLen n < strippedLen d then []
  else if subsAtR rnd n e.x = 0 ∨ subsAtR rnd d e.x = 0 then []
  else [rfInitR rnd (n, d, 0) e.x]

/-- lhs_evaluators.py:525-557 -/
def rfGeneratorR (rnd : ℚ → ℚ) (e : RFEnum) : List RF :=
  (product (e.num.map pyRange)).flatMap fun n =>
    if !n.any (· != 0) then []
    else (product (e.den.map pyRange)).flatMap fun d => rfBodyR rnd e n d

end PiCF.Rounded
