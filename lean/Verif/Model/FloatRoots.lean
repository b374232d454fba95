import Verif.Model.EnumPoly
import Verif.Model.Rounded

/-!
# Model of the integer root test with float arithmetic (enum_poly_params.py:146-169)

`hasIntRoots` in `Model/EnumPoly.lean` is the test with exact arithmetic.  Python evaluates `/` on integers and everything after
`discrim **= 0.5` with floats.
-/

namespace PiCF.EnumPoly

/-- `mpmath.isint` of a float (converted without rounding). -/
def isInt (x : ℚ) : Bool := x.den == 1

/-- enum_poly_params.py:146-169 `_does_have_integer_roots` with floats: `rnd` rounds the result of each float operation, `pow d` is
`d ** 0.5`.  The quotient of integers (line 156) is correctly rounded in Python.  `-discrim` is exact.  Overflow (`OverflowError` for
numbers above `2^1024`) is not modelled. -/
def hasIntRootsF (rnd : ℚ → ℚ) (pow : ℤ → ℚ) (p : Poly) : Bool :=
  match factorOut p with
  | [] => true
  | [_] => false
  | [c0, c1] => isInt (rnd ((c0 : ℚ) / c1)) && (decide (c0 > 0) != decide (c1 > 0))
  | [c0, c1, c2] =>
    let discrim := c1 ^ 2 - 4 * c0 * c2
    if discrim < 0 then false
    else
      let discrim := pow discrim
      isInt (rnd (rnd (discrim - c1) / (2 * c0 : ℤ))) || isInt (rnd (rnd (-discrim - c1) / (2 * c0 : ℤ)))
  | _ => false

end PiCF.EnumPoly
