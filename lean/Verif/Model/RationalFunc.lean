import Mathlib.Algebra.Polynomial.FieldDivision
import Mathlib.RingTheory.Polynomial.UniqueFactorization
import Mathlib.RingTheory.UniqueFactorizationDomain.GCDMonoid
import Mathlib.Algebra.Order.Floor.Ring
import Mathlib.Data.Rat.Floor
import Mathlib.RingTheory.PrincipalIdealDomain
import Mathlib.Algebra.EuclideanDomain.Int
import Verif.Model.Utils
import Verif.Model.Ulcd

/-!
# Model of the rational function classes of `lhs_evaluators.py`

sympy is modelled by Mathlib's polynomials: `Poly` over `ZZ` is `ℤ[X]`, over `QQ` is `ℚ[X]`.
The target constant and the values are exact rationals, with NaN.
-/

namespace PiCF.Lhs
open PiCF.EnumPoly PiCF.ContFrac Polynomial

/-! ## sympy -/

/-- The polynomial with these coefficients. -/
noncomputable def ofCoeffs : List ℤ → ℤ[X]
  | [] => 0
  | c :: cs => C c + X * ofCoeffs cs

/-- lhs_evaluators.py:15-17 `poly2sympoly`; `sympy.poly('')` raises a SympifyError (a ValueError). -/
noncomputable def poly2sympoly (coeffs : List ℤ) : Except PyErr ℤ[X] :=
  if coeffs = [] then .error .valueError else .ok (ofCoeffs coeffs)

/-- lhs_evaluators.py:20-21 `sympoly2poly`: `all_coeffs()` starts with the leading coefficient and is `[0]` for the zero
polynomial. -/
noncomputable def sympoly2poly (p : ℤ[X]) : List ℤ := (List.range (p.natDegree + 1)).map p.coeff

/-- lhs_evaluators.py:20-21 for a polynomial over `QQ`: `int(i)` cuts off the fractional part. -/
noncomputable def sympoly2polyQ (p : ℚ[X]) : List ℤ :=
  (List.range (p.natDegree + 1)).map fun i => if 0 ≤ p.coeff i then ⌊p.coeff i⌋ else ⌈p.coeff i⌉

theorem exists_polyGcd (p q : ℤ[X]) :
    ∃ g : ℤ[X], g ∣ p ∧ g ∣ q ∧ (∀ h, h ∣ p → h ∣ q → h ∣ g) ∧ 0 ≤ g.leadingCoeff := by
  let _ := UniqueFactorizationMonoid.toGCDMonoid ℤ[X]
  by_cases h : 0 ≤ (gcd p q).leadingCoeff
  · exact ⟨gcd p q, gcd_dvd_left p q, gcd_dvd_right p q, fun _ h1 h2 => dvd_gcd h1 h2, h⟩
  · refine ⟨-gcd p q, (neg_dvd).2 (gcd_dvd_left p q), (neg_dvd).2 (gcd_dvd_right p q),
      fun _ h1 h2 => (dvd_neg).2 (dvd_gcd h1 h2), ?_⟩
    rw [leadingCoeff_neg]
    omega

/-- `Poly.gcd` over `ZZ`: the greatest common divisor (including the content) with non-negative leading
coefficient. -/
noncomputable def polyGcd (p q : ℤ[X]) : ℤ[X] := Classical.choose (exists_polyGcd p q)

/-- The loop of sympy's `dup_rr_div`: division over `ZZ` as long as the leading coefficient can be divided. -/
noncomputable def rrDivLoop (g : ℤ[X]) : ℕ → ℤ[X] → ℤ[X] → ℤ[X] × ℤ[X]
  | 0, q, r => (q, r)
  | n + 1, q, r =>
    open Classical in
    if r = 0 ∨ r.natDegree < g.natDegree ∨ ¬ g.leadingCoeff ∣ r.leadingCoeff then (q, r)
    else
      let c := monomial (r.natDegree - g.natDegree) (r.leadingCoeff / g.leadingCoeff)
      rrDivLoop g n (q + c) (r - c * g)

/-- `f.div(g, auto=False)` over `ZZ`.  Every round lowers the degree of the remainder, so the given number of rounds
suffices. -/
noncomputable def rrDiv (f g : ℤ[X]) : Except PyErr (ℤ[X] × ℤ[X]) :=
  open Classical in
  if g = 0 then .error .zeroDivision else .ok (rrDivLoop g (f.natDegree + 1) 0 f)

/-- To `QQ`. -/
noncomputable def toQ (p : ℤ[X]) : ℚ[X] := p.map (Int.castRingHom ℚ)

/-! ## The evaluator -/

/-- lhs_evaluators.py:256-276, the attributes of a `RationalFuncEvaluator`.  `numSym`, `denSym` are the cached sympy
polynomials (`none`: attribute does not exist). -/
structure RF where
  params : List ℤ × List ℤ × ℤ
  num : List ℤ
  den : List ℤ
  added : ℤ
  x : ℚ
  val : Num
  canon : Bool
  numSym : Option ℤ[X]
  denSym : Option ℤ[X]
  numStale : Bool
  denStale : Bool

namespace RF

/-- lhs_evaluators.py:304-313 `_calc_val`; `is_normal()` of an exact number means that it is not zero.
The polynomials have at least one coefficient (`sum([])` would be the int 0, which has no `is_normal`), and the target is
not zero (`Decimal(0)**0` raises). -/
def calcVal (num den : List ℤ) (added : ℤ) (x : ℚ) : Num :=
  let n := Utils.subsInPolynom (num.map (Int.cast : ℤ → ℚ)) x
  let d := Utils.subsInPolynom (den.map (Int.cast : ℤ → ℚ)) x
  if d = 0 ∨ n = 0 then .nan else .fin (n / d + added)

/-- lhs_evaluators.py:264-276.  Note that `self.params` is not assigned. -/
def reinitParams (p : List ℤ × List ℤ × ℤ) : PyM RF Unit := fun s =>
  ({ s with num := p.1, den := p.2.1, added := p.2.2, numStale := true, denStale := true, canon := false,
            val := calcVal p.1 p.2.1 p.2.2 s.x }, .ok ())

/-- lhs_evaluators.py:26-37 and 257-262: construction from a tuple. -/
def init (p : List ℤ × List ℤ × ℤ) (x : ℚ) : RF :=
  { params := p, num := p.1, den := p.2.1, added := p.2.2, x := x, val := calcVal p.1 p.2.1 p.2.2 x, canon := false,
    numSym := none, denSym := none, numStale := true, denStale := true }

/-- lhs_evaluators.py:32-33: construction from another evaluator. -/
def copy (s : RF) : RF := init s.params s.x

/-- lhs_evaluators.py:329-336 -/
def updateParams : PyM RF Unit := fun s =>
  ({ s with params := (s.num, s.den, s.added), numStale := true, denStale := true, canon := false,
            val := calcVal s.num s.den s.added s.x }, .ok ())

/-- lhs_evaluators.py:315-322 -/
def flipSign : PyM RF Unit := do
  PyM.modify fun s => { s with den := s.den.map fun c => -1 * c, denStale := true, canon := false }
  PyM.modify fun s => { s with added := s.added * -1 }
  updateParams
  PyM.modify fun s => { s with val := calcVal s.num s.den s.added s.x }

/-- lhs_evaluators.py:324-327 -/
def addInt (n : ℤ) : PyM RF Unit := do
  PyM.modify fun s => { s with added := s.added + n }
  updateParams

/-- lhs_evaluators.py:278-283, the property `numerator_p_symbolic`. -/
noncomputable def numeratorSym : PyM RF ℤ[X] := fun s =>
  match s.numSym, s.numStale with
  | some p, false => (s, .ok p)
  | _, _ =>
    match poly2sympoly s.num with
    | .error e => (s, .error e)
    | .ok p => ({ s with numSym := some p, numStale := false }, .ok p)

/-- lhs_evaluators.py:291-296, the property `denominator_p_symbolic`. -/
noncomputable def denominatorSym : PyM RF ℤ[X] := fun s =>
  match s.denSym, s.denStale with
  | some p, false => (s, .ok p)
  | _, _ =>
    match poly2sympoly s.den with
    | .error e => (s, .error e)
    | .ok p => ({ s with denSym := some p, denStale := false }, .ok p)

/-- Raise or return. -/
def lift {α : Type} : Except PyErr α → PyM RF α
  | .ok a => pure a
  | .error e => PyM.raise e

/-- `f.div(g)` (with `auto=True`): division over `QQ`. -/
noncomputable def qqDiv (f g : ℤ[X]) : Except PyErr (ℚ[X] × ℚ[X]) :=
  open Classical in
  if g = 0 then .error .zeroDivision else .ok (toQ f / toQ g, toQ f % toQ g)

/-- lhs_evaluators.py:433-453; `math.ceil` of a sympy number is an int (sympy 1.3, requirements.txt: it goes through a float,
which is taken to be exact). -/
noncomputable def canonalizeParams : PyM RF Unit := do
  let s ← PyM.get
  if s.canon then pure ()
  else do
    let n ← numeratorSym
    let d ← denominatorSym
    let g := polyGcd n d
    let n1 ← lift (rrDiv n g)
    let d1 ← lift (rrDiv d g)
    let qr ← lift (qqDiv n1.1 d1.1)
    let k := ⌈qr.1.coeff 0⌉
    PyM.modify fun s => { s with added := s.added + k }
    PyM.modify fun s => { s with num := sympoly2polyQ ((qr.1 - C (k : ℚ)) * toQ d1.1 + qr.2) }
    PyM.modify fun s => { s with den := sympoly2poly d1.1 }
    PyM.modify fun s => { s with canon := true }
    updateParams

/-- lhs_evaluators.py:455-460 -/
noncomputable def isDegenerate : PyM RF Bool := do
  canonalizeParams
  let s ← PyM.get
  pure (decide ((s.num.length = 1 ∧ s.den.length = 1) ∨ s.num.length = 0 ∨ s.num = [0]))

end RF

/-- `INVERSE_POSTPROC_PAIRS` (postprocfuncs.py:109-111) for the 24 functions of `POSTPROC_FUNCS`, which are all
different: `(0, 1), (2, 3), …` and the swapped pairs. -/
def inversePair (i j : ℕ) : Bool := decide (i / 2 = j / 2 ∧ i ≠ j ∧ i < 24)

/-- lhs_evaluators.py:338-381 `RationalFuncEvaluator.is_equiv` for two results whose left hand sides are (different)
rational function objects.  The objects are canonicalised as a side effect: the new states are returned. -/
noncomputable def rfIsEquiv (a1 b1 : Polys) (s1 : RF) (post1 : ℕ) (a2 b2 : Polys) (s2 : RF) (post2 : ℕ) :
    RF × RF × Except PyErr Bool :=
  if inversePair post1 post2 = false ∧ post1 ≠ post2 then (s1, s2, .ok false)
  else
    match s1.canonalizeParams with
    | (s1, .error e) => (s1, s2, .error e)
    | (s1, .ok ()) =>
      match s2.canonalizeParams with
      | (s2, .error e) => (s1, s2, .error e)
      | (s2, .ok ()) =>
        match s1.numeratorSym with
        | (s1, .error e) => (s1, s2, .error e)
        | (s1, .ok n1) =>
          match s1.denominatorSym with
          | (s1, .error e) => (s1, s2, .error e)
          | (s1, .ok d1) =>
            match rrDiv n1 d1 with
            | .error e => (s1, s2, .error e)
            | .ok (q1, r1) =>
              match s2.numeratorSym with
              | (s2, .error e) => (s1, s2, .error e)
              | (s2, .ok n2) =>
                match s2.denominatorSym with
                | (s2, .error e) => (s1, s2, .error e)
                | (s2, .ok d2) =>
                  match (if inversePair post1 post2 then rrDiv d2 n2 else rrDiv n2 d2) with
                  | .error e => (s1, s2, .error e)
                  | .ok (q2, r2) =>
                    open Classical in
                    (s1, s2, .ok (decide (b1 = b2 ∧ (a1 = a2 ∨ a1 = negTuple a2) ∧
                      q1 - C (q1.eval 0) = q2 - C (q2.eval 0) ∧ r1 = r2)))

/-! ## Enumeration -/

/-- lhs_evaluators.py:507-523, the attributes of a `RationalFuncEnumerator`. -/
structure RFEnum where
  num : List Rng
  den : List Rng
  bigger : Bool
  x : ℚ
  iterLen : ℤ

/-- `reduce(operator.mul, l)`; raises TypeError for an empty list. -/
def reduceMul : List ℤ → Except PyErr ℤ
  | [] => .error .typeError
  | c :: cs => .ok (cs.foldl (· * ·) c)

/-- lhs_evaluators.py:509-523 -/
def RFEnum.init (num den : List Rng) (bigger : Bool) (x : ℚ) : Except PyErr RFEnum := do
  let n ← reduceMul (num.map fun c => c.2 - c.1)
  let d ← reduceMul (den.map fun c => c.2 - c.1)
  return ⟨num, den, bigger, x, n * d⟩

/-- `len(list(dropwhile(lambda x: x == 0, reversed(coeffs))))` (lhs_evaluators.py:545-546) -/
def strippedLen (coeffs : List ℤ) : ℕ := (coeffs.reverse.dropWhile (· == 0)).length

/-- The inner loop body of lhs_evaluators.py:540-557: what is yielded for one pair. -/
def RFEnum.body (e : RFEnum) (n d : List ℤ) : List RF :=
  if !d.any (· != 0) then []
  else if strippedLen n < 2 ∧ strippedLen d < 2 then []
  else if e.bigger = true ∧ strippedLen n < strippedLen d then []
  else if Utils.subsInPolynom (n.map (Int.cast : ℤ → ℚ)) e.x = 0 ∨ Utils.subsInPolynom (d.map (Int.cast : ℤ → ℚ)) e.x = 0 then []
  else [RF.init (n, d, 0) e.x]

/-- lhs_evaluators.py:525-557 -/
def RFEnum.generator (e : RFEnum) : List RF :=
  (product (e.num.map pyRange)).flatMap fun n =>
    if !n.any (· != 0) then []
    else (product (e.den.map pyRange)).flatMap fun d => e.body n d

end PiCF.Lhs
