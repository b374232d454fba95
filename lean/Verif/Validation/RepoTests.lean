import Verif.Model.RationalFunc
import Verif.Model.Ulcd

/-!
# The expected values of the tests of the repository

Generated by tools/gen_validation.py from the tables in /repo/tests.  Every `example` states that the model gives the value that
the authors of the code expect.  These are checks of the model against an independent source, not properties.
-/

namespace PiCF.Validation
open PiCF.Utils PiCF.EnumPoly PiCF.Lhs

/-- Equality of two lists as sets, `symmetric_difference(…) == set()`. -/
def sameSet {α : Type} [DecidableEq α] (xs ys : List α) : Bool := xs.all (ys.contains ·) && ys.all (xs.contains ·)

/-- The configuration of the fixtures (tests/test_enum_poly_params.py:5-9, 116-118, 171-174). -/
def cfg : Config := { numIters := 10, expOnly := false, avoidIntRoots := true, genContFrac := true, avoidZeroB := true }

/-- What the tests compare: the set of the pairs of coefficients; every item has a `ContFrac`, and the generator ends normally. -/
def check (r : List Item × Except PyErr Unit) (expected : List (Polys × Polys)) : Bool :=
  sameSet (r.1.map fun x => (x.pas, x.pbs)) expected && r.1.all (·.cf.isSome) && (match r.2 with | .ok () => true | .error _ => false)

/-! ### tests/test_utils.py:31 -/

example : Utils.gcd (1480) (276) = 4 := by decide +kernel
example : Utils.gcd (3) (0) = 3 := by decide +kernel
example : Utils.gcd (1) (5) = 1 := by decide +kernel
example : Utils.gcd (6) (-4) = -2 := by decide +kernel

/-! ### tests/test_utils.py:41 -/

example : subsInPolynom (R := ℤ) [1, 2, 3, 4, 5] (7) = 13539 := by decide +kernel
example : subsInPolynom (R := ℤ) [1, 2, 3, 4, 5] (-5) = 2691 := by decide +kernel
example : subsInPolynom (R := ℤ) [1, -2, 0, -4, 5] (3) = 292 := by decide +kernel
example : subsInPolynom (R := ℤ) [1, -2, 0, -4, 5] (-5) = 3636 := by decide +kernel

/-! ### tests/test_enum_poly_params.py:17 -/

-- The test expects `true`; the code tests `(poly[0] > 0) != (poly[1] > 0)`, so it misses the root -2.
example : hasIntRoots [0, 0, 10, 5, 0, 0] = false := by decide +kernel
-- The test expects `true`; the code tests `(poly[0] > 0) != (poly[1] > 0)`, so it misses the root -2.
example : hasIntRoots [10, 5] = false := by decide +kernel
example : hasIntRoots [-1, 3, 1] = false := by decide +kernel
example : polynomDegree [0, 1, 1, 0, 0] = 2 := by decide +kernel

/-! ### tests/test_enum_poly_params.py:29 -/

example : factorOut [0, 0, 10, 5, 0, 0] = [10, 5] := by decide +kernel
example : factorOut [0, 0, 0, 0] = [] := by decide +kernel

/-! ### tests/test_enum_poly_params.py:104 -/

example : check (polysGenerator manipBasic cfg [[(-1, 2), (-2, 1), (1, 3)]] [[(1, 4)]])
   [([[-1, -2, 1]], [[1]]),
    ([[-1, -2, 1]], [[2]]),
    ([[-1, -2, 1]], [[3]]),
    ([[-1, -2, 2]], [[1]]),
    ([[-1, -2, 2]], [[2]]),
    ([[-1, -2, 2]], [[3]]),
    ([[-1, -1, 1]], [[1]]),
    ([[-1, -1, 1]], [[2]]),
    ([[-1, -1, 1]], [[3]]),
    ([[-1, -1, 2]], [[1]]),
    ([[-1, -1, 2]], [[2]]),
    ([[-1, -1, 2]], [[3]]),
    ([[-1, 0, 1]], [[1]]),
    ([[-1, 0, 1]], [[2]]),
    ([[-1, 0, 1]], [[3]]),
    ([[-1, 0, 2]], [[1]]),
    ([[-1, 0, 2]], [[2]]),
    ([[-1, 0, 2]], [[3]]),
    ([[0, -2, 1]], [[1]]),
    ([[0, -2, 1]], [[2]]),
    ([[0, -2, 1]], [[3]]),
    ([[0, -2, 2]], [[1]]),
    ([[0, -2, 2]], [[2]]),
    ([[0, -2, 2]], [[3]]),
    ([[0, -1, 1]], [[1]]),
    ([[0, -1, 1]], [[2]]),
    ([[0, -1, 1]], [[3]]),
    ([[0, -1, 2]], [[1]]),
    ([[0, -1, 2]], [[2]]),
    ([[0, -1, 2]], [[3]]),
    ([[0, 0, 1]], [[1]]),
    ([[0, 0, 1]], [[2]]),
    ([[0, 0, 1]], [[3]]),
    ([[0, 0, 2]], [[1]]),
    ([[0, 0, 2]], [[2]]),
    ([[0, 0, 2]], [[3]]),
    ([[1, -2, 1]], [[1]]),
    ([[1, -2, 1]], [[2]]),
    ([[1, -2, 1]], [[3]]),
    ([[1, -2, 2]], [[1]]),
    ([[1, -2, 2]], [[2]]),
    ([[1, -2, 2]], [[3]]),
    ([[1, -1, 1]], [[1]]),
    ([[1, -1, 1]], [[2]]),
    ([[1, -1, 1]], [[3]]),
    ([[1, -1, 2]], [[1]]),
    ([[1, -1, 2]], [[2]]),
    ([[1, -1, 2]], [[3]]),
    ([[1, 0, 1]], [[1]]),
    ([[1, 0, 1]], [[2]]),
    ([[1, 0, 1]], [[3]]),
    ([[1, 0, 2]], [[1]]),
    ([[1, 0, 2]], [[2]]),
    ([[1, 0, 2]], [[3]])] = true := by decide +kernel
example : check (polysGenerator manipBasic cfg [[(-1, 1), (-2, -1)], [(6, 8)]] [[(1, 2)], [(4, 6)]])
   [([[-1, -2], [6]], [[1], [4]]),
    ([[-1, -2], [6]], [[1], [5]]),
    ([[-1, -2], [7]], [[1], [4]]),
    ([[-1, -2], [7]], [[1], [5]]),
    ([[0, -2], [6]], [[1], [4]]),
    ([[0, -2], [6]], [[1], [5]]),
    ([[0, -2], [7]], [[1], [4]]),
    ([[0, -2], [7]], [[1], [5]])] = true := by decide +kernel
-- The test does not expect `(4, 2)`: the same root -2.
example : check (polysGenerator manipBasic cfg [[(1, 2)]] [[(4, 5), (2, 4)]])
   [([[1]], [[4, 2]]),
    ([[1]], [[4, 3]])] = true := by decide +kernel

/-! ### tests/test_enum_poly_params.py:120 -/

example : check (polysGenerator manipIndexed cfg [[(1, 3), (9, 10)]] [[(4, 5), (2, 4), (1, 2)]])
   [([[9, 10]], [[6, 8, 7]]),
    ([[9, 10]], [[7, 10, 8]]),
    ([[9, 11]], [[6, 8, 7]]),
    ([[9, 11]], [[7, 10, 8]])] = true := by decide +kernel

/-- `permutations` of short lists. -/
def perms {α : Type} : List α → List (List α)
  | [x] => [[x]]
  | [x, y] => [[x, y], [y, x]]
  | l => l.permutations

theorem permutations_eq {α : Type} (l : List α) : l.permutations = perms l := by
  match l with
  | [] => rfl
  | [x] => simp [List.permutations, perms]
  | [x, y] => simp [List.permutations, perms]
  | _ :: _ :: _ :: _ => rfl

/-- `combinations_with_replacement` by recursion on the length. -/
def withRep {α : Type} : ℕ → List α → List (List α)
  | 0, _ => [[]]
  | m + 1, xs => go (withRep m) xs
where
  go (f : List α → List (List α)) : List α → List (List α)
    | [] => []
    | x :: xs => (f (x :: xs)).map (x :: ·) ++ go f xs

theorem combinationsWR_eq {α : Type} : ∀ (m : ℕ) (xs : List α), combinationsWR xs m = withRep m xs
  | 0, xs => by rw [combinationsWR, withRep]
  | m + 1, xs => by
    rw [withRep]
    induction xs with
    | nil => rw [combinationsWR, withRep.go]
    | cons x xs ih => rw [combinationsWR, withRep.go, ih, combinationsWR_eq m]

/-- `manipSparse id` by `perms` and `withRep`. -/
def sparse (nA nB : ℕ) : Manip := fun side ps =>
  match ps with
  | [] => [.error .indexError]
  | p :: _ =>
    let n := if side = .a then nA else nB
    ((withRep ps.length (combinations (List.range n) p.length)).flatMap perms).map (applyMasks n ps)

theorem sparse_eq (nA nB : ℕ) : manipSparse id nA nB = sparse nA nB := by
  funext side ps
  cases ps with
  | nil => rfl
  | cons p ps => simp only [manipSparse, sparse, masksList, id, permutations_eq, combinationsWR_eq]


/-! ### tests/test_enum_poly_params.py:174, for the sets iterated in the order of the permutations -/

example : check (polysGenerator (manipSparse id 3 3) cfg [[(1, 3), (9, 10)]] [[(4, 5), (2, 4), (1, 2)]])
   [([[0, 1, 9]], [[4, 2, 1]]),
    ([[0, 1, 9]], [[4, 3, 1]]),
    ([[0, 2, 9]], [[4, 2, 1]]),
    ([[0, 2, 9]], [[4, 3, 1]]),
    ([[1, 0, 9]], [[4, 2, 1]]),
    ([[1, 0, 9]], [[4, 3, 1]]),
    ([[1, 9, 0]], [[4, 2, 1]]),
    ([[1, 9, 0]], [[4, 3, 1]]),
    ([[2, 0, 9]], [[4, 2, 1]]),
    ([[2, 0, 9]], [[4, 3, 1]]),
    ([[2, 9, 0]], [[4, 2, 1]]),
    ([[2, 9, 0]], [[4, 3, 1]])] = true := by
  rw [sparse_eq]; decide +kernel
example : check (polysGenerator (manipSparse id 2 3) cfg [[(1, 3)], [(6, 7)]] [[(10, 11)]])
   [([[0, 1], [0, 6]], [[0, 0, 10]]),
    ([[0, 1], [0, 6]], [[0, 10, 0]]),
    ([[0, 1], [0, 6]], [[10, 0, 0]]),
    ([[0, 1], [6, 0]], [[0, 0, 10]]),
    ([[0, 1], [6, 0]], [[0, 10, 0]]),
    ([[0, 1], [6, 0]], [[10, 0, 0]]),
    ([[0, 2], [0, 6]], [[0, 0, 10]]),
    ([[0, 2], [0, 6]], [[0, 10, 0]]),
    ([[0, 2], [0, 6]], [[10, 0, 0]]),
    ([[0, 2], [6, 0]], [[0, 0, 10]]),
    ([[0, 2], [6, 0]], [[0, 10, 0]]),
    ([[0, 2], [6, 0]], [[10, 0, 0]]),
    ([[1, 0], [0, 6]], [[0, 0, 10]]),
    ([[1, 0], [0, 6]], [[0, 10, 0]]),
    ([[1, 0], [0, 6]], [[10, 0, 0]]),
    ([[1, 0], [6, 0]], [[0, 0, 10]]),
    ([[1, 0], [6, 0]], [[0, 10, 0]]),
    ([[1, 0], [6, 0]], [[10, 0, 0]]),
    ([[2, 0], [0, 6]], [[0, 0, 10]]),
    ([[2, 0], [0, 6]], [[0, 10, 0]]),
    ([[2, 0], [0, 6]], [[10, 0, 0]]),
    ([[2, 0], [6, 0]], [[0, 0, 10]]),
    ([[2, 0], [6, 0]], [[0, 10, 0]]),
    ([[2, 0], [6, 0]], [[10, 0, 0]])] = true := by
  rw [sparse_eq]; decide +kernel

/-! ### tests/test_lhs_evaluators.py:21, for a rational target -/

/-- The three assertions for one tuple of parameters and one target. -/
def checkUlcd (u l c d : ℤ) (x : ℚ) : Bool :=
  match Ulcd.init (u, l, c, d) x with
  | .error _ => false
  | .ok s =>
    let e := (u / x + x / l + c) / d
    let r := s.addInt 3
    let r' := r.1.flipSign
    decide (s.val = e) && decide (r.1.val = e + 3) && decide (r'.1.val = -(e + 3)) && (match r.2, r'.2 with | .ok (), .ok () => true | _, _ => false)

example : checkUlcd (1) (2) (3) (4) (355 / 113) = true := by decide +kernel
example : checkUlcd (10) (12) (59) (9) (355 / 113) = true := by decide +kernel
example : checkUlcd (0) (1) (0) (1) (355 / 113) = true := by decide +kernel
example : checkUlcd (-9) (18) (7) (-3) (355 / 113) = true := by decide +kernel

/-! ### tests/test_lhs_evaluators.py:44, for a rational target -/

/-- The three assertions for one pair of polynomials and one target. -/
def checkRF (n d : List ℤ) (x : ℚ) : Bool :=
  let s := RF.init (n, d, 0) x
  let e := subsInPolynom (n.map (Int.cast : ℤ → ℚ)) x / subsInPolynom (d.map (Int.cast : ℤ → ℚ)) x
  let r := s.addInt 3
  let r' := r.1.flipSign
  decide (s.val = .fin e) && decide (r.1.val = .fin (e + 3)) && decide (r'.1.val = .fin (-(e + 3))) &&
    (match r.2, r'.2 with | .ok (), .ok () => true | _, _ => false)

example : checkRF [0, 1, 1, 5] [5] (355 / 113) = true := by decide +kernel
example : checkRF [1, -8, 17] [2, 3, 4] (355 / 113) = true := by decide +kernel
example : checkRF [1, -8, 17] [19, -12, 5, 20] (355 / 113) = true := by decide +kernel
example : checkRF [1] [19, 1] (355 / 113) = true := by decide +kernel

/-! ### tests/test_lhs_evaluators.py:81 -/

def ulcdParams (e : Except PyErr UlcdEnum) : List (ℤ × ℤ × ℤ × ℤ) :=
  match e with
  | .ok e => e.generator.1.map (·.params)
  | .error _ => []

example : sameSet (ulcdParams (UlcdEnum.init (.two (-1) (2)) (.two (-1) (2)) (.two (-1) (2)) (.two (-1) (2)) 1))
   [(-1, -1, 0, -1),
    (-1, -1, 0, 1),
    (-1, 1, 0, -1),
    (-1, 1, 0, 1),
    (0, -1, 0, -1),
    (0, -1, 0, 1),
    (0, 1, 0, -1),
    (0, 1, 0, 1),
    (1, -1, 0, -1),
    (1, -1, 0, 1),
    (1, 1, 0, -1),
    (1, 1, 0, 1)] = true := by decide +kernel
example : sameSet (ulcdParams (UlcdEnum.init (.two (1) (2)) (.two (1) (2)) (.two (-3) (5)) (.two (-2) (2)) 1))
   [(1, 1, -1, -2),
    (1, 1, 0, -2),
    (1, 1, 0, -1),
    (1, 1, 0, 1),
    (1, 1, 1, -2)] = true := by decide +kernel

/-! ### tests/test_lhs_evaluators.py:211 -/

def rfParams (e : Except PyErr RFEnum) : List (List ℤ × List ℤ) :=
  match e with
  | .ok e => e.generator.map fun s => (s.params.1, s.params.2.1)
  | .error _ => []

example : sameSet (rfParams (RFEnum.init [(-1, 2), (-1, 2)] [(-1, 2), (-1, 2)] false 5))
   [([-1, -1], [-1, -1]),
    ([-1, -1], [-1, 0]),
    ([-1, -1], [-1, 1]),
    ([-1, -1], [0, -1]),
    ([-1, -1], [0, 1]),
    ([-1, -1], [1, -1]),
    ([-1, -1], [1, 0]),
    ([-1, -1], [1, 1]),
    ([-1, 0], [-1, -1]),
    ([-1, 0], [-1, 1]),
    ([-1, 0], [0, -1]),
    ([-1, 0], [0, 1]),
    ([-1, 0], [1, -1]),
    ([-1, 0], [1, 1]),
    ([-1, 1], [-1, -1]),
    ([-1, 1], [-1, 0]),
    ([-1, 1], [-1, 1]),
    ([-1, 1], [0, -1]),
    ([-1, 1], [0, 1]),
    ([-1, 1], [1, -1]),
    ([-1, 1], [1, 0]),
    ([-1, 1], [1, 1]),
    ([0, -1], [-1, -1]),
    ([0, -1], [-1, 0]),
    ([0, -1], [-1, 1]),
    ([0, -1], [0, -1]),
    ([0, -1], [0, 1]),
    ([0, -1], [1, -1]),
    ([0, -1], [1, 0]),
    ([0, -1], [1, 1]),
    ([0, 1], [-1, -1]),
    ([0, 1], [-1, 0]),
    ([0, 1], [-1, 1]),
    ([0, 1], [0, -1]),
    ([0, 1], [0, 1]),
    ([0, 1], [1, -1]),
    ([0, 1], [1, 0]),
    ([0, 1], [1, 1]),
    ([1, -1], [-1, -1]),
    ([1, -1], [-1, 0]),
    ([1, -1], [-1, 1]),
    ([1, -1], [0, -1]),
    ([1, -1], [0, 1]),
    ([1, -1], [1, -1]),
    ([1, -1], [1, 0]),
    ([1, -1], [1, 1]),
    ([1, 0], [-1, -1]),
    ([1, 0], [-1, 1]),
    ([1, 0], [0, -1]),
    ([1, 0], [0, 1]),
    ([1, 0], [1, -1]),
    ([1, 0], [1, 1]),
    ([1, 1], [-1, -1]),
    ([1, 1], [-1, 0]),
    ([1, 1], [-1, 1]),
    ([1, 1], [0, -1]),
    ([1, 1], [0, 1]),
    ([1, 1], [1, -1]),
    ([1, 1], [1, 0]),
    ([1, 1], [1, 1])] = true := by decide +kernel
example : sameSet (rfParams (RFEnum.init [(-1, 2), (-1, 2)] [(-1, 2), (-1, 2)] false 1))
   [([-1, -1], [-1, -1]),
    ([-1, -1], [-1, 0]),
    ([-1, -1], [0, -1]),
    ([-1, -1], [0, 1]),
    ([-1, -1], [1, 0]),
    ([-1, -1], [1, 1]),
    ([-1, 0], [-1, -1]),
    ([-1, 0], [0, -1]),
    ([-1, 0], [0, 1]),
    ([-1, 0], [1, 1]),
    ([0, -1], [-1, -1]),
    ([0, -1], [-1, 0]),
    ([0, -1], [0, -1]),
    ([0, -1], [0, 1]),
    ([0, -1], [1, 0]),
    ([0, -1], [1, 1]),
    ([0, 1], [-1, -1]),
    ([0, 1], [-1, 0]),
    ([0, 1], [0, -1]),
    ([0, 1], [0, 1]),
    ([0, 1], [1, 0]),
    ([0, 1], [1, 1]),
    ([1, 0], [-1, -1]),
    ([1, 0], [0, -1]),
    ([1, 0], [0, 1]),
    ([1, 0], [1, 1]),
    ([1, 1], [-1, -1]),
    ([1, 1], [-1, 0]),
    ([1, 1], [0, -1]),
    ([1, 1], [0, 1]),
    ([1, 1], [1, 0]),
    ([1, 1], [1, 1])] = true := by decide +kernel
example : sameSet (rfParams (RFEnum.init [(-1, 2), (-1, 2)] [(-1, 2), (-1, 2)] true 1))
   [([-1, -1], [-1, -1]),
    ([-1, -1], [-1, 0]),
    ([-1, -1], [0, -1]),
    ([-1, -1], [0, 1]),
    ([-1, -1], [1, 0]),
    ([-1, -1], [1, 1]),
    ([0, -1], [-1, -1]),
    ([0, -1], [-1, 0]),
    ([0, -1], [0, -1]),
    ([0, -1], [0, 1]),
    ([0, -1], [1, 0]),
    ([0, -1], [1, 1]),
    ([0, 1], [-1, -1]),
    ([0, 1], [-1, 0]),
    ([0, 1], [0, -1]),
    ([0, 1], [0, 1]),
    ([0, 1], [1, 0]),
    ([0, 1], [1, 1]),
    ([1, 1], [-1, -1]),
    ([1, 1], [-1, 0]),
    ([1, 1], [0, -1]),
    ([1, 1], [0, 1]),
    ([1, 1], [1, 0]),
    ([1, 1], [1, 1])] = true := by decide +kernel

end PiCF.Validation
