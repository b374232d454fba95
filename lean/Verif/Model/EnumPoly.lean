import Mathlib.Data.Int.Sqrt
import Mathlib.Data.Nat.Choose.Basic
import Mathlib.Data.List.Permutation
import Mathlib.Data.List.Dedup
import Mathlib.Algebra.BigOperators.Group.List.Basic
import Verif.Model.ContFrac

/-!
# Model of `enum_poly_params.py`
-/

namespace PiCF.EnumPoly
open PiCF.ContFrac

/-- A polynomial as a tuple of coefficients, constant term first. -/
abbrev Poly := List ℤ

/-- Interlaced polynomials. -/
abbrev Polys := List Poly

/-- `[m, n]`: coefficients from `m` to `n - 1` (enum_poly_params.py:96). -/
abbrev Rng := ℤ × ℤ

/-- One list of coefficient ranges per interlaced polynomial. -/
abbrev Ranges := List (List Rng)

/-! ## Helpers from the standard library -/

/-- `range(lo, hi)` -/
def pyRange (r : Rng) : List ℤ := (List.range (r.2 - r.1).toNat).map fun n : ℕ => r.1 + n

/-- `itertools.product(*ls)`: the last list varies fastest. -/
def product {α : Type} : List (List α) → List (List α)
  | [] => [[]]
  | l :: ls => l.flatMap fun x => (product ls).map (x :: ·)

/-- `itertools.combinations(l, k)` -/
def combinations {α : Type} : List α → ℕ → List (List α)
  | _, 0 => [[]]
  | [], _ + 1 => []
  | x :: xs, k + 1 => (combinations xs k).map (x :: ·) ++ combinations xs (k + 1)

/-- `itertools.combinations_with_replacement(l, m)` -/
def combinationsWR {α : Type} : List α → ℕ → List (List α)
  | _, 0 => [[]]
  | [], _ + 1 => []
  | x :: xs, m + 1 => (combinationsWR (x :: xs) m).map (x :: ·) ++ combinationsWR xs (m + 1)

/-! ## Static methods -/

/-- enum_poly_params.py:181-185 `_factor_out_polynom`.  (`takewhile` stops at the first zero, unlike the
docstring says.) -/
def factorOut (p : Poly) : Poly := (p.dropWhile (· == 0)).takeWhile (· != 0)

/-- enum_poly_params.py:146-169 `_does_have_integer_roots`.  `isint` of a quotient is taken exactly; an
irrational square root never gives an integer.  The test with floats is `hasIntRootsF` in `Model/FloatRoots.lean`; for coefficients
below `2^20` it is the same (C124). -/
def hasIntRoots (p : Poly) : Bool :=
  match factorOut p with
  | [] => true
  | [_] => false
  | [c0, c1] => decide (c1 ∣ c0) && (decide (c0 > 0) != decide (c1 > 0))
  | [c0, c1, c2] =>
    let discrim := c1 ^ 2 - 4 * c0 * c2
    if discrim < 0 then false
    else
      let r := Int.sqrt discrim
      if r * r = discrim then decide (2 * c0 ∣ r - c1) || decide (2 * c0 ∣ -r - c1) else false
  | _ => false

/-- enum_poly_params.py:171-179 `_polynom_degree`: the loop over `p[::-1]`. -/
def degreeLoop : Poly → ℤ → ℤ
  | [], deg => deg
  | i :: rest, deg => if i ≠ 0 then deg else degreeLoop rest (deg - 1)

/-- enum_poly_params.py:171-179 `_polynom_degree` -/
def polynomDegree (p : Poly) : ℤ := degreeLoop p.reverse p.length - 1

/-! ## `manipulate_poly` of the three classes -/

/-- The second argument of `manipulate_poly`. -/
inductive Side where
  | a | b
  deriving DecidableEq, Repr

/-- What `manipulate_poly` yields; an error stands for an exception raised at that point. -/
abbrev Manip := Side → Polys → List (Except PyErr Polys)

/-- enum_poly_params.py:187-189 -/
def manipBasic : Manip := fun _ ps => [.ok ps]

/-- enum_poly_params.py:213-223, one polynomial: for every `i, a_i` the inner loop adds
`a_i * int(binom(deg_p, j)) * i**(deg_p-j)` to `p_new[j]`.  `scipy.special.binom` is a float; `int` of it is the
binomial coefficient as long as that is below `2^53`. -/
def indexedPoly (p : Poly) : Poly :=
  let deg := p.length - 1
  (List.range p.length).map fun j =>
    ((List.range p.length).map fun i => p.getD i 0 * (Nat.choose deg j : ℤ) * (i : ℤ) ^ (deg - j)).sum

/-- enum_poly_params.py:208-224 -/
def manipIndexed : Manip := fun _ ps => [.ok (ps.map indexedPoly)]

/-- enum_poly_params.py:271, one polynomial: `p[mask.index(i)] if i in mask else 0` for `i in range(n)`. -/
def applyMask (n : ℕ) (p : Poly) (mask : List ℕ) : Except PyErr Poly :=
  (List.range n).mapM fun i =>
    if i ∈ mask then
      match p[mask.idxOf i]? with
      | some c => .ok c
      | none => .error .indexError
    else .ok 0

/-- enum_poly_params.py:268-273 `_apply_poly_template_on_coeffs_list` -/
def applyMasks (n : ℕ) (ps : Polys) (masks : List (List ℕ)) : Except PyErr Polys :=
  (ps.zip masks).mapM fun pm => applyMask n pm.1 pm.2

/-- All tuples of masks in the order in which they are used, enum_poly_params.py:254-265.  `setOrder` is the iteration
order of a python `set` built from the given list. -/
def masksList (setOrder : List (List (List ℕ)) → List (List (List ℕ))) (n k m : ℕ) : List (List (List ℕ)) :=
  (combinationsWR (combinations (List.range n) k) m).flatMap fun masks => setOrder masks.permutations

/-- enum_poly_params.py:250-266 `SparseParameterEnumPolyParams.manipulate_poly`; `poly[0]` of an empty tuple raises
IndexError. -/
def manipSparse (setOrder : List (List (List ℕ)) → List (List (List ℕ))) (nA nB : ℕ) : Manip := fun side ps =>
  match ps with
  | [] => [.error .indexError]
  | p :: _ =>
    let n := if side = .a then nA else nB
    (masksList setOrder n p.length ps.length).map (applyMasks n ps)

/-! ## `polys_generator` -/

/-- The attributes set by `__init__` (enum_poly_params.py:50-81) that `polys_generator` uses. -/
structure Config where
  numIters : ℕ := 300
  expOnly : Bool := false
  avoidIntRoots : Bool := true
  genContFrac : Bool := true
  avoidZeroB : Bool := true

/-- A yielded tuple: `(pas, pbs)`, and with `should_gen_contfrac` also the state of the (shared) `ContFrac` object at
that moment. -/
structure Item where
  pas : Polys
  pbs : Polys
  cf : Option CF

/-- The shared object and what has been yielded. -/
structure St where
  cf : CF
  out : List Item

/-- enum_poly_params.py:126-129: an interlace of identical polynomials becomes a single one. -/
def squeeze (ps : Polys) : Polys :=
  if ps.length > 1 ∧ ps.all (fun p => ps.headD [] == p) then [ps.headD []] else ps

/-- enum_poly_params.py:120-144, the body of the innermost loop.  Returns the (possibly reassigned) variable
`pas`. -/
def body (cfg : Config) (pas pbs : Polys) : PyM St Polys := fun s =>
  if cfg.avoidIntRoots && pbs.any hasIntRoots then (s, .ok pas)
  else
    let pas := squeeze pas
    let pbs := squeeze pbs
    if pas.length = 1 ∧ pbs.length = 1 ∧ cfg.expOnly = true ∧
        polynomDegree (pbs.headD []) > 2 * polynomDegree (pas.headD []) then (s, .ok pas)
    else if cfg.genContFrac then
      match reinitialize (some pas) (some pbs) none s.cf with
      | (cf, .error e) => ({ s with cf := cf }, .error e)
      | (cf, .ok ()) =>
        match genIterations cfg.numIters true cf with
        | (cf, .error (.zeroB _)) => ({ s with cf := cf }, .ok pas)
        | (cf, .error e) => ({ s with cf := cf }, .error e)
        | (cf, .ok ()) => (⟨cf, s.out ++ [⟨pas, pbs, some cf⟩]⟩, .ok pas)
    else ({ s with out := s.out ++ [⟨pas, pbs, none⟩] }, .ok pas)

/-- The loop of line 120. -/
def manipLoopB (cfg : Config) : List (Except PyErr Polys) → Polys → PyM St Polys
  | [], pas => pure pas
  | .error e :: _, _ => PyM.raise e
  | .ok pbs :: rest, pas => do
    let pas ← body cfg pas pbs
    manipLoopB cfg rest pas

/-- The loop of line 117. -/
def loopB (cfg : Config) (manip : Manip) : List Polys → Polys → PyM St Polys
  | [], pas => pure pas
  | pbs :: rest, pas => do
    let pas ← manipLoopB cfg (manip .b pbs) pas
    loopB cfg manip rest pas

/-- The coefficient tuples, enum_poly_params.py:108 and 115-116. -/
def coeffTuples (rs : Ranges) : List Polys := product (rs.map fun r => product (r.map pyRange))

/-- The loop of line 113. -/
def manipLoopA (cfg : Config) (manip : Manip) (rb : Ranges) : List (Except PyErr Polys) → PyM St Unit
  | [] => pure ()
  | .error e :: _ => PyM.raise e
  | .ok pas :: rest => do
    let _ ← loopB cfg manip (coeffTuples rb) pas
    manipLoopA cfg manip rb rest

/-- The loop of line 109. -/
def loopA (cfg : Config) (manip : Manip) (rb : Ranges) : List Polys → PyM St Unit
  | [] => pure ()
  | pas :: rest => do
    manipLoopA cfg manip rb (manip .a pas)
    loopA cfg manip rb rest

/-- enum_poly_params.py:91-144 `polys_generator`, run to the end: everything that is yielded, and how the generator ends
(normally or with an exception).  The consumer is assumed not to modify the shared `ContFrac` object. -/
def polysGenerator (manip : Manip) (cfg : Config) (ra rb : Ranges) : List Item × Except PyErr Unit :=
  match ContFrac.init [[1]] [[1]] cfg.avoidZeroB none false with
  | .error e => ([], .error e)
  | .ok cf =>
    let r := loopA cfg manip rb (coeffTuples ra) ⟨cf, []⟩
    (r.1.out, r.2)

/-! ## `_len_decorator` -/

/-- enum_poly_params.py:25-31: the product of all `r[1] - r[0]`. -/
def genLen (ra rb : Ranges) : ℤ :=
  ((ra.map fun ar => (ar.map fun r => r.2 - r.1).prod).prod) * (rb.map fun br => (br.map fun r => r.2 - r.1).prod).prod

/-- enum_poly_params.py:34-35, classes without `len_factor_func` -/
def lenEstimate (ra rb : Ranges) : ℤ := genLen ra rb

/-- enum_poly_params.py:32-33 and 244-245, the sparse class; `range_a[0]` of an empty list raises IndexError. -/
def lenEstimateSparse (nA nB : ℕ) (ra rb : Ranges) : Except PyErr ℤ :=
  match ra, rb with
  | a :: _, b :: _ => .ok (genLen ra rb * (Nat.choose nA a.length * Nat.choose nB b.length : ℕ))
  | _, _ => .error .indexError

end PiCF.EnumPoly
