import Mathlib.Data.List.Forall2
import Verif.Spec.ContFrac

/-!
# Specification vocabulary for the enumeration properties (C34-C41)
-/

namespace PiCF.Spec

/-- Interlaced polynomials with coefficients in half-open ranges: same shape, every coefficient in its range. -/
def InRanges (rs : List (List (ℤ × ℤ))) (ps : List (List ℤ)) : Prop :=
  List.Forall₂ (List.Forall₂ fun (r : ℤ × ℤ) (c : ℤ) => r.1 ≤ c ∧ c < r.2) rs ps

/-- `ps'` is `ps`, except that two or more copies of the same polynomial are written once. -/
def Squeezed (ps ps' : List (List ℤ)) : Prop :=
  (∃ m p, ps = List.replicate (m + 2) p ∧ ps' = [p]) ∨ ((¬ ∃ m p, ps = List.replicate (m + 2) p) ∧ ps' = ps)

/-- `d` is the degree of the polynomial with these coefficients (`-1` for the zero polynomial). -/
def IsDegree (p : List ℤ) (d : ℤ) : Prop :=
  (d = -1 ∧ ∀ c ∈ p, c = 0) ∨ (∃ i : ℕ, d = i ∧ p.getD i 0 ≠ 0 ∧ ∀ j, i < j → p.getD j 0 = 0)

/-- `n` is a root. -/
def IsRoot (p : List ℤ) (n : ℤ) : Prop := horner p n = 0

end PiCF.Spec

namespace PiCF.Spec

/-- The filters configured for an enumeration, for a pair of interlaced polynomials `pas`, `pbs` that is written as
`pas'`, `pbs'` after squeezing.  `rootTest` is the integer root test. -/
def PassesFilters (rootTest : List ℤ → Bool) (avoidIntRoots expOnly avoidZeroB : Bool) (numIters : ℕ)
    (pas' pbs pbs' : List (List ℤ)) : Prop :=
  (avoidIntRoots = true → ∀ pb ∈ pbs, rootTest pb = false) ∧
  (expOnly = true → ∀ pa pb da db, pas' = [pa] → pbs' = [pb] → IsDegree pa da → IsDegree pb db → db ≤ 2 * da) ∧
  (avoidZeroB = true → ∀ j, 1 ≤ j → j ≤ numIters → seqAt pbs j ≠ 0)

/-- `mask` is a choice of `k` of the positions `0, …, n - 1`. -/
def IsMask (n k : ℕ) (mask : List ℕ) : Prop := mask.length = k ∧ mask.Pairwise (· < ·) ∧ ∀ i ∈ mask, i < n

/-- `q` is `p` with its coefficients moved to the positions in `mask`, and zeros elsewhere. -/
def IsPlacement (n : ℕ) (p : List ℤ) (mask : List ℕ) (q : List ℤ) : Prop :=
  q.length = n ∧ (∀ j, j < mask.length → q.getD (mask.getD j 0) 0 = p.getD j 0) ∧
    ∀ i, i ∉ mask → q.getD i 0 = 0

end PiCF.Spec
