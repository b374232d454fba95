import Mathlib.Algebra.Order.Field.Rat
import Mathlib.Algebra.Polynomial.Basic
import Verif.Spec.ContFrac

/-!
# Specification vocabulary for the LHS properties (C42-C50)
-/

namespace PiCF.Spec

/-- The documented value of a ULCD left hand side. -/
def ulcdExpr (p : ℤ × ℤ × ℤ × ℤ) (x : ℚ) : ℚ := (p.1 / x + x / p.2.1 + p.2.2.1) / p.2.2.2

/-- Neither `l` nor `d` is zero. -/
def UlcdLegal (p : ℤ × ℤ × ℤ × ℤ) : Prop := p.2.1 ≠ 0 ∧ p.2.2.2 ≠ 0

/-- A call that changes the sign of an evaluator or adds an integer to it, or canonicalises it. -/
inductive LhsOp where
  | flip
  | add (n : ℤ)
  | canon
  deriving DecidableEq, Repr

/-- The documented effect on the value. -/
def LhsOp.effect : LhsOp → ℚ → ℚ
  | .flip, v => -v
  | .add n, v => v + n
  | .canon, v => v

/-- Two sequences of convergents agree up to sign at every depth (and exist at the same depths). -/
def SameUpToSign (a b a' b' : List (List ℤ)) : Prop :=
  ∀ n, (contQ (seqAt a) (seqAt b) n = 0 ↔ contQ (seqAt a') (seqAt b') n = 0) ∧
    |contP (seqAt a) (seqAt b) n * contQ (seqAt a') (seqAt b') n| = |contP (seqAt a') (seqAt b') n * contQ (seqAt a) (seqAt b) n|

open Polynomial in
/-- The polynomial with the given coefficients, constant term first. -/
noncomputable def polyOf (l : List ℤ) : ℤ[X] := ∑ i ∈ Finset.range l.length, C (l.getD i 0) * X ^ i

open Polynomial in
/-- The rational function `n/d` is constant: equal to `a/b` for some integers. -/
def IsConstantFunc (n d : List ℤ) : Prop := ∃ a b : ℤ, b ≠ 0 ∧ C b * polyOf n = C a * polyOf d

open Polynomial in
/-- `n1/d1` and `n2/d2` differ by a constant `a/b`. -/
def DifferByConstant (n1 d1 n2 d2 : List ℤ) : Prop :=
  ∃ a b : ℤ, b ≠ 0 ∧ C b * (polyOf n1 * polyOf d2 - polyOf n2 * polyOf d1) = C a * (polyOf d1 * polyOf d2)

end PiCF.Spec
