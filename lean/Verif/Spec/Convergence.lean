import Mathlib.Data.Real.Basic
import Verif.Spec.ContFrac

/-!
# Specification: how fast a continued fraction converges

`contP a b (n + 1) / contQ a b (n + 1)` is the `n`-th convergent of `a_0 + b_1/(a_1 + b_2/(a_2 + ...))`.
-/

namespace PiCF.Spec

/-- The distance of the `n`-th convergent to `l`. -/
noncomputable def convError (a b : ℕ → ℤ) (l : ℝ) (n : ℕ) : ℝ := |(contP a b (n + 1) : ℝ) / contQ a b (n + 1) - l|

/-- The convergents exist from some depth on and approach a real number exponentially fast. -/
def ConvergesExp (a b : ℕ → ℤ) : Prop :=
  ∃ (l c κ : ℝ) (N : ℕ), 0 ≤ κ ∧ κ < 1 ∧ ∀ n, N ≤ n →
    contQ a b (n + 1) ≠ 0 ∧ |(contP a b (n + 1) : ℝ) / contQ a b (n + 1) - l| ≤ c * κ ^ n

/-- The convergents exist from some depth on and approach `l` exponentially fast. -/
def ConvergesExpTo (a b : ℕ → ℤ) (l : ℝ) : Prop :=
  ∃ (c κ : ℝ) (N : ℕ), 0 ≤ κ ∧ κ < 1 ∧ ∀ n, N ≤ n →
    contQ a b (n + 1) ≠ 0 ∧ |(contP a b (n + 1) : ℝ) / contQ a b (n + 1) - l| ≤ c * κ ^ n

/-- The convergents exist from some depth on, and their distance to `l` is of the order `n ^ (-k)`. -/
def ConvergesPolyTo (a b : ℕ → ℤ) (l : ℝ) (k : ℕ) : Prop :=
  ∃ (c C : ℝ) (N : ℕ), 0 < c ∧ ∀ n, N ≤ n → contQ a b (n + 1) ≠ 0 ∧
    c / n ^ k ≤ |(contP a b (n + 1) : ℝ) / contQ a b (n + 1) - l| ∧ |(contP a b (n + 1) : ℝ) / contQ a b (n + 1) - l| ≤ C / n ^ k

/-- The convergents exist from some depth on and approach `l` faster than every exponential rate. -/
def ConvergesFast (a b : ℕ → ℤ) (l : ℝ) : Prop :=
  ∀ κ : ℝ, 0 < κ → ∃ (c : ℝ) (N : ℕ), ∀ n, N ≤ n →
    contQ a b (n + 1) ≠ 0 ∧ |(contP a b (n + 1) : ℝ) / contQ a b (n + 1) - l| ≤ c * κ ^ n

/-- The convergents tend to infinity exponentially. -/
def DivergesExp (a b : ℕ → ℤ) : Prop :=
  ∃ (c κ : ℝ) (N : ℕ), 0 ≤ κ ∧ κ < 1 ∧ ∀ n, N ≤ n →
    contP a b (n + 1) ≠ 0 ∧ |(contQ a b (n + 1) : ℝ) / contP a b (n + 1)| ≤ c * κ ^ n

/-- The convergents tend to infinity, faster than every exponential rate. -/
def DivergesFast (a b : ℕ → ℤ) : Prop :=
  ∀ κ : ℝ, 0 < κ → ∃ (c : ℝ) (N : ℕ), ∀ n, N ≤ n →
    contP a b (n + 1) ≠ 0 ∧ |(contQ a b (n + 1) : ℝ) / contP a b (n + 1)| ≤ c * κ ^ n

end PiCF.Spec
