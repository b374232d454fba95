import Mathlib.Data.Rat.Defs
import Mathlib.Algebra.Field.Rat
import Verif.Spec.Utils

/-!
# Specifications for continued fractions, independent of the model
-/

namespace PiCF.Spec

/-- The `i`-th element of the sequence given by interlaced polynomials: polynomial number `i mod n`
evaluated at `i`. -/
def seqAt (cs : List (List ℤ)) (i : ℕ) : ℤ := horner (cs.getD (i % cs.length) []) (i : ℤ)

/-- `a_k + b_{k+1} / (a_{k+1} + b_{k+2} / (… + b_{k+n} / a_{k+n}))`; `none` if some denominator is 0. -/
def nested (a b : ℕ → ℚ) : (k n : ℕ) → Option ℚ
  | k, 0 => some (a k)
  | k, n + 1 =>
    match nested a b (k + 1) n with
    | none => none
    | some d => if d = 0 then none else some (a k + b (k + 1) / d)

/-- Numerators of the convergents by the classical (Wallis–Euler) recurrence, index shifted by one:
`contP a b (n + 1)` is `p_n`, and `contP a b 0 = p_{-1} = 1`. -/
def contP (a b : ℕ → ℤ) : ℕ → ℤ
  | 0 => 1
  | 1 => a 0
  | n + 2 => a (n + 1) * contP a b (n + 1) + b (n + 1) * contP a b n

/-- Denominators of the convergents, index shifted by one (`contQ a b 0 = q_{-1} = 0`). -/
def contQ (a b : ℕ → ℤ) : ℕ → ℤ
  | 0 => 0
  | 1 => 1
  | n + 2 => a (n + 1) * contQ a b (n + 1) + b (n + 1) * contQ a b n

/-- `a[0] + b[0]/(a[1] + b[1]/(…))` for lists with one more `a` than `b`. -/
def nestedList : List ℚ → List ℚ → Option ℚ
  | [a], [] => some a
  | a :: as, b :: bs =>
    match nestedList as bs with
    | none => none
    | some d => if d = 0 then none else some (a + b / d)
  | _, _ => none

/-- Convergents `m-1, m+1, m+3` (index shifted by one) get closer by a factor larger than 17/16, written
without division: with `x_i = p_i/q_i` this is `17 |x_{m+3} - x_{m+1}| < 16 |x_{m+1} - x_{m-1}|`,
see `C16_shrinks_iff`. -/
def Shrinks (a b : ℕ → ℤ) (m : ℕ) : Prop :=
  17 * |contQ a b m * (contP a b (m + 4) * contQ a b (m + 2) - contP a b (m + 2) * contQ a b (m + 4))| <
    16 * |contQ a b (m + 4) * (contP a b (m + 2) * contQ a b m - contP a b m * contQ a b (m + 2))|

end PiCF.Spec
