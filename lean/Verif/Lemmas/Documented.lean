import Mathlib.Combinatorics.Derangements.Exponential
import Mathlib.Analysis.SpecialFunctions.Integrals.Basic
import Mathlib.Analysis.Real.Pi.Leibniz
import Verif.Lemmas.Discriminant

/-!
# The limits of some continued fractions
-/

namespace PiCF
open PiCF.Spec Filter Topology

/-! ### Identifying the limit -/

theorem tendsto_of_exp {a b : ℕ → ℤ} {l : ℝ} (h : ConvergesExpTo a b l) :
    Tendsto (fun n => (contP a b (n + 1) : ℝ) / contQ a b (n + 1)) atTop (𝓝 l) := by
  obtain ⟨c, κ, N, h0, h1, h⟩ := h
  rw [tendsto_iff_dist_tendsto_zero]
  have hlim := (tendsto_pow_atTop_nhds_zero_of_lt_one h0 h1).const_mul c
  rw [mul_zero] at hlim
  exact squeeze_zero' (.of_forall fun n => dist_nonneg) (eventually_atTop.2 ⟨N, fun n hn => (h n hn).2⟩) hlim

theorem fast_exp {a b : ℕ → ℤ} {l : ℝ} (h : ConvergesFast a b l) : ConvergesExpTo a b l := by
  obtain ⟨c, N, h⟩ := h (1 / 2) (by norm_num)
  exact ⟨c, 1 / 2, N, by norm_num, by norm_num, h⟩

theorem divFast_exp {a b : ℕ → ℤ} (h : DivergesFast a b) : DivergesExp a b := by
  obtain ⟨c, N, h⟩ := h (1 / 2) (by norm_num)
  exact ⟨c, 1 / 2, N, by norm_num, by norm_num, h⟩

/-- A sequence with a finite limit and non-zero denominators does not tend to infinity. -/
theorem not_div_of_tendsto {a b : ℕ → ℤ} {l : ℝ} (hl : Tendsto (fun n => (contP a b (n + 1) : ℝ) / contQ a b (n + 1)) atTop (𝓝 l))
    (hq : ∀ n, contQ a b (n + 1) ≠ 0) : ¬ DivergesExp a b := by
  rintro ⟨c, κ, N, h0, h1, h⟩
  have hlim := (tendsto_pow_atTop_nhds_zero_of_lt_one h0 h1).const_mul c
  rw [mul_zero] at hlim
  have hz : Tendsto (fun n => (contQ a b (n + 1) : ℝ) / contP a b (n + 1)) atTop (𝓝 0) :=
    squeeze_zero_norm' (eventually_atTop.2 ⟨N, fun n hn => (h n hn).2⟩) hlim
  have hm := hl.mul hz
  rw [mul_zero] at hm
  refine one_ne_zero (tendsto_nhds_unique (tendsto_const_nhds.congr' ?_) hm)
  filter_upwards [eventually_ge_atTop N] with n hn
  have p0 : (contP a b (n + 1) : ℝ) ≠ 0 := Int.cast_ne_zero.2 (h n hn).1
  have q0 : (contQ a b (n + 1) : ℝ) ≠ 0 := Int.cast_ne_zero.2 (hq n)
  field_simp

theorem expTo_of {a b : ℕ → ℤ} {l : ℝ} (h : ConvergesExp a b ∨ DivergesExp a b)
    (hl : Tendsto (fun n => (contP a b (n + 1) : ℝ) / contQ a b (n + 1)) atTop (𝓝 l)) (hq : ∀ n, contQ a b (n + 1) ≠ 0) :
    ConvergesExpTo a b l := by
  rcases h with ⟨l', c, κ, N, h⟩ | h
  · have : ConvergesExpTo a b l' := ⟨c, κ, N, h⟩
    rwa [tendsto_nhds_unique hl (tendsto_of_exp this)]
  · exact absurd h (not_div_of_tendsto hl hq)

theorem fastTo_of {a b : ℕ → ℤ} {l : ℝ} (h : (∃ l, ConvergesFast a b l) ∨ DivergesFast a b)
    (hl : Tendsto (fun n => (contP a b (n + 1) : ℝ) / contQ a b (n + 1)) atTop (𝓝 l)) (hq : ∀ n, contQ a b (n + 1) ≠ 0) :
    ConvergesFast a b l := by
  rcases h with ⟨l', h⟩ | h
  · rwa [tendsto_nhds_unique hl (tendsto_of_exp (fast_exp h))]
  · exact absurd (divFast_exp h) (not_div_of_tendsto hl hq)

/-- Two solutions of the recurrence with the same first two values agree. -/
theorem solves_unique {a b : ℕ → ℤ} {x y : ℕ → ℝ} (h0 : x 0 = y 0) (h1 : x 1 = y 1)
    (hx : ∀ n, x (n + 2) = a (n + 1) * x (n + 1) + b (n + 1) * x n)
    (hy : ∀ n, y (n + 2) = a (n + 1) * y (n + 1) + b (n + 1) * y n) : ∀ n, x n = y n := by
  have : ∀ n, x n = y n ∧ x (n + 1) = y (n + 1) := by
    intro n
    induction n with
    | zero => exact ⟨h0, h1⟩
    | succ n ih => exact ⟨ih.2, by rw [hx, hy, ih.1, ih.2]⟩
  exact fun n => (this n).1

theorem contP_eq {a b : ℕ → ℤ} {y : ℕ → ℝ} (h0 : y 0 = 1) (h1 : y 1 = a 0)
    (hy : ∀ n, y (n + 2) = a (n + 1) * y (n + 1) + b (n + 1) * y n) (n : ℕ) : (contP a b n : ℝ) = y n :=
  solves_unique (x := fun n => (contP a b n : ℝ)) (by simp [contP, h0]) (by simp [contP, h1]) (fun n => by simp [contP]) hy n

theorem contQ_eq {a b : ℕ → ℤ} {y : ℕ → ℝ} (h0 : y 0 = 0) (h1 : y 1 = 1)
    (hy : ∀ n, y (n + 2) = a (n + 1) * y (n + 1) + b (n + 1) * y n) (n : ℕ) : (contQ a b n : ℝ) = y n :=
  solves_unique (x := fun n => (contQ a b n : ℝ)) (by simp [contQ, h0]) (by simp [contQ, h1]) (fun n => by simp [contQ]) hy n

/-! ### `a_n = 2 + 2n`, `b_n = 4n` -/

theorem a1_eq (n : ℕ) : seqAt [[2, 2]] n = 2 + 2 * n := by rw [seqAt_single]; simp [horner]; ring
theorem b1_eq (n : ℕ) : seqAt [[0, 4]] n = 4 * n := by rw [seqAt_single]; simp [horner]; ring

theorem cf1_pq (n : ℕ) : (contP (seqAt [[2, 2]]) (seqAt [[0, 4]]) n : ℝ) = 2 ^ n * (numDerangements n + numDerangements (n + 1)) ∧
    (contQ (seqAt [[2, 2]]) (seqAt [[0, 4]]) n : ℝ) =
      2 ^ n * (n.factorial * (n + 2) / 2 - (numDerangements n + numDerangements (n + 1))) := by
  have hD : ∀ n : ℕ, (numDerangements (n + 2) : ℝ) = (n + 1) * (numDerangements n + numDerangements (n + 1)) := fun n => by
    rw [numDerangements_add_two]; push_cast; ring
  constructor
  · refine contP_eq (y := fun n => 2 ^ n * (numDerangements n + numDerangements (n + 1))) (by simp) ?_ (fun n => ?_) n
    · simp only [hD, a1_eq]; simp
    · simp only [show n + 2 + 1 = n + 1 + 2 from rfl, show n + 1 + 1 = n + 2 from rfl, hD, a1_eq, b1_eq]
      push_cast
      ring
  · refine contQ_eq (y := fun n => 2 ^ n * (n.factorial * (n + 2) / 2 - (numDerangements n + numDerangements (n + 1))))
      (by simp) ?_ (fun n => ?_) n
    · simp only [hD]; norm_num
    · simp only [show n + 2 + 1 = n + 1 + 2 from rfl, show n + 1 + 1 = n + 2 from rfl, hD, a1_eq, b1_eq, Nat.factorial_succ]
      push_cast
      ring

theorem cf1_pos (n : ℕ) (hn : 1 ≤ n) : 0 < seqAt [[2, 2]] n ∧ 0 < seqAt [[0, 4]] n := by
  rw [a1_eq, b1_eq]; omega

theorem cf1_tendsto : Tendsto (fun n => (contP (seqAt [[2, 2]]) (seqAt [[0, 4]]) (n + 1) : ℝ) / contQ (seqAt [[2, 2]]) (seqAt [[0, 4]]) (n + 1))
    atTop (𝓝 (1 / (Real.exp 1 / 2 - 1))) := by
  have hD : ∀ n : ℕ, (numDerangements (n + 2) : ℝ) = (n + 1) * (numDerangements n + numDerangements (n + 1)) := fun n => by
    rw [numDerangements_add_two]; push_cast; ring
  have he : (2 : ℝ) < Real.exp 1 := by have := Real.add_one_lt_exp (one_ne_zero (α := ℝ)); linarith
  have hx := (tendsto_add_atTop_iff_nat 3).2 numDerangements_tendsto_inv_e
  have h := (hx.const_mul 2).div ((hx.const_mul 2).const_sub 1) (by
    rw [Real.exp_neg]
    have : 2 * (Real.exp 1)⁻¹ < 1 := by rw [← div_eq_mul_inv, div_lt_one (by linarith)]; exact he
    linarith)
  have e : 2 * Real.exp (-1) / (1 - 2 * Real.exp (-1)) = 1 / (Real.exp 1 / 2 - 1) := by
    rw [Real.exp_neg]
    have h1 : Real.exp 1 ≠ 0 := by linarith
    have h2 : Real.exp 1 - 2 ≠ 0 := by linarith
    have h3 : Real.exp 1 / 2 - 1 ≠ 0 := by intro h; apply h2; linarith
    field_simp
  rw [e] at h
  refine h.congr fun n => ?_
  rw [(cf1_pq (n + 1)).1, (cf1_pq (n + 1)).2]
  have hq : (contQ (seqAt [[2, 2]]) (seqAt [[0, 4]]) (n + 1) : ℝ) ≠ 0 := Int.cast_ne_zero.2 (contQ_pos cf1_pos n).2.ne'
  rw [(cf1_pq (n + 1)).2] at hq
  have hd := hD (n + 1)
  have hf : ((n + 3).factorial : ℝ) = (n + 3) * ((n + 2) * (n + 1).factorial) := by
    rw [Nat.factorial_succ, Nat.factorial_succ]; push_cast; ring
  have hf0 : ((n + 1).factorial : ℝ) ≠ 0 := Nat.cast_ne_zero.2 (Nat.factorial_ne_zero _)
  set S : ℝ := numDerangements (n + 1) + numDerangements (n + 1 + 1) with hS
  set F : ℝ := ((n + 1).factorial : ℝ) with hF
  have hx : (numDerangements (n + 3) : ℝ) / (n + 3).factorial = S / (F * (n + 3)) := by
    rw [show n + 3 = n + 1 + 2 from rfl, hd, show n + 1 + 2 = n + 3 from rfl, hf]
    have : (n : ℝ) + 3 ≠ 0 := by positivity
    have : (n : ℝ) + 2 ≠ 0 := by positivity
    push_cast
    field_simp
    ring
  show 2 * ((numDerangements (n + 3) : ℝ) / (n + 3).factorial) / (1 - 2 * ((numDerangements (n + 3) : ℝ) / (n + 3).factorial)) = _
  rw [hx]
  push_cast at hq ⊢
  have h2 : (2 : ℝ) ^ (n + 1) ≠ 0 := by positivity
  have hq' := right_ne_zero_of_mul hq
  have h3 : F * (n + 3) ≠ 0 := by positivity
  have h4 : F * (n + 3) - 2 * S ≠ 0 := by
    intro h
    apply hq'
    linarith
  rw [mul_div_mul_left _ _ h2]
  have e1 : 1 - 2 * (S / (F * (n + 3))) = (F * (n + 3) - 2 * S) / (F * (n + 3)) := by field_simp
  have e2 : F * ((n : ℝ) + 1 + 2) / 2 - S = (F * (n + 3) - 2 * S) / 2 := by ring
  rw [e1, e2]
  field_simp

/-! ### `a_n = 1 + 2n`, `b_n = n²` -/

theorem a3_eq (n : ℕ) : seqAt [[1, 2]] n = 1 + 2 * n := by rw [seqAt_single]; simp [horner]; ring
theorem b3_eq (n : ℕ) : seqAt [[0, 0, 1]] n = n ^ 2 := by rw [seqAt_single]; simp [horner]; ring

theorem cf3_pos (n : ℕ) (hn : 1 ≤ n) : 0 < seqAt [[1, 2]] n ∧ 0 < seqAt [[0, 0, 1]] n := by
  rw [a3_eq, b3_eq]; exact ⟨by omega, by positivity⟩

/-- `∫_{π/4}^{π/2} (√2 sin φ - 1)^n dφ` -/
noncomputable def legendreInt (n : ℕ) : ℝ := ∫ x in (Real.pi / 4)..(Real.pi / 2), (√2 * Real.sin x - 1) ^ n

theorem legendreInt_rec (n : ℕ) :
    ((n : ℝ) + 2) * legendreInt (n + 2) = -(2 * n + 3) * legendreInt (n + 1) + (n + 1) * legendreInt n := by
  have h2 : √2 ^ 2 = (2 : ℝ) := Real.sq_sqrt (by norm_num)
  have hder : ∀ x, HasDerivAt (fun x => (√2 * Real.sin x - 1) ^ (n + 1) * (√2 * Real.cos x))
      (((n : ℝ) + 1) * (√2 * Real.sin x - 1) ^ n - (2 * n + 3) * (√2 * Real.sin x - 1) ^ (n + 1) -
        (n + 2) * (√2 * Real.sin x - 1) ^ (n + 2)) x := by
    intro x
    have h := ((((Real.hasDerivAt_sin x).const_mul √2).sub_const 1).pow (n + 1)).mul ((Real.hasDerivAt_cos x).const_mul √2)
    refine HasDerivAt.congr_deriv (f := fun x => (√2 * Real.sin x - 1) ^ (n + 1) * (√2 * Real.cos x)) h ?_
    have hc : Real.cos x ^ 2 = 1 - Real.sin x ^ 2 := by have := Real.sin_sq_add_cos_sq x; linarith
    simp only [Nat.add_sub_cancel, Pi.pow_apply]
    push_cast
    have e : ((n : ℝ) + 1) * (√2 * Real.sin x - 1) ^ n * (√2 * Real.cos x) * (√2 * Real.cos x) =
        ((n : ℝ) + 1) * (√2 * Real.sin x - 1) ^ n * (√2 ^ 2 * (1 - Real.sin x ^ 2)) := by rw [← hc]; ring
    have e2 : √2 ^ 2 * Real.sin x ^ 2 = ((√2 * Real.sin x - 1) + 1) ^ 2 := by ring
    set s := √2 * Real.sin x - 1 with hs
    have e3 : √2 ^ 2 * (1 - Real.sin x ^ 2) = 1 - 2 * s - s ^ 2 := by
      rw [mul_sub, mul_one, e2, h2]; ring
    have e4 : √2 * -Real.sin x = -(s + 1) := by rw [hs]; ring
    rw [e4, e, e3]
    ring
  have hint : IntervalIntegrable (fun x => ((n : ℝ) + 1) * (√2 * Real.sin x - 1) ^ n - (2 * n + 3) * (√2 * Real.sin x - 1) ^ (n + 1) -
      (n + 2) * (√2 * Real.sin x - 1) ^ (n + 2)) MeasureTheory.volume (Real.pi / 4) (Real.pi / 2) :=
    (by fun_prop : Continuous _).intervalIntegrable _ _
  have hi := intervalIntegral.integral_eq_sub_of_hasDerivAt (fun x _ => hder x) hint
  have hz : √2 * Real.sin (Real.pi / 4) - 1 = 0 := by
    rw [Real.sin_pi_div_four]; linarith [h2]
  rw [hz, Real.cos_pi_div_two, mul_zero, mul_zero, zero_pow (by omega), zero_mul, sub_zero,
    intervalIntegral.integral_sub, intervalIntegral.integral_sub, intervalIntegral.integral_const_mul,
    intervalIntegral.integral_const_mul, intervalIntegral.integral_const_mul] at hi
  · have : ((n : ℝ) + 1) * legendreInt n - (2 * n + 3) * legendreInt (n + 1) - (n + 2) * legendreInt (n + 2) = 0 := hi
    linarith
  all_goals exact (by fun_prop : Continuous _).intervalIntegrable _ _

theorem legendreInt_zero : legendreInt 0 = Real.pi / 4 := by
  simp [legendreInt]; ring

theorem legendreInt_one : legendreInt 1 = 1 - Real.pi / 4 := by
  have h2 : √2 * √2 = (2 : ℝ) := Real.mul_self_sqrt (by norm_num)
  simp only [legendreInt, pow_one]
  rw [intervalIntegral.integral_sub, intervalIntegral.integral_const_mul, integral_sin, intervalIntegral.integral_const]
  · rw [Real.cos_pi_div_two, Real.cos_pi_div_four]
    simp only [smul_eq_mul]
    linarith
  all_goals exact (by fun_prop : Continuous _).intervalIntegrable _ _

theorem legendreInt_le (n : ℕ) : |legendreInt n| ≤ Real.pi / 4 * (1 / 2) ^ n := by
  have h2 : √2 ^ 2 = (2 : ℝ) := Real.sq_sqrt (by norm_num)
  have hs0 : (0 : ℝ) ≤ √2 := Real.sqrt_nonneg 2
  have hs1 : √2 ≤ 3 / 2 := by
    rw [Real.sqrt_le_left (by norm_num)]; norm_num
  have hpi := Real.pi_pos
  have h := intervalIntegral.norm_integral_le_of_norm_le_const (a := Real.pi / 4) (b := Real.pi / 2) (C := (1 / 2) ^ n)
    (f := fun x => (√2 * Real.sin x - 1) ^ n) (fun x hx => by
      rw [Set.uIoc_of_le (by linarith)] at hx
      rw [norm_pow, Real.norm_eq_abs]
      refine pow_le_pow_left₀ (abs_nonneg _) ?_ n
      have l1 : Real.sin (Real.pi / 4) ≤ Real.sin x :=
        Real.sin_le_sin_of_le_of_le_pi_div_two (by linarith) hx.2 hx.1.le
      have l2 := Real.sin_le_one x
      rw [Real.sin_pi_div_four] at l1
      rw [abs_le]
      constructor <;> nlinarith)
  rw [Real.norm_eq_abs, abs_of_nonneg (by linarith : 0 ≤ Real.pi / 2 - Real.pi / 4)] at h
  rw [legendreInt]
  linarith

theorem cf3_form (n : ℕ) : (contQ (seqAt [[1, 2]]) (seqAt [[0, 0, 1]]) n : ℝ) - contP (seqAt [[1, 2]]) (seqAt [[0, 0, 1]]) n * (Real.pi / 4) =
    -((-1) ^ n * n.factorial * legendreInt n) := by
  refine solves_unique (a := seqAt [[1, 2]]) (b := seqAt [[0, 0, 1]])
    (x := fun n => (contQ (seqAt [[1, 2]]) (seqAt [[0, 0, 1]]) n : ℝ) - contP (seqAt [[1, 2]]) (seqAt [[0, 0, 1]]) n * (Real.pi / 4))
    (y := fun n => -((-1) ^ n * n.factorial * legendreInt n)) ?_ ?_ (fun n => ?_) (fun n => ?_) n
  · simp [contP, contQ, legendreInt_zero]
  · simp [contP, contQ, legendreInt_one, a3_eq]
  · simp only [contP, contQ]
    push_cast
    ring
  · have h := legendreInt_rec n
    have hf1 : ((n + 2).factorial : ℝ) = (n + 2) * ((n + 1) * n.factorial) := by
      rw [Nat.factorial_succ, Nat.factorial_succ]; push_cast; ring
    have hf2 : ((n + 1).factorial : ℝ) = (n + 1) * n.factorial := by rw [Nat.factorial_succ]; push_cast; ring
    simp only [a3_eq, b3_eq, hf1, hf2]
    push_cast
    have : -((-1 : ℝ) ^ (n + 2) * ((n + 2) * ((n + 1) * n.factorial)) * legendreInt (n + 2)) =
      -((-1) ^ n * ((n + 1) * n.factorial) * ((n + 2) * legendreInt (n + 2))) := by ring
    rw [this, h]
    ring

theorem cf3_contP (n : ℕ) : (n.factorial : ℝ) ≤ contP (seqAt [[1, 2]]) (seqAt [[0, 0, 1]]) n := by
  have : ∀ n : ℕ, (n.factorial : ℤ) ≤ contP (seqAt [[1, 2]]) (seqAt [[0, 0, 1]]) n ∧
      ((n + 1).factorial : ℤ) ≤ contP (seqAt [[1, 2]]) (seqAt [[0, 0, 1]]) (n + 1) := by
    intro n
    induction n with
    | zero => simp [contP, a3_eq]
    | succ n ih =>
      refine ⟨ih.2, ?_⟩
      rw [contP, a3_eq, b3_eq, Nat.factorial_succ]
      have h0 : (0 : ℤ) ≤ (n.factorial : ℤ) := by positivity
      have h1 : (0 : ℤ) ≤ ((n + 1).factorial : ℤ) := by positivity
      have i1 := ih.1
      have i2 := ih.2
      push_cast
      nlinarith [mul_nonneg (sq_nonneg ((n : ℤ) + 1)) (h0.trans i1), mul_nonneg (Int.natCast_nonneg n) (h1.trans i2)]
  exact_mod_cast (this n).1

theorem cf3_tendsto : Tendsto (fun n => (contP (seqAt [[1, 2]]) (seqAt [[0, 0, 1]]) (n + 1) : ℝ) / contQ (seqAt [[1, 2]]) (seqAt [[0, 0, 1]]) (n + 1))
    atTop (𝓝 (4 / Real.pi)) := by
  have hpi := Real.pi_pos
  have h : Tendsto (fun n => (contQ (seqAt [[1, 2]]) (seqAt [[0, 0, 1]]) n : ℝ) / contP (seqAt [[1, 2]]) (seqAt [[0, 0, 1]]) n) atTop
      (𝓝 (Real.pi / 4)) := by
    rw [tendsto_iff_dist_tendsto_zero]
    have hlim := (tendsto_pow_atTop_nhds_zero_of_lt_one (by norm_num : (0 : ℝ) ≤ 1 / 2) (by norm_num)).const_mul (Real.pi / 4)
    rw [mul_zero] at hlim
    refine squeeze_zero (fun n => dist_nonneg) (fun n => ?_) hlim
    have hf0 : (0 : ℝ) < n.factorial := by exact_mod_cast Nat.factorial_pos n
    have hP := cf3_contP n
    have hP0 := hf0.trans_le hP
    rw [Real.dist_eq, div_sub' hP0.ne', abs_div, abs_of_pos hP0, div_le_iff₀ hP0, cf3_form, abs_neg, abs_mul, abs_mul, abs_pow, abs_neg,
      abs_one, one_pow, one_mul, abs_of_pos hf0]
    have hl := legendreInt_le n
    calc (n.factorial : ℝ) * |legendreInt n| ≤ contP (seqAt [[1, 2]]) (seqAt [[0, 0, 1]]) n * (Real.pi / 4 * (1 / 2) ^ n) :=
          mul_le_mul hP hl (abs_nonneg _) hP0.le
      _ = _ := by ring
  have h' := ((tendsto_add_atTop_iff_nat 1).2 h).inv₀ (by positivity)
  rw [inv_div] at h'
  exact h'.congr fun n => by rw [inv_div]

/-! ### `a_n = 1 + 3n`, `b_n = 3n - 2n²` -/

theorem solves_unique' {a b : ℕ → ℤ} {x y : ℕ → ℝ} (h0 : x 0 = y 0) (h1 : x 1 = y 1)
    (hx : ∀ n, x (n + 2) = a (n + 2) * x (n + 1) + b (n + 2) * x n)
    (hy : ∀ n, y (n + 2) = a (n + 2) * y (n + 1) + b (n + 2) * y n) : ∀ n, x n = y n :=
  solves_unique (a := fun n => a (n + 1)) (b := fun n => b (n + 1)) h0 h1 hx hy

theorem contP_eq' {a b : ℕ → ℤ} {y : ℕ → ℝ} (h0 : y 0 = a 0) (h1 : y 1 = a 1 * a 0 + b 1)
    (hy : ∀ n, y (n + 2) = a (n + 2) * y (n + 1) + b (n + 2) * y n) (n : ℕ) : (contP a b (n + 1) : ℝ) = y n :=
  solves_unique' (x := fun n => (contP a b (n + 1) : ℝ)) (by simp [contP, h0]) (by simp [contP, h1]) (fun n => by simp [contP]) hy n

theorem contQ_eq' {a b : ℕ → ℤ} {y : ℕ → ℝ} (h0 : y 0 = 1) (h1 : y 1 = a 1)
    (hy : ∀ n, y (n + 2) = a (n + 2) * y (n + 1) + b (n + 2) * y n) (n : ℕ) : (contQ a b (n + 1) : ℝ) = y n :=
  solves_unique' (x := fun n => (contQ a b (n + 1) : ℝ)) (by simp [contQ, h0]) (by simp [contQ, h1]) (fun n => by simp [contQ]) hy n

theorem a2_eq (n : ℕ) : seqAt [[1, 3]] n = 1 + 3 * n := by rw [seqAt_single]; simp [horner]; ring
theorem b2_eq (n : ℕ) : seqAt [[0, 3, -2]] n = 3 * n - 2 * n ^ 2 := by rw [seqAt_single]; simp [horner]; ring

/-- `1 · 3 · 5 ⋯ (2n - 1)` -/
def oddProd : ℕ → ℝ
  | 0 => 1
  | n + 1 => (2 * n + 1) * oddProd n

theorem oddProd_pos : ∀ n, 0 < oddProd n
  | 0 => one_pos
  | n + 1 => by have := oddProd_pos n; rw [oddProd]; positivity

/-- `Σ_{k<n} k! / (1 · 3 ⋯ (2k + 1))` -/
noncomputable def oddSum (n : ℕ) : ℝ := ∑ k ∈ Finset.range n, (k.factorial : ℝ) / oddProd (k + 1)

theorem oddSum_succ (n : ℕ) : oddSum (n + 1) = oddSum n + (n.factorial : ℝ) / oddProd (n + 1) := Finset.sum_range_succ _ _

theorem cf2_pq (n : ℕ) : (contP (seqAt [[1, 3]]) (seqAt [[0, 3, -2]]) (n + 1) : ℝ) = oddProd n * (n ^ 2 + 3 * n + 1) ∧
    (contQ (seqAt [[1, 3]]) (seqAt [[0, 3, -2]]) (n + 1) : ℝ) =
      (oddProd n * (n ^ 2 + 3 * n + 1) * oddSum n + n.factorial * (n + 2)) / 2 := by
  constructor
  · refine contP_eq' (y := fun n => oddProd n * (n ^ 2 + 3 * n + 1)) ?_ ?_ (fun n => ?_) n
    · simp [oddProd, a2_eq]
    · simp only [oddProd, a2_eq, b2_eq]; norm_num
    · simp only [oddProd, a2_eq, b2_eq]
      push_cast
      ring
  · refine contQ_eq' (y := fun n => (oddProd n * (n ^ 2 + 3 * n + 1) * oddSum n + n.factorial * (n + 2)) / 2) ?_ ?_ (fun n => ?_) n
    · simp [oddProd, oddSum]
    · simp [oddProd, oddSum, a2_eq]; norm_num
    · have h0 := (oddProd_pos n).ne'
      have hf1 : ((n + 2).factorial : ℝ) = (n + 2) * ((n + 1) * n.factorial) := by
        rw [Nat.factorial_succ, Nat.factorial_succ]; push_cast; ring
      have hf2 : ((n + 1).factorial : ℝ) = (n + 1) * n.factorial := by rw [Nat.factorial_succ]; push_cast; ring
      simp only [oddSum_succ, oddProd, a2_eq, b2_eq, hf1, hf2]
      have h1 : (2 * (n : ℝ) + 1) ≠ 0 := by positivity
      have h2 : (2 * ((n : ℝ) + 1) + 1) ≠ 0 := by positivity
      push_cast
      field_simp
      ring

theorem oddTerm (k : ℕ) : (k.factorial : ℝ) / oddProd (k + 1) = (1 / 2) * (1 / 2) ^ k * ∫ x in 0..Real.pi, Real.sin x ^ (2 * k + 1) := by
  rw [integral_sin_pow_odd]
  induction k with
  | zero => simp [oddProd]
  | succ k ih =>
    rw [Finset.prod_range_succ, Nat.factorial_succ, oddProd, pow_succ]
    have h0 := (oddProd_pos (k + 1)).ne'
    have h1 : (2 * (k : ℝ) + 3) ≠ 0 := by positivity
    have h2 : (2 * ((k : ℝ) + 1) + 1) ≠ 0 := by positivity
    rw [div_eq_iff h0] at ih
    rw [div_eq_iff (mul_ne_zero (by push_cast; exact h2) h0)]
    push_cast
    rw [ih]
    field_simp
    ring

theorem oddSum_tendsto : Tendsto oddSum atTop (𝓝 (Real.pi / 2)) := by
  have hpi := Real.pi_pos
  have hden : ∀ x : ℝ, (1 / 2 : ℝ) ≤ 1 - Real.sin x ^ 2 / 2 := fun x => by nlinarith [Real.sin_sq_add_cos_sq x, sq_nonneg (Real.cos x)]
  have hden0 : ∀ x : ℝ, (1 - Real.sin x ^ 2 / 2) ≠ 0 := fun x => by have := hden x; intro h; rw [h] at this; norm_num at this
  have hsum : ∀ n, 2 * oddSum n = (∫ x in 0..Real.pi, Real.sin x / (1 - Real.sin x ^ 2 / 2)) -
      ∫ x in 0..Real.pi, Real.sin x * (Real.sin x ^ 2 / 2) ^ n / (1 - Real.sin x ^ 2 / 2) := by
    intro n
    rw [← intervalIntegral.integral_sub]
    · have e1 : ∀ x : ℝ, Real.sin x / (1 - Real.sin x ^ 2 / 2) - Real.sin x * (Real.sin x ^ 2 / 2) ^ n / (1 - Real.sin x ^ 2 / 2) =
          ∑ k ∈ Finset.range n, (1 / 2) ^ k * Real.sin x ^ (2 * k + 1) := by
        intro x
        have hg := geom_sum_eq (x := Real.sin x ^ 2 / 2) (by have := hden0 x; intro h; apply this; linarith) n
        have : ∑ k ∈ Finset.range n, (1 / 2 : ℝ) ^ k * Real.sin x ^ (2 * k + 1) = Real.sin x * ∑ k ∈ Finset.range n, (Real.sin x ^ 2 / 2) ^ k := by
          rw [Finset.mul_sum]
          refine Finset.sum_congr rfl fun k _ => ?_
          rw [div_pow, div_pow, one_pow, pow_succ, pow_mul]
          ring
        rw [this, hg]
        have h1 := hden0 x
        have h2 : Real.sin x ^ 2 / 2 - 1 ≠ 0 := by intro h; apply h1; linarith
        rw [← sub_div, ← mul_div_assoc, div_eq_div_iff h1 h2]
        ring
      simp only [e1]
      rw [intervalIntegral.integral_finsetSum fun k _ => (by fun_prop : Continuous _).intervalIntegrable _ _, oddSum, Finset.mul_sum]
      refine Finset.sum_congr rfl fun k _ => ?_
      rw [oddTerm, intervalIntegral.integral_const_mul]
      ring
    · exact (Real.continuous_sin.div (by fun_prop) hden0).intervalIntegrable _ _
    · exact (Continuous.div (by fun_prop) (by fun_prop) hden0).intervalIntegrable _ _
  have hval : (∫ x in 0..Real.pi, Real.sin x / (1 - Real.sin x ^ 2 / 2)) = Real.pi := by
    have hder : ∀ x, HasDerivAt (fun x => -2 * Real.arctan (Real.cos x)) (Real.sin x / (1 - Real.sin x ^ 2 / 2)) x := by
      intro x
      have h := ((Real.hasDerivAt_cos x).arctan).const_mul (-2)
      refine HasDerivAt.congr_deriv (f := fun x => -2 * Real.arctan (Real.cos x)) h ?_
      have hc : Real.cos x ^ 2 = 1 - Real.sin x ^ 2 := by have := Real.sin_sq_add_cos_sq x; linarith
      have h1 := hden0 x
      have h2 : 1 + (1 - Real.sin x ^ 2) ≠ 0 := by intro h; apply h1; linarith
      rw [hc]
      have h3 : 1 - Real.sin x ^ 2 / 2 = (1 + (1 - Real.sin x ^ 2)) / 2 := by ring
      rw [h3]
      field_simp
    rw [intervalIntegral.integral_eq_sub_of_hasDerivAt (fun x _ => hder x)
      ((Real.continuous_sin.div (by fun_prop) hden0).intervalIntegrable _ _)]
    simp only [Real.cos_pi, Real.cos_zero, Real.arctan_neg, Real.arctan_one]
    ring
  have hrem : ∀ n, ‖∫ x in 0..Real.pi, Real.sin x * (Real.sin x ^ 2 / 2) ^ n / (1 - Real.sin x ^ 2 / 2)‖ ≤ 2 * Real.pi * (1 / 2) ^ n := by
    intro n
    refine (intervalIntegral.norm_integral_le_of_norm_le_const (C := 2 * (1 / 2) ^ n) fun x _ => ?_).trans_eq
      (by rw [sub_zero, abs_of_pos hpi]; ring)
    rw [norm_div, norm_mul, norm_pow, Real.norm_eq_abs, Real.norm_eq_abs, Real.norm_eq_abs,
      abs_of_pos (lt_of_lt_of_le (by norm_num) (hden x)), div_le_iff₀ (lt_of_lt_of_le (by norm_num) (hden x)),
      abs_of_nonneg (by positivity : 0 ≤ Real.sin x ^ 2 / 2)]
    have h1 : |Real.sin x| ≤ 1 := Real.abs_sin_le_one x
    have h2 : Real.sin x ^ 2 / 2 ≤ 1 / 2 := by have := Real.sin_sq_le_one x; linarith
    have h3 : (Real.sin x ^ 2 / 2) ^ n ≤ (1 / 2) ^ n := pow_le_pow_left₀ (by positivity) h2 n
    have h4 : (0 : ℝ) < (1 / 2) ^ n := by positivity
    calc |Real.sin x| * (Real.sin x ^ 2 / 2) ^ n ≤ 1 * (1 / 2) ^ n := mul_le_mul h1 h3 (by positivity) (by norm_num)
      _ ≤ 2 * (1 / 2) ^ n * (1 - Real.sin x ^ 2 / 2) := by have := mul_le_mul_of_nonneg_left (hden x) h4.le; linarith
  have hlim := (tendsto_pow_atTop_nhds_zero_of_lt_one (by norm_num : (0 : ℝ) ≤ 1 / 2) (by norm_num)).const_mul (2 * Real.pi)
  rw [mul_zero] at hlim
  have h0 := squeeze_zero_norm hrem hlim
  have h := (h0.const_sub Real.pi).div_const 2
  rw [sub_zero] at h
  refine h.congr fun n => ?_
  have := hsum n
  rw [hval] at this
  rw [← this]
  ring

theorem factorial_le_oddProd : ∀ n : ℕ, (n.factorial : ℝ) ≤ oddProd n
  | 0 => by simp [oddProd]
  | n + 1 => by
    have := factorial_le_oddProd n
    rw [Nat.factorial_succ, oddProd]
    push_cast
    have h0 : (0 : ℝ) ≤ n := Nat.cast_nonneg n
    exact mul_le_mul (by linarith) this (by positivity) (by positivity)

theorem cf2_contQ (n : ℕ) : contQ (seqAt [[1, 3]]) (seqAt [[0, 3, -2]]) (n + 1) ≠ 0 := by
  have h : (0 : ℝ) < contQ (seqAt [[1, 3]]) (seqAt [[0, 3, -2]]) (n + 1) := by
    rw [(cf2_pq n).2]
    have h1 : 0 ≤ oddSum n := Finset.sum_nonneg fun k _ => div_nonneg (by positivity) (oddProd_pos _).le
    have h2 := oddProd_pos n
    positivity
  intro h0
  rw [h0] at h
  simp at h

theorem cf2_tendsto : Tendsto (fun n => (contP (seqAt [[1, 3]]) (seqAt [[0, 3, -2]]) (n + 1) : ℝ) / contQ (seqAt [[1, 3]]) (seqAt [[0, 3, -2]]) (n + 1))
    atTop (𝓝 (4 / Real.pi)) := by
  have hpi := Real.pi_pos
  have hr : Tendsto (fun n : ℕ => (n.factorial : ℝ) * (n + 2) / (oddProd n * (n ^ 2 + 3 * n + 1))) atTop (𝓝 0) := by
    have hl := (tendsto_one_div_add_atTop_nhds_zero_nat (𝕜 := ℝ)).const_mul 2
    rw [mul_zero] at hl
    refine squeeze_zero (fun n => div_nonneg (by positivity) (mul_nonneg (oddProd_pos n).le (by positivity))) (fun n => ?_) hl
    have h1 := oddProd_pos n
    have h2 := factorial_le_oddProd n
    have h3 : (0 : ℝ) ≤ n := Nat.cast_nonneg n
    rw [div_le_iff₀ (by positivity)]
    have h4 : 2 * (1 / ((n : ℝ) + 1)) * (oddProd n * (n ^ 2 + 3 * n + 1)) = oddProd n * (2 * (n ^ 2 + 3 * n + 1) / (n + 1)) := by ring
    rw [h4]
    refine mul_le_mul h2 ?_ (by positivity) h1.le
    rw [le_div_iff₀ (by positivity)]
    nlinarith
  have h := (oddSum_tendsto.add hr).div_const 2
  rw [add_zero, show Real.pi / 2 / 2 = Real.pi / 4 by ring] at h
  have h' := h.inv₀ (by positivity)
  rw [inv_div] at h'
  refine h'.congr fun n => ?_
  have h1 := (oddProd_pos n).ne'
  have h2 : ((n : ℝ) ^ 2 + 3 * n + 1) ≠ 0 := by positivity
  rw [(cf2_pq n).1, (cf2_pq n).2]
  field_simp

/-! ### `a_n = 6`, `b_n = (2n - 1)²` -/

theorem a4_eq (n : ℕ) : seqAt [[6]] n = 6 := by rw [seqAt_single]; simp [horner]
theorem b4_eq (n : ℕ) : seqAt [[1, -4, 4]] n = (2 * n - 1) ^ 2 := by rw [seqAt_single]; simp [horner]; ring

/-- `1 / ((n + 1) (n + 2) (2n + 3))` -/
noncomputable def nilTerm (n : ℕ) : ℝ := 1 / (((n : ℝ) + 1) * (n + 2) * (2 * n + 3))

noncomputable def nilSum (n : ℕ) : ℝ := ∑ k ∈ Finset.range n, (-1) ^ k * nilTerm k

theorem nilSum_succ (n : ℕ) : nilSum (n + 1) = nilSum n + (-1) ^ n * nilTerm n := Finset.sum_range_succ _ _

theorem cf4_pq (n : ℕ) : (contP (seqAt [[6]]) (seqAt [[1, -4, 4]]) (n + 1) : ℝ) = (n + 1) * oddProd (n + 1) * (6 + nilSum n) ∧
    (contQ (seqAt [[6]]) (seqAt [[1, -4, 4]]) (n + 1) : ℝ) = (n + 1) * oddProd (n + 1) := by
  constructor
  · refine contP_eq' (y := fun n => (n + 1) * oddProd (n + 1) * (6 + nilSum n)) ?_ ?_ (fun n => ?_) n
    · simp [oddProd, nilSum, a4_eq]
    · simp [oddProd, nilSum, nilTerm, a4_eq, b4_eq]; norm_num
    · simp only [nilSum_succ, nilTerm, oddProd, a4_eq, b4_eq, pow_succ]
      have h1 : ((n : ℝ) + 1) ≠ 0 := by positivity
      have h2 : ((n : ℝ) + 2) ≠ 0 := by positivity
      have h3 : (2 * (n : ℝ) + 3) ≠ 0 := by positivity
      have h4 : ((n : ℝ) + 1 + 1) ≠ 0 := by positivity
      have h5 : ((n : ℝ) + 1 + 2) ≠ 0 := by positivity
      have h6 : (2 * ((n : ℝ) + 1) + 3) ≠ 0 := by positivity
      push_cast
      field_simp
      ring
  · refine contQ_eq' (y := fun n => (n + 1) * oddProd (n + 1)) ?_ ?_ (fun n => ?_) n
    · simp [oddProd]
    · simp [oddProd, a4_eq]; norm_num
    · simp only [oddProd, a4_eq, b4_eq]
      push_cast
      ring

theorem nilSum_eq (n : ℕ) : nilSum n = 4 * (∑ i ∈ Finset.range (n + 1), (-1 : ℝ) ^ i / (2 * i + 1)) - 3 - (-1) ^ n / (n + 1) := by
  induction n with
  | zero => simp [nilSum]; norm_num
  | succ n ih =>
    rw [nilSum_succ, ih, Finset.sum_range_succ _ (n + 1), nilTerm, pow_succ]
    have h1 : ((n : ℝ) + 1) ≠ 0 := by positivity
    have h2 : ((n : ℝ) + 2) ≠ 0 := by positivity
    have h3 : (2 * (n : ℝ) + 3) ≠ 0 := by positivity
    have h4 : ((n : ℝ) + 1 + 1) ≠ 0 := by positivity
    have h5 : (2 * ((n : ℝ) + 1) + 1) ≠ 0 := by positivity
    push_cast
    field_simp
    ring

theorem nilSum_tendsto : Tendsto nilSum atTop (𝓝 (Real.pi - 3)) := by
  have h1 := ((tendsto_add_atTop_iff_nat 1).2 Real.tendsto_sum_pi_div_four).const_mul 4
  have h2 : Tendsto (fun n : ℕ => (-1 : ℝ) ^ n / (n + 1)) atTop (𝓝 0) := by
    refine squeeze_zero_norm (fun n => ?_) (tendsto_one_div_add_atTop_nhds_zero_nat (𝕜 := ℝ))
    rw [norm_div, norm_pow, norm_neg, norm_one, one_pow, Real.norm_eq_abs, abs_of_pos (by positivity)]
  have h := (h1.sub_const 3).sub h2
  rw [sub_zero, show 4 * (Real.pi / 4) - 3 = Real.pi - 3 by ring] at h
  exact h.congr fun n => (nilSum_eq n).symm

theorem nilTerm_sub (n : ℕ) : nilTerm n - nilTerm (n + 1) = 6 / (((n : ℝ) + 1) * (n + 3) * (2 * n + 3) * (2 * n + 5)) := by
  rw [nilTerm, nilTerm]
  have h1 : ((n : ℝ) + 1) ≠ 0 := by positivity
  have h2 : ((n : ℝ) + 2) ≠ 0 := by positivity
  have h3 : (2 * (n : ℝ) + 3) ≠ 0 := by positivity
  have h4 : ((n : ℝ) + 1 + 1) ≠ 0 := by positivity
  have h5 : ((n : ℝ) + 1 + 2) ≠ 0 := by positivity
  have h6 : (2 * ((n : ℝ) + 1) + 3) ≠ 0 := by positivity
  have h7 : ((n : ℝ) + 3) ≠ 0 := by positivity
  have h8 : (2 * (n : ℝ) + 5) ≠ 0 := by positivity
  push_cast
  field_simp
  ring

theorem nilTerm_sub_anti (n : ℕ) : nilTerm (n + 1) - nilTerm (n + 2) ≤ nilTerm n - nilTerm (n + 1) := by
  rw [nilTerm_sub, nilTerm_sub]
  push_cast
  gcongr <;> linarith

theorem nilTerm_nonneg (n : ℕ) : 0 ≤ nilTerm n := by rw [nilTerm]; positivity

/-- A sequence with limit `0` that decreases in steps of two is not negative. -/
theorem nonneg_of_steps {e : ℕ → ℝ} (h : ∀ n, e (n + 2) ≤ e n) (hl : Tendsto e atTop (𝓝 0)) (n : ℕ) : 0 ≤ e n := by
  have hk : ∀ k, e (n + 2 * k) ≤ e n := by
    intro k
    induction k with
    | zero => exact le_rfl
    | succ k ih => exact (h (n + 2 * k)).trans ih
  refine le_of_tendsto' (hl.comp (tendsto_atTop_mono (fun k => ?_) tendsto_id)) hk
  show k ≤ n + 2 * k
  omega

theorem nilTerm_tendsto : Tendsto nilTerm atTop (𝓝 0) := by
  refine squeeze_zero nilTerm_nonneg (fun n => ?_) (tendsto_one_div_add_atTop_nhds_zero_nat (𝕜 := ℝ))
  rw [nilTerm]
  have h0 : (0 : ℝ) ≤ n := Nat.cast_nonneg n
  refine one_div_le_one_div_of_le (by positivity) ?_
  have : (1 : ℝ) ≤ (n + 2) * (2 * n + 3) := by nlinarith
  nlinarith

theorem nil_error (n : ℕ) : nilTerm (n + 1) / 2 ≤ |nilSum n - (Real.pi - 3)| ∧ |nilSum n - (Real.pi - 3)| ≤ nilTerm n := by
  set e : ℕ → ℝ := fun n => (-1) ^ n * (Real.pi - 3 - nilSum n) with he
  have habs : ∀ n, |nilSum n - (Real.pi - 3)| = |e n| := fun n => by
    rw [he]; simp only; rw [abs_mul, abs_pow, abs_neg, abs_one, one_pow, one_mul, abs_sub_comm]
  have hsum : ∀ n, e n + e (n + 1) = nilTerm n := by
    intro n
    have h1 : ((-1 : ℝ) ^ n) * (-1) ^ n = 1 := by rw [← mul_pow]; norm_num
    simp only [he]
    rw [nilSum_succ, pow_succ]
    linear_combination nilTerm n * h1
  have hlim : Tendsto e atTop (𝓝 0) := by
    rw [tendsto_zero_iff_abs_tendsto_zero]
    have := (nilSum_tendsto.sub_const (Real.pi - 3)).abs
    rw [sub_self, abs_zero] at this
    exact this.congr habs
  have hnn : ∀ n, 0 ≤ e n := nonneg_of_steps (fun n => by
    have h1 := hsum n
    have h2 := hsum (n + 1)
    have h3 : nilTerm (n + 1) ≤ nilTerm n := by
      have := nilTerm_sub n
      have : 0 ≤ nilTerm n - nilTerm (n + 1) := by rw [this]; positivity
      linarith
    rw [show n + 1 + 1 = n + 2 from rfl] at h2
    linarith) hlim
  have hlow : ∀ n, 0 ≤ e n - nilTerm (n + 1) / 2 := nonneg_of_steps (fun n => by
    have h1 := hsum n
    have h2 := hsum (n + 1)
    have d1 := nilTerm_sub_anti n
    have d2 := nilTerm_sub_anti (n + 1)
    rw [show n + 1 + 1 = n + 2 from rfl] at h2 d2
    rw [show n + 1 + 2 = n + 3 from rfl] at d2
    rw [show n + 2 + 1 = n + 3 from rfl]
    linarith) (by
    have := hlim.sub (((tendsto_add_atTop_iff_nat 1).2 nilTerm_tendsto).div_const 2)
    rw [zero_div, sub_zero] at this
    exact this)
  rw [habs, abs_of_nonneg (hnn n)]
  exact ⟨by linarith [hlow n], by linarith [hsum n, hnn (n + 1)]⟩

theorem cf4_contQ (n : ℕ) : contQ (seqAt [[6]]) (seqAt [[1, -4, 4]]) (n + 1) ≠ 0 := by
  intro h0
  have h := (cf4_pq n).2
  rw [h0] at h
  have := oddProd_pos (n + 1)
  have h' : (0 : ℝ) < (n + 1) * oddProd (n + 1) := by positivity
  rw [← h] at h'
  simp at h'

theorem cf4_poly : ConvergesPolyTo (seqAt [[6]]) (seqAt [[1, -4, 4]]) (Real.pi + 3) 3 := by
  refine ⟨1 / 168, 1 / 2, 1, by norm_num, fun n hn => ⟨cf4_contQ n, ?_⟩⟩
  have h0 := oddProd_pos (n + 1)
  have h1 : (1 : ℝ) ≤ n := by exact_mod_cast hn
  have e : (contP (seqAt [[6]]) (seqAt [[1, -4, 4]]) (n + 1) : ℝ) / contQ (seqAt [[6]]) (seqAt [[1, -4, 4]]) (n + 1) - (Real.pi + 3) =
      nilSum n - (Real.pi - 3) := by
    rw [(cf4_pq n).1, (cf4_pq n).2, mul_div_cancel_left₀ _ (by positivity)]; ring
  rw [e]
  obtain ⟨l1, l2⟩ := nil_error n
  refine ⟨le_trans ?_ l1, l2.trans ?_⟩
  · rw [nilTerm, div_div, div_div, div_le_div_iff₀ (by positivity) (by positivity)]
    push_cast
    have a1 : (n : ℝ) + 1 + 1 ≤ 3 * n := by linarith
    have a2 : (n : ℝ) + 1 + 2 ≤ 4 * n := by linarith
    have a3 : 2 * ((n : ℝ) + 1) + 3 ≤ 7 * n := by linarith
    have := mul_le_mul (mul_le_mul a1 a2 (by positivity) (by positivity)) a3 (by positivity) (by positivity)
    nlinarith
  · rw [nilTerm, div_div, div_le_div_iff₀ (by positivity) (by positivity)]
    have a1 : (n : ℝ) ≤ n + 1 := by linarith
    have a2 : (n : ℝ) ≤ n + 2 := by linarith
    have a3 : 2 * (n : ℝ) ≤ 2 * n + 3 := by linarith
    have := mul_le_mul (mul_le_mul a1 a2 (by positivity) (by positivity)) a3 (by positivity) (by positivity)
    nlinarith

end PiCF
