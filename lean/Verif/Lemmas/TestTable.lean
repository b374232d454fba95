import Mathlib.Analysis.SpecialFunctions.Pow.Deriv
import Mathlib.Analysis.Real.Pi.Bounds
import Mathlib.NumberTheory.Real.GoldenRatio
import Verif.Lemmas.Documented

/-!
# Explicit error bounds for the continued fractions of tests/test_cont_fracs.py
-/

namespace PiCF
open PiCF.Spec Filter Topology

/-- Solutions of the recurrence are `P_n - l Q_n`, if the first two values are. -/
theorem form_eq {a b : ℕ → ℤ} {y : ℕ → ℝ} (l : ℝ) (h0 : y 0 = 1) (h1 : y 1 = a 0 - l)
    (hy : ∀ n, y (n + 2) = a (n + 1) * y (n + 1) + b (n + 1) * y n) (n : ℕ) : (contP a b n : ℝ) - l * contQ a b n = y n :=
  solves_unique (a := a) (b := b) (x := fun n => (contP a b n : ℝ) - l * contQ a b n) (by simp [contP, contQ, h0])
    (by simp [contP, contQ, h1]) (fun n => by simp only [contP, contQ]; push_cast; ring) hy n

theorem error_of_form {a b : ℕ → ℤ} {l y : ℝ} {n : ℕ} (h : (contP a b n : ℝ) - l * contQ a b n = y) (hq : 0 < contQ a b n) :
    |(contP a b n : ℝ) / contQ a b n - l| = |y| / contQ a b n := by
  have hq' : (0 : ℝ) < contQ a b n := by exact_mod_cast hq
  rw [div_sub' hq'.ne', abs_div, abs_of_pos hq', ← h, mul_comm l]

/-! ### `a_n = 2`, `b_n = (2n - 1)²` -/

theorem a5_eq (n : ℕ) : seqAt [[2]] n = 2 := by rw [seqAt_single]; simp [horner]

/-- `1 - 1/3 + 1/5 - …`, `n` terms -/
noncomputable def leibniz (n : ℕ) : ℝ := ∑ i ∈ Finset.range n, (-1 : ℝ) ^ i / (2 * i + 1)

theorem leibniz_succ (n : ℕ) : leibniz (n + 1) = leibniz n + (-1) ^ n / (2 * n + 1) := Finset.sum_range_succ _ _

theorem cf5_pq (n : ℕ) : (contP (seqAt [[2]]) (seqAt [[1, -4, 4]]) n : ℝ) = oddProd n * (1 + leibniz n) ∧
    (contQ (seqAt [[2]]) (seqAt [[1, -4, 4]]) n : ℝ) = oddProd n * leibniz n := by
  have key : ∀ n : ℕ, oddProd (n + 2) * leibniz (n + 2) = 2 * (oddProd (n + 1) * leibniz (n + 1)) + (2 * n + 1) ^ 2 * (oddProd n * leibniz n) := by
    intro n
    rw [leibniz_succ (n + 1), leibniz_succ n, oddProd, oddProd, pow_succ]
    have h1 : (2 * (n : ℝ) + 1) ≠ 0 := by positivity
    have h2 : (2 * ((n : ℝ) + 1) + 1) ≠ 0 := by positivity
    push_cast
    field_simp
    ring
  constructor
  · refine contP_eq (y := fun n => oddProd n * (1 + leibniz n)) ?_ ?_ (fun n => ?_) n
    · simp [oddProd, leibniz]
    · simp [oddProd, leibniz, a5_eq]; norm_num
    · simp only [a5_eq, b4_eq, mul_add, key, mul_one]
      rw [oddProd, oddProd]
      push_cast
      ring
  · refine contQ_eq (y := fun n => oddProd n * leibniz n) ?_ ?_ (fun n => ?_) n
    · simp [leibniz]
    · simp [oddProd, leibniz]
    · simp only [a5_eq, b4_eq, key]
      push_cast
      ring

theorem leibniz_error (n : ℕ) : |leibniz (n + 1) - Real.pi / 4| ≤ 1 / (2 * (2 * n + 1)) := by
  set e : ℕ → ℝ := fun n => (-1) ^ n * (Real.pi / 4 - leibniz n) with he
  have habs : ∀ n, |leibniz n - Real.pi / 4| = |e n| := fun n => by
    rw [he]; simp only; rw [abs_mul, abs_pow, abs_neg, abs_one, one_pow, one_mul, abs_sub_comm]
  have hsum : ∀ n : ℕ, e n + e (n + 1) = 1 / (2 * n + 1) := by
    intro n
    have h1 : ((-1 : ℝ) ^ n) * (-1) ^ n = 1 := by rw [← mul_pow]; norm_num
    simp only [he]
    rw [leibniz_succ, pow_succ]
    rw [show (-1 : ℝ) ^ n * (Real.pi / 4 - leibniz n) + (-1) ^ n * -1 * (Real.pi / 4 - (leibniz n + (-1) ^ n / (2 * n + 1))) =
      ((-1) ^ n * (-1) ^ n) / (2 * n + 1) by ring, h1]
  have hlim : Tendsto e atTop (𝓝 0) := by
    rw [tendsto_zero_iff_abs_tendsto_zero]
    have := (Real.tendsto_sum_pi_div_four.sub_const (Real.pi / 4)).abs
    rw [sub_self, abs_zero] at this
    exact this.congr habs
  have hterm : Tendsto (fun n : ℕ => (1 : ℝ) / (2 * n + 1)) atTop (𝓝 0) := by
    refine squeeze_zero (fun n => by positivity) (fun n => ?_) (tendsto_one_div_add_atTop_nhds_zero_nat (𝕜 := ℝ))
    have h0 : (0 : ℝ) ≤ n := Nat.cast_nonneg n
    exact one_div_le_one_div_of_le (by positivity) (by linarith)
  have hanti : ∀ n : ℕ, (1 : ℝ) / (2 * (n + 1 : ℕ) + 1) ≤ 1 / (2 * n + 1) := fun n => by
    have h0 : (0 : ℝ) ≤ n := Nat.cast_nonneg n
    exact one_div_le_one_div_of_le (by positivity) (by push_cast; linarith)
  have hnn : ∀ n, 0 ≤ e n := nonneg_of_steps (fun n => by
    have h1 := hsum n
    have h2 := hsum (n + 1)
    rw [show n + 1 + 1 = n + 2 from rfl] at h2
    linarith [hanti n]) hlim
  have hconv : ∀ n : ℕ, 2 * (1 / (2 * (n + 1 : ℕ) + 1) : ℝ) ≤ 1 / (2 * n + 1) + 1 / (2 * (n + 2 : ℕ) + 1) := by
    intro n
    have h0 : (0 : ℝ) ≤ n := Nat.cast_nonneg n
    push_cast
    rw [div_add_div _ _ (by positivity) (by positivity), ← mul_div_assoc, div_le_div_iff₀ (by positivity) (by positivity)]
    nlinarith
  have hlow : ∀ n : ℕ, 0 ≤ 1 / (2 * (n : ℝ) + 1) / 2 - e (n + 1) := nonneg_of_steps (fun n => by
    have h1 := hsum (n + 1)
    have h2 := hsum (n + 2)
    have d1 := hconv n
    rw [show n + 1 + 1 = n + 2 from rfl] at h1
    rw [show n + 2 + 1 = n + 3 from rfl] at h2 ⊢
    linarith) (by
    have := (hterm.div_const 2).sub ((tendsto_add_atTop_iff_nat 1).2 hlim)
    rw [zero_div, sub_zero] at this
    exact this)
  rw [habs, abs_of_nonneg (hnn _)]
  have := hlow n
  rw [div_div, mul_comm (2 * (n : ℝ) + 1)] at this
  linarith

theorem leibniz_pos (n : ℕ) : 2 / 3 ≤ leibniz (n + 1) := by
  rcases Nat.lt_or_ge n 4 with h | h
  · interval_cases n <;> simp only [leibniz, Finset.sum_range_succ, Finset.sum_range_zero] <;> norm_num
  · have h1 := abs_le.1 (leibniz_error n)
    have h2 : (1 : ℝ) / (2 * (2 * n + 1)) ≤ 1 / (2 * (2 * 4 + 1)) :=
      one_div_le_one_div_of_le (by norm_num) (by have : (4 : ℝ) ≤ n := by exact_mod_cast h
                                                 linarith)
    have := Real.pi_gt_d2
    generalize (1 : ℝ) / (2 * (2 * n + 1)) = d at h1 h2
    norm_num at h2 this
    linarith [h1.1]

theorem cf5_contQ (n : ℕ) : 0 < contQ (seqAt [[2]]) (seqAt [[1, -4, 4]]) (n + 1) := by
  have h := (cf5_pq (n + 1)).2
  have h' : (0 : ℝ) < oddProd (n + 1) * leibniz (n + 1) := mul_pos (oddProd_pos _) (by linarith [leibniz_pos n])
  rw [← h] at h'
  exact_mod_cast h'

theorem cf5_bound (n : ℕ) (hn : 500 ≤ n) :
    |(contP (seqAt [[2]]) (seqAt [[1, -4, 4]]) (n + 1) : ℝ) / contQ (seqAt [[2]]) (seqAt [[1, -4, 4]]) (n + 1) - (4 / Real.pi + 1)| ≤
      (1.63 : ℝ) / (2 * (2 * n + 1)) := by
  have h0 := oddProd_pos (n + 1)
  have hl := leibniz_pos n
  have hpi := Real.pi_gt_d2
  have hS : (0.7845 : ℝ) ≤ leibniz (n + 1) := by
    have h1 := abs_le.1 (leibniz_error n)
    have h2 : (1 : ℝ) / (2 * (2 * n + 1)) ≤ 1 / (2 * (2 * 500 + 1)) :=
      one_div_le_one_div_of_le (by norm_num) (by have : (500 : ℝ) ≤ n := by exact_mod_cast hn
                                                 linarith)
    generalize (1 : ℝ) / (2 * (2 * n + 1)) = d at h1 h2
    norm_num at h2 hpi ⊢
    linarith [h1.1]
  rw [(cf5_pq _).1, (cf5_pq _).2, mul_div_mul_left _ _ h0.ne']
  have e : (1 + leibniz (n + 1)) / leibniz (n + 1) - (4 / Real.pi + 1) =
      (Real.pi / 4 - leibniz (n + 1)) / (leibniz (n + 1) * (Real.pi / 4)) := by
    have h1 : leibniz (n + 1) ≠ 0 := by linarith
    have h2 : Real.pi ≠ 0 := Real.pi_ne_zero
    field_simp
    ring
  have hm : (1 : ℝ) / 1.63 ≤ leibniz (n + 1) * (Real.pi / 4) := by
    have : (0.7845 : ℝ) * 0.785 ≤ leibniz (n + 1) * (Real.pi / 4) :=
      mul_le_mul hS (by norm_num at hpi ⊢; linarith) (by norm_num) (by linarith)
    refine le_trans ?_ this
    norm_num
  have hm0 : 0 < leibniz (n + 1) * (Real.pi / 4) := lt_of_lt_of_le (by norm_num) hm
  rw [e, abs_div, abs_of_pos hm0, abs_sub_comm, div_le_iff₀ hm0]
  refine (leibniz_error n).trans ?_
  have h3 : (0 : ℝ) ≤ 1.63 / (2 * (2 * n + 1)) := by positivity
  calc (1 : ℝ) / (2 * (2 * n + 1)) = 1.63 / (2 * (2 * n + 1)) * (1 / 1.63) := by ring
    _ ≤ _ := mul_le_mul_of_nonneg_left hm h3

/-! ### `a_n = 2 + n`, `b_n = -n` -/

theorem a6_eq (n : ℕ) : seqAt [[2, 1]] n = 2 + n := by rw [seqAt_single]; simp [horner]
theorem b6_eq (n : ℕ) : seqAt [[0, -1]] n = -n := by rw [seqAt_single]; simp [horner]

/-- `1 + 1/1! + 1/2! + …`, `n + 1` terms -/
noncomputable def expSum (n : ℕ) : ℝ := ∑ i ∈ Finset.range (n + 1), (1 : ℝ) / i.factorial

theorem expSum_succ (n : ℕ) : expSum (n + 1) = expSum n + 1 / (n + 1).factorial := Finset.sum_range_succ _ _

theorem cf6_pq (n : ℕ) : (contP (seqAt [[2, 1]]) (seqAt [[0, -1]]) n : ℝ) = n.factorial * expSum n ∧
    (contQ (seqAt [[2, 1]]) (seqAt [[0, -1]]) n : ℝ) = n.factorial * (expSum n - 1) := by
  have hf (n : ℕ) : (n.factorial : ℝ) ≠ 0 := by exact_mod_cast n.factorial_ne_zero
  have hs (n : ℕ) : ((n + 1).factorial : ℝ) = (n + 1) * n.factorial := by rw [Nat.factorial_succ]; push_cast; ring
  constructor
  · refine contP_eq (y := fun n => n.factorial * expSum n) ?_ ?_ (fun n => ?_) n
    · simp [expSum]
    · simp [expSum, a6_eq, Finset.sum_range_succ]; norm_num
    · simp only [a6_eq, b6_eq, expSum_succ]
      rw [hs (n + 1), hs n]
      have := hf n
      have h1 : ((n : ℝ) + 1) ≠ 0 := by positivity
      have h2 : ((n : ℝ) + 1 + 1) ≠ 0 := by positivity
      push_cast
      field_simp
      ring
  · refine contQ_eq (y := fun n => n.factorial * (expSum n - 1)) ?_ ?_ (fun n => ?_) n
    · simp [expSum]
    · simp [expSum, Finset.sum_range_succ]
    · simp only [a6_eq, b6_eq, expSum_succ]
      rw [hs (n + 1), hs n]
      have := hf n
      have h1 : ((n : ℝ) + 1) ≠ 0 := by positivity
      have h2 : ((n : ℝ) + 1 + 1) ≠ 0 := by positivity
      push_cast
      field_simp
      ring

theorem expSum_two (n : ℕ) : 2 ≤ expSum (n + 1) := by
  induction n with
  | zero => simp [expSum, Finset.sum_range_succ]; norm_num
  | succ n ih => rw [expSum_succ]; have : (0 : ℝ) ≤ 1 / (n + 1 + 1).factorial := by positivity
                 linarith

theorem cf6_contQ (n : ℕ) : 0 < contQ (seqAt [[2, 1]]) (seqAt [[0, -1]]) (n + 1) := by
  have h := (cf6_pq (n + 1)).2
  have hf : (0 : ℝ) < (n + 1).factorial := by exact_mod_cast Nat.factorial_pos _
  have h' : (0 : ℝ) < (n + 1).factorial * (expSum (n + 1) - 1) := mul_pos hf (by linarith [expSum_two n])
  rw [← h] at h'
  exact_mod_cast h'

theorem cf6_bound (n : ℕ) :
    |(contP (seqAt [[2, 1]]) (seqAt [[0, -1]]) (n + 1) : ℝ) / contQ (seqAt [[2, 1]]) (seqAt [[0, -1]]) (n + 1) - Real.exp 1 / (Real.exp 1 - 1)| ≤
      (1 / 2) ^ n := by
  have hf : (0 : ℝ) < (n + 1).factorial := by exact_mod_cast Nat.factorial_pos _
  have hl := expSum_two n
  have he : (2 : ℝ) ≤ Real.exp 1 := by have := Real.add_one_le_exp 1; linarith
  rw [(cf6_pq _).1, (cf6_pq _).2, mul_div_mul_left _ _ hf.ne']
  have e : expSum (n + 1) / (expSum (n + 1) - 1) - Real.exp 1 / (Real.exp 1 - 1) =
      (Real.exp 1 - expSum (n + 1)) / ((expSum (n + 1) - 1) * (Real.exp 1 - 1)) := by
    have h1 : expSum (n + 1) - 1 ≠ 0 := by linarith
    have h2 : Real.exp 1 - 1 ≠ 0 := by linarith
    field_simp
    ring
  have hm : (1 : ℝ) ≤ (expSum (n + 1) - 1) * (Real.exp 1 - 1) := by nlinarith
  have hm0 : 0 < (expSum (n + 1) - 1) * (Real.exp 1 - 1) := by linarith
  rw [e, abs_div, abs_of_pos hm0]
  refine (div_le_self (abs_nonneg _) hm).trans ?_
  have hb := Real.exp_bound (x := 1) (by simp) (n := n + 1 + 1) (by omega)
  simp only [one_pow, abs_one, one_mul] at hb
  refine hb.trans ?_
  have h2 : (2 : ℝ) ^ (n + 1) ≤ (n + 1 + 1).factorial := by
    have := Nat.factorial_mul_pow_le_factorial (m := 1) (n := n + 1)
    rw [Nat.factorial_one, one_mul, add_comm 1 (n + 1)] at this
    exact_mod_cast this
  have h3 : (0 : ℝ) < (n + 1 + 1).factorial := by exact_mod_cast Nat.factorial_pos _
  have h4 : ((n + 1 + 1).succ : ℝ) ≤ 2 * (n + 1 + 1 : ℕ) := by push_cast; linarith [(Nat.cast_nonneg n : (0 : ℝ) ≤ n)]
  rw [one_div, inv_pow, ← one_div, div_le_div_iff₀ (by positivity) (by positivity), one_mul]
  have h5 : (0 : ℝ) < (n + 1 + 1 : ℕ) := by positivity
  calc ((n + 1 + 1).succ : ℝ) * 2 ^ n ≤ 2 * (n + 1 + 1 : ℕ) * 2 ^ n := mul_le_mul_of_nonneg_right h4 (by positivity)
    _ = 2 ^ (n + 1) * (n + 1 + 1 : ℕ) := by rw [pow_succ]; ring
    _ ≤ _ := mul_le_mul_of_nonneg_right h2 h5.le

/-! ### `a_n = 1`, `b_n = 1` -/

theorem c7_eq (n : ℕ) : seqAt [[1]] n = 1 := by rw [seqAt_single]; simp [horner]

theorem cf7_pq (n : ℕ) : (contP (seqAt [[1]]) (seqAt [[1]]) n : ℝ) = Nat.fib (n + 1) ∧ (contQ (seqAt [[1]]) (seqAt [[1]]) n : ℝ) = Nat.fib n := by
  constructor
  · refine contP_eq (y := fun n => (Nat.fib (n + 1) : ℝ)) ?_ ?_ (fun n => ?_) n
    · simp
    · simp [c7_eq]
    · simp only [c7_eq]
      rw [show n + 2 + 1 = n + 1 + 2 from rfl, Nat.fib_add_two]
      push_cast
      ring
  · refine contQ_eq (y := fun n => (Nat.fib n : ℝ)) ?_ ?_ (fun n => ?_) n
    · simp
    · simp
    · simp only [c7_eq]
      rw [Nat.fib_add_two]
      push_cast
      ring

theorem cf7_contQ (n : ℕ) : 0 < contQ (seqAt [[1]]) (seqAt [[1]]) (n + 1) := by
  have h := (cf7_pq (n + 1)).2
  have h' : (0 : ℝ) < Nat.fib (n + 1) := by exact_mod_cast Nat.fib_pos.2 (Nat.succ_pos n)
  rw [← h] at h'
  exact_mod_cast h'

theorem cf7_bound (n : ℕ) :
    |(contP (seqAt [[1]]) (seqAt [[1]]) (n + 1) : ℝ) / contQ (seqAt [[1]]) (seqAt [[1]]) (n + 1) - Real.goldenRatio| ≤ (3 / 4) ^ n := by
  have hq : (1 : ℝ) ≤ contQ (seqAt [[1]]) (seqAt [[1]]) (n + 1) := by exact_mod_cast cf7_contQ n
  have hform : (contP (seqAt [[1]]) (seqAt [[1]]) (n + 1) : ℝ) - Real.goldenRatio * contQ (seqAt [[1]]) (seqAt [[1]]) (n + 1) =
      Real.goldenConj ^ (n + 1) := by
    rw [(cf7_pq _).1, (cf7_pq _).2]
    exact Real.fib_succ_sub_goldenRatio_mul_fib (n + 1)
  rw [error_of_form hform (cf7_contQ n)]
  refine (div_le_self (abs_nonneg _) hq).trans ?_
  have h1 : |Real.goldenConj| ≤ 3 / 4 := by
    rw [Real.goldenConj, abs_le]
    have h5 : √5 ≤ 5 / 2 := by rw [Real.sqrt_le_left (by norm_num)]; norm_num
    have h6 : 1 ≤ √5 := by rw [Real.le_sqrt' (by norm_num)]; norm_num
    constructor <;> linarith
  rw [abs_pow]
  refine (pow_le_pow_left₀ (abs_nonneg _) h1 _).trans ?_
  exact pow_le_pow_of_le_one (by norm_num) (by norm_num) (Nat.le_succ n)

/-! ### `a_n = 1 + 2n`, `b_n = n²` -/

theorem cf3_bound (n : ℕ) :
    |(contP (seqAt [[1, 2]]) (seqAt [[0, 0, 1]]) (n + 1) : ℝ) / contQ (seqAt [[1, 2]]) (seqAt [[0, 0, 1]]) (n + 1) - 4 / Real.pi| ≤
      2 * (1 / 2) ^ n := by
  have hpi := Real.pi_gt_three
  have hf0 : (0 : ℝ) < (n + 1).factorial := by exact_mod_cast Nat.factorial_pos _
  have hP := cf3_contP (n + 1)
  have hP0 := hf0.trans_le hP
  have hQ0 : (0 : ℝ) < contQ (seqAt [[1, 2]]) (seqAt [[0, 0, 1]]) (n + 1) := by exact_mod_cast (contQ_pos cf3_pos n).2
  have hform := cf3_form (n + 1)
  have hl := legendreInt_le (n + 1)
  set P : ℝ := ((contP (seqAt [[1, 2]]) (seqAt [[0, 0, 1]]) (n + 1) : ℤ) : ℝ)
  set Q : ℝ := ((contQ (seqAt [[1, 2]]) (seqAt [[0, 0, 1]]) (n + 1) : ℤ) : ℝ)
  have hy : |Q - P * (Real.pi / 4)| ≤ P * (Real.pi / 4 * (1 / 2) ^ (n + 1)) := by
    rw [hform, abs_neg, abs_mul, abs_mul, abs_pow, abs_neg, abs_one, one_pow, one_mul, abs_of_pos hf0]
    exact mul_le_mul hP hl (abs_nonneg _) hP0.le
  have hk : (1 / 2 : ℝ) ^ (n + 1) ≤ 1 / 2 := by
    have := pow_le_pow_of_le_one (by norm_num : (0 : ℝ) ≤ 1 / 2) (by norm_num) (Nat.succ_le_succ (Nat.zero_le n))
    simpa using this
  have hQ : P * (Real.pi / 4) * (1 / 2) ≤ Q := by
    have h1 := (abs_le.1 hy).1
    have h2 : P * (Real.pi / 4 * (1 / 2) ^ (n + 1)) ≤ P * (Real.pi / 4 * (1 / 2)) :=
      mul_le_mul_of_nonneg_left (mul_le_mul_of_nonneg_left hk (by linarith)) hP0.le
    linarith
  have e : P / Q - 4 / Real.pi = -(Q - P * (Real.pi / 4)) * (4 / Real.pi) / Q := by
    have h2 : Real.pi ≠ 0 := Real.pi_ne_zero
    field_simp
    ring
  rw [e, abs_div, abs_of_pos hQ0, div_le_iff₀ hQ0, abs_mul, abs_neg, abs_of_pos (by positivity : 0 < 4 / Real.pi)]
  have h3 : |Q - P * (Real.pi / 4)| * (4 / Real.pi) ≤ P * (Real.pi / 4 * (1 / 2) ^ (n + 1)) * (4 / Real.pi) :=
    mul_le_mul_of_nonneg_right hy (by positivity)
  have h4 : P * (Real.pi / 4 * (1 / 2) ^ (n + 1)) * (4 / Real.pi) = P * (1 / 2) ^ (n + 1) := by
    have h2 : Real.pi ≠ 0 := Real.pi_ne_zero
    field_simp
  rw [h4] at h3
  refine h3.trans ?_
  have h5 : P ≤ 4 * Q := by nlinarith
  calc P * (1 / 2) ^ (n + 1) ≤ 4 * Q * (1 / 2) ^ (n + 1) := mul_le_mul_of_nonneg_right h5 (by positivity)
    _ = _ := by rw [pow_succ]; ring

/-! ### `2, 12, 2, 36, 2, 60, …` and `1, 11, 13, 23, 25, …` -/

theorem a8_even (n : ℕ) : seqAt [[2], [0, 12]] (2 * n) = 2 := by simp [seqAt, horner]
theorem a8_odd (n : ℕ) : seqAt [[2], [0, 12]] (2 * n + 1) = 12 * (2 * n + 1) := by
  simp [seqAt, horner, Nat.add_mod]; ring
theorem b8_even (n : ℕ) : seqAt [[-1, 6], [-5, 6]] (2 * n) = 12 * n - 1 := by simp [seqAt, horner]; ring
theorem b8_odd (n : ℕ) : seqAt [[-1, 6], [-5, 6]] (2 * n + 1) = 12 * n + 1 := by
  simp [seqAt, horner, Nat.add_mod]; ring

/-- `(1 + t) ^ (1/12)` -/
noncomputable def root12 (t : ℝ) : ℝ := (1 + t) ^ (1 / 12 : ℝ)

theorem root12_deriv {t : ℝ} (ht : 0 < 1 + t) : HasDerivAt root12 (1 / 12 * root12 t / (1 + t)) t := by
  have h := ((hasDerivAt_id t).const_add 1).rpow_const (p := 1 / 12) (.inl ht.ne')
  refine h.congr_deriv ?_
  simp only [id, root12]
  rw [Real.rpow_sub_one ht.ne']
  ring

theorem root12_cont : ContinuousOn root12 (Set.uIcc 0 1) := fun t ht => by
  rw [Set.uIcc_of_le zero_le_one] at ht
  exact (root12_deriv (by linarith [ht.1])).continuousAt.continuousWithinAt

noncomputable def intA (n : ℕ) : ℝ := ∫ t in (0 : ℝ)..1, t ^ n * (1 - t) ^ n * root12 t / (1 + t) ^ (n + 1)
noncomputable def intB (n : ℕ) : ℝ := ∫ t in (0 : ℝ)..1, t ^ n * (1 - t) ^ (n + 1) * root12 t / (1 + t) ^ (n + 2)

theorem int12 (i j k : ℕ) : IntervalIntegrable (fun t => t ^ i * (1 - t) ^ j * root12 t / (1 + t) ^ k) MeasureTheory.volume 0 1 := by
  refine ContinuousOn.intervalIntegrable (ContinuousOn.div ((by fun_prop : ContinuousOn (fun t : ℝ => t ^ i * (1 - t) ^ j) _).mul root12_cont)
    (by fun_prop) fun t ht => ?_)
  rw [Set.uIcc_of_le zero_le_one] at ht
  exact pow_ne_zero _ (by linarith [ht.1])

theorem deriv12 (i j k : ℕ) {t : ℝ} (ht : 0 < 1 + t) : HasDerivAt (fun t => t ^ (i + 1) * (1 - t) ^ (j + 1) * root12 t / (1 + t) ^ k)
    (t ^ i * (1 - t) ^ j * root12 t / (1 + t) ^ (k + 1) * ((i + 1) * (1 - t) * (1 + t) - (j + 1) * t * (1 + t) + (1 / 12 - k) * t * (1 - t))) t := by
  have h1 : HasDerivAt (fun t : ℝ => t ^ (i + 1)) ((i + 1 : ℕ) * t ^ i) t := by simpa using hasDerivAt_pow (i + 1) t
  have h2 : HasDerivAt (fun t : ℝ => (1 - t) ^ (j + 1)) ((j + 1 : ℕ) * (1 - t) ^ j * -1) t := by
    simpa using ((hasDerivAt_id t).const_sub 1).fun_pow (j + 1)
  have h3 : HasDerivAt (fun t : ℝ => (1 + t) ^ k) (k * (1 + t) ^ (k - 1)) t := by
    simpa using ((hasDerivAt_id t).const_add 1).fun_pow k
  have h := (((h1.mul h2).mul (root12_deriv ht)).div h3 (pow_ne_zero k ht.ne'))
  refine HasDerivAt.congr_deriv (f := fun t => t ^ (i + 1) * (1 - t) ^ (j + 1) * root12 t / (1 + t) ^ k) h ?_
  have h4 : (k : ℝ) * (1 + t) ^ (k - 1) * (1 + t) = k * (1 + t) ^ k := by
    cases k with
    | zero => simp
    | succ k => simp [pow_succ]; ring
  have h5 : (k : ℝ) * (1 + t) ^ (k - 1) = k * (1 + t) ^ k / (1 + t) := by rw [← h4]; field_simp
  rw [h5]
  simp only [Pi.mul_apply, pow_succ]
  have := ht.ne'
  push_cast
  field_simp
  ring

theorem integral12 {f f' : ℝ → ℝ} (h : ∀ t, 0 < 1 + t → HasDerivAt f (f' t) t) (hi : IntervalIntegrable f' MeasureTheory.volume 0 1) :
    ∫ t in (0 : ℝ)..1, f' t = f 1 - f 0 :=
  intervalIntegral.integral_eq_sub_of_hasDerivAt (fun t ht => h t (by
    rw [Set.uIcc_of_le zero_le_one] at ht
    linarith [ht.1])) hi

theorem int_rec1 (n : ℕ) : ((n : ℝ) + 1 + 1 / 12) * intA (n + 1) + 2 * (n + 1) * intB n - (n + 1) * intA n = 0 := by
  have hd : ∀ t : ℝ, 0 < 1 + t → HasDerivAt (fun t => t ^ (n + 1) * (1 - t) ^ (n + 1) * root12 t / (1 + t) ^ (n + 1))
      (((n : ℝ) + 1 + 1 / 12) * (t ^ (n + 1) * (1 - t) ^ (n + 1) * root12 t / (1 + t) ^ (n + 1 + 1)) +
        2 * (n + 1) * (t ^ n * (1 - t) ^ (n + 1) * root12 t / (1 + t) ^ (n + 2)) -
        (n + 1) * (t ^ n * (1 - t) ^ n * root12 t / (1 + t) ^ (n + 1))) t := fun t ht => by
    refine (deriv12 n n (n + 1) ht).congr_deriv ?_
    have := ht.ne'
    simp only [pow_succ]
    push_cast
    field_simp
    ring
  have hi := integral12 hd (((int12 _ _ _).const_mul _ |>.add ((int12 _ _ _).const_mul _)).sub ((int12 _ _ _).const_mul _))
  rw [intervalIntegral.integral_sub ((int12 _ _ _).const_mul _ |>.add ((int12 _ _ _).const_mul _)) ((int12 _ _ _).const_mul _),
    intervalIntegral.integral_add ((int12 _ _ _).const_mul _) ((int12 _ _ _).const_mul _), intervalIntegral.integral_const_mul,
    intervalIntegral.integral_const_mul, intervalIntegral.integral_const_mul] at hi
  rw [intA, intB, intA, hi]
  simp

theorem int_rec2 (n : ℕ) : (1 / 12 - (n : ℝ) - 2) * intB (n + 1) - (2 * n + 3) * intA (n + 1) + (n + 1) * intB n = 0 := by
  have hd : ∀ t : ℝ, 0 < 1 + t → HasDerivAt (fun t => t ^ (n + 1) * (1 - t) ^ (n + 1 + 1) * root12 t / (1 + t) ^ (n + 2))
      ((1 / 12 - (n : ℝ) - 2) * (t ^ (n + 1) * (1 - t) ^ (n + 1 + 1) * root12 t / (1 + t) ^ (n + 1 + 2)) -
        (2 * n + 3) * (t ^ (n + 1) * (1 - t) ^ (n + 1) * root12 t / (1 + t) ^ (n + 1 + 1)) +
        (n + 1) * (t ^ n * (1 - t) ^ (n + 1) * root12 t / (1 + t) ^ (n + 2))) t := fun t ht => by
    refine (deriv12 n (n + 1) (n + 2) ht).congr_deriv ?_
    have := ht.ne'
    simp only [pow_succ]
    push_cast
    field_simp
    ring
  have hi := integral12 hd (((int12 _ _ _).const_mul _ |>.sub ((int12 _ _ _).const_mul _)).add ((int12 _ _ _).const_mul _))
  rw [intervalIntegral.integral_add ((int12 _ _ _).const_mul _ |>.sub ((int12 _ _ _).const_mul _)) ((int12 _ _ _).const_mul _),
    intervalIntegral.integral_sub ((int12 _ _ _).const_mul _) ((int12 _ _ _).const_mul _), intervalIntegral.integral_const_mul,
    intervalIntegral.integral_const_mul, intervalIntegral.integral_const_mul] at hi
  rw [intA, intB, intB, hi]
  simp

theorem intA_zero : intA 0 = 12 * ((2 : ℝ) ^ (1 / 12 : ℝ) - 1) := by
  have hd : ∀ t : ℝ, 0 < 1 + t → HasDerivAt (fun t => 12 * root12 t) (t ^ 0 * (1 - t) ^ 0 * root12 t / (1 + t) ^ (0 + 1)) t := fun t ht =>
    ((root12_deriv ht).const_mul 12).congr_deriv (by simp; ring)
  rw [intA, integral12 hd (int12 _ _ _), root12, root12]
  norm_num
  ring

theorem intB_zero : 11 / 12 * intB 0 = 1 - intA 0 := by
  have hd : ∀ t : ℝ, 0 < 1 + t → HasDerivAt (fun t => (1 - t) * root12 t / (1 + t))
      ((1 / 12 - 1) * (t ^ 0 * (1 - t) ^ (0 + 1) * root12 t / (1 + t) ^ (0 + 2)) - t ^ 0 * (1 - t) ^ 0 * root12 t / (1 + t) ^ (0 + 1)) t := fun t ht => by
    have h2 : HasDerivAt (fun t : ℝ => 1 - t) (-1) t := by simpa using (hasDerivAt_id t).const_sub 1
    have h3 : HasDerivAt (fun t : ℝ => 1 + t) 1 t := by simpa using (hasDerivAt_id t).const_add 1
    have h := (h2.mul (root12_deriv ht)).div h3 ht.ne'
    refine HasDerivAt.congr_deriv (f := fun t => (1 - t) * root12 t / (1 + t)) h ?_
    have := ht.ne'
    simp only [Pi.mul_apply]
    field_simp
    ring
  have hi := integral12 hd (((int12 _ _ _).const_mul _).sub (int12 _ _ _))
  rw [intervalIntegral.integral_sub ((int12 _ _ _).const_mul _) (int12 _ _ _), intervalIntegral.integral_const_mul] at hi
  have h0 : root12 0 = 1 := by simp [root12]
  rw [h0] at hi
  have : (1 / 12 - 1) * intB 0 - intA 0 = (1 - 1) * root12 1 / (1 + 1) - (1 - 0) * 1 / (1 + 0) := hi
  norm_num at this
  linarith

theorem root12_le {t : ℝ} (ht : 0 ≤ t) : 0 ≤ root12 t ∧ root12 t ≤ 1 + t := by
  refine ⟨Real.rpow_nonneg (by linarith) _, ?_⟩
  have := Real.rpow_le_rpow_of_exponent_le (by linarith : 1 ≤ 1 + t) (by norm_num : (1 / 12 : ℝ) ≤ 1)
  rwa [Real.rpow_one] at this

theorem intA_nonneg (n : ℕ) : 0 ≤ intA n := by
  refine intervalIntegral.integral_nonneg zero_le_one fun t ht => ?_
  have h1 := (root12_le ht.1).1
  have h2 : 0 ≤ 1 - t := by linarith [ht.2]
  have h3 := ht.1
  positivity

theorem intB_nonneg (n : ℕ) : 0 ≤ intB n := by
  refine intervalIntegral.integral_nonneg zero_le_one fun t ht => ?_
  have h1 := (root12_le ht.1).1
  have h2 : 0 ≤ 1 - t := by linarith [ht.2]
  have h3 := ht.1
  positivity

theorem intA_le (n : ℕ) : intA n ≤ (1 / 5) ^ n := by
  have h := intervalIntegral.integral_mono_on zero_le_one (int12 n n (n + 1)) (intervalIntegrable_const (c := (1 / 5 : ℝ) ^ n)) (fun t ht => by
    obtain ⟨h1, h1'⟩ := root12_le ht.1
    have h2 : 0 ≤ 1 - t := by linarith [ht.2]
    have h3 := ht.1
    have h4 : 0 < 1 + t := by linarith
    have h5 : t * (1 - t) / (1 + t) ≤ 1 / 5 := by
      rw [div_le_div_iff₀ h4 (by norm_num)]
      nlinarith [sq_nonneg (5 * t - 2)]
    have h6 : root12 t / (1 + t) ≤ 1 := (div_le_one h4).2 h1'
    calc t ^ n * (1 - t) ^ n * root12 t / (1 + t) ^ (n + 1) = (t * (1 - t) / (1 + t)) ^ n * (root12 t / (1 + t)) := by
          rw [div_pow, mul_pow, pow_succ]; field_simp
      _ ≤ (1 / 5) ^ n * 1 := mul_le_mul (pow_le_pow_left₀ (by positivity) h5 n) h6 (by positivity) (by positivity)
      _ = _ := mul_one _)
  rw [intervalIntegral.integral_const] at h
  simpa [intA] using h

theorem intB_le (n : ℕ) : 2 * intB n ≤ intA n := by
  have h := int_rec1 n
  have h1 := intA_nonneg (n + 1)
  have h0 : (0 : ℝ) ≤ n := Nat.cast_nonneg n
  have h2 : 0 ≤ ((n : ℝ) + 1 + 1 / 12) * intA (n + 1) := by positivity
  have h3 : ((n : ℝ) + 1) * (2 * intB n) ≤ (n + 1) * intA n := by linarith
  exact le_of_mul_le_mul_left h3 (by positivity)

/-- `1/12 · Π_{j<n} (12j + 11) (12j + 13) / (12j + 12)` -/
noncomputable def fac12 : ℕ → ℝ
  | 0 => 1 / 12
  | n + 1 => (12 * n + 13) / (12 * n + 12) * (12 * n + 11) * fac12 n

theorem fac12_pos : ∀ n, 0 < fac12 n
  | 0 => by norm_num [fac12]
  | n + 1 => by have := fac12_pos n; rw [fac12]; positivity

abbrev P8 := contP (seqAt [[2], [0, 12]]) (seqAt [[-1, 6], [-5, 6]])
abbrev Q8 := contQ (seqAt [[2], [0, 12]]) (seqAt [[-1, 6], [-5, 6]])

theorem P8_odd (n : ℕ) : P8 (2 * n + 3) = 2 * P8 (2 * n + 2) + (12 * n + 11) * P8 (2 * n + 1) := by
  show contP _ _ (2 * n + 1 + 2) = _
  rw [contP, show 2 * n + 1 + 1 = 2 * (n + 1) by ring, a8_even, b8_even]
  push_cast
  rw [show 2 * (n + 1) = 2 * n + 2 by ring]
  ring
theorem Q8_odd (n : ℕ) : Q8 (2 * n + 3) = 2 * Q8 (2 * n + 2) + (12 * n + 11) * Q8 (2 * n + 1) := by
  show contQ _ _ (2 * n + 1 + 2) = _
  rw [contQ, show 2 * n + 1 + 1 = 2 * (n + 1) by ring, a8_even, b8_even]
  push_cast
  rw [show 2 * (n + 1) = 2 * n + 2 by ring]
  ring
theorem P8_even (n : ℕ) : P8 (2 * n + 2) = 12 * (2 * n + 1) * P8 (2 * n + 1) + (12 * n + 1) * P8 (2 * n) := by
  show contP _ _ (2 * n + 2) = _
  rw [contP, a8_odd, b8_odd]
theorem Q8_even (n : ℕ) : Q8 (2 * n + 2) = 12 * (2 * n + 1) * Q8 (2 * n + 1) + (12 * n + 1) * Q8 (2 * n) := by
  show contQ _ _ (2 * n + 2) = _
  rw [contQ, a8_odd, b8_odd]

theorem cf8_form (n : ℕ) : (P8 (2 * n + 1) : ℝ) - ((2 : ℝ) ^ (1 / 12 : ℝ) + 1) * Q8 (2 * n + 1) = -(fac12 n * intA n) ∧
    (P8 (2 * n + 2) : ℝ) - ((2 : ℝ) ^ (1 / 12 : ℝ) + 1) * Q8 (2 * n + 2) = fac12 n * (12 * n + 11) * intB n := by
  induction n with
  | zero =>
    have hA := intA_zero
    have hB := intB_zero
    have e0 := a8_even 0
    have e1 := a8_odd 0
    have e2 := b8_odd 0
    simp only [mul_zero, zero_add] at e0 e1 e2
    constructor
    · simp only [P8, Q8, contP, contQ, e0, fac12, hA]
      push_cast
      ring
    · simp only [P8, Q8, mul_zero, zero_add, contP, contQ, e0, e1, e2, fac12]
      push_cast
      rw [hA] at hB
      linarith
  | succ n ih =>
    obtain ⟨h1, h2⟩ := ih
    have r1 := int_rec1 n
    have r2 := int_rec2 n
    have hn : (12 * (n : ℝ) + 12) ≠ 0 := by positivity
    have o : (P8 (2 * (n + 1) + 1) : ℝ) - ((2 : ℝ) ^ (1 / 12 : ℝ) + 1) * Q8 (2 * (n + 1) + 1) = -(fac12 (n + 1) * intA (n + 1)) := by
      rw [show 2 * (n + 1) + 1 = 2 * n + 3 by ring, P8_odd, Q8_odd]
      push_cast
      have e : fac12 (n + 1) * intA (n + 1) = fac12 n * (12 * n + 11) / (n + 1) * ((n + 1 + 1 / 12) * intA (n + 1)) := by
        rw [fac12]
        field_simp
        ring
      rw [e, show ((n : ℝ) + 1 + 1 / 12) * intA (n + 1) = (n + 1) * (intA n - 2 * intB n) by linarith]
      have hn' : ((n : ℝ) + 1) ≠ 0 := by positivity
      field_simp
      linear_combination (12 * (n : ℝ) + 11) * h1 + 2 * h2
    refine ⟨o, ?_⟩
    rw [show 2 * (n + 1) + 2 = 2 * (n + 1) + 2 from rfl, P8_even, Q8_even]
    rw [show 2 * (n + 1) = 2 * n + 2 by ring] at o ⊢
    push_cast
    have e : fac12 (n + 1) * (12 * (n + 1) + 11) * intB (n + 1) = -(12 * fac12 (n + 1) * ((1 / 12 - n - 2) * intB (n + 1))) := by ring
    rw [e, show (1 / 12 - (n : ℝ) - 2) * intB (n + 1) = (2 * n + 3) * intA (n + 1) - (n + 1) * intB n by linarith]
    have e2 : fac12 (n + 1) * (12 * (n + 1)) = (12 * n + 13) * (12 * n + 11) * fac12 n := by
      rw [fac12]; field_simp
    linear_combination 12 * (2 * (n : ℝ) + 3) * o + (12 * (n : ℝ) + 13) * h2 - intB n * e2

theorem Q8_pos : ∀ n, 0 < Q8 (2 * n + 1) ∧ 0 ≤ Q8 (2 * n)
  | 0 => by simp [Q8, contQ]
  | n + 1 => by
    obtain ⟨h1, h2⟩ := Q8_pos n
    have e : 0 ≤ Q8 (2 * n + 2) := by rw [Q8_even]; positivity
    refine ⟨?_, e⟩
    rw [show 2 * (n + 1) + 1 = 2 * n + 3 by ring, Q8_odd]
    positivity

theorem Q8_even_le (n : ℕ) : 12 * (2 * n + 1) * Q8 (2 * n + 1) ≤ Q8 (2 * n + 2) := by
  rw [Q8_even]
  have := (Q8_pos n).2
  have : 0 ≤ (12 * (n : ℤ) + 1) * Q8 (2 * n) := by positivity
  linarith

theorem cf8_contQ (n : ℕ) : 0 < Q8 (n + 1) := by
  rcases Nat.even_or_odd' n with ⟨k, rfl | rfl⟩
  · exact (Q8_pos k).1
  · refine lt_of_lt_of_le ?_ (Q8_even_le k)
    have := (Q8_pos k).1
    positivity

theorem cf8_odd_bound (n : ℕ) : fac12 n * intA n ≤ (12 / 175) ^ n * Q8 (2 * n + 1) := by
  have hk : ∀ n : ℕ, fac12 n ≤ (12 / 35) ^ n * Q8 (2 * n + 1) := by
    intro n
    induction n with
    | zero => simp [Q8, contQ, fac12]; norm_num
    | succ n ih =>
      have hq := (Q8_pos n).1
      have hq' : (0 : ℝ) < Q8 (2 * n + 1) := by exact_mod_cast hq
      have h0 : (0 : ℝ) ≤ n := Nat.cast_nonneg n
      have h1 : (35 * (n + 1) : ℝ) * Q8 (2 * n + 1) ≤ Q8 (2 * n + 3) := by
        have : (35 * (n + 1) : ℤ) * Q8 (2 * n + 1) ≤ Q8 (2 * n + 3) := by
          rw [Q8_odd]
          have := Q8_even_le n
          nlinarith
        exact_mod_cast this
      have h2 : (12 * (n : ℝ) + 13) / (12 * n + 12) * (12 * n + 11) ≤ 12 * (n + 1) := by
        rw [div_mul_eq_mul_div, div_le_iff₀ (by positivity)]
        nlinarith
      rw [fac12, show 2 * (n + 1) + 1 = 2 * n + 3 by ring]
      calc (12 * (n : ℝ) + 13) / (12 * n + 12) * (12 * n + 11) * fac12 n
          ≤ 12 * (n + 1) * ((12 / 35) ^ n * Q8 (2 * n + 1)) := mul_le_mul h2 ih (fac12_pos n).le (by positivity)
        _ = (12 / 35) ^ (n + 1) * (35 * (n + 1) * Q8 (2 * n + 1)) := by rw [pow_succ]; ring
        _ ≤ _ := mul_le_mul_of_nonneg_left h1 (by positivity)
  have hq' : (0 : ℝ) < Q8 (2 * n + 1) := by exact_mod_cast (Q8_pos n).1
  calc fac12 n * intA n ≤ ((12 / 35) ^ n * Q8 (2 * n + 1)) * (1 / 5) ^ n := mul_le_mul (hk n) (intA_le n) (intA_nonneg n) (by positivity)
    _ = ((12 / 35) * (1 / 5)) ^ n * Q8 (2 * n + 1) := by rw [mul_pow]; ring
    _ = _ := by norm_num

theorem cf8_bound (n : ℕ) : |(P8 (n + 1) : ℝ) / Q8 (n + 1) - ((2 : ℝ) ^ (1 / 12 : ℝ) + 1)| ≤ (12 / 175) ^ (n / 2) := by
  rcases Nat.even_or_odd' n with ⟨k, rfl | rfl⟩
  · have hq' : (0 : ℝ) < Q8 (2 * k + 1) := by exact_mod_cast (Q8_pos k).1
    rw [error_of_form (cf8_form k).1 (Q8_pos k).1, abs_neg, abs_of_nonneg (mul_nonneg (fac12_pos k).le (intA_nonneg k)), div_le_iff₀ hq',
      Nat.mul_div_cancel_left _ (by norm_num)]
    exact cf8_odd_bound k
  · have hq : 0 < Q8 (2 * k + 1 + 1) := cf8_contQ _
    have hq' : (0 : ℝ) < Q8 (2 * k + 2) := by exact_mod_cast hq
    have hf := fac12_pos k
    have h0 : (0 : ℝ) ≤ k := Nat.cast_nonneg k
    rw [show 2 * k + 1 + 1 = 2 * k + 2 from rfl] at hq ⊢
    rw [error_of_form (cf8_form k).2 hq, abs_of_nonneg (mul_nonneg (by positivity) (intB_nonneg k)), div_le_iff₀ hq',
      show (2 * k + 1) / 2 = k by omega]
    have h1 : (12 * (2 * k + 1) : ℝ) * Q8 (2 * k + 1) ≤ Q8 (2 * k + 2) := by exact_mod_cast Q8_even_le k
    have h2 := cf8_odd_bound k
    have h3 := intB_le k
    have h4 := intB_nonneg k
    calc fac12 k * (12 * k + 11) * intB k ≤ (12 * (2 * k + 1)) * (fac12 k * intA k) := by
          have : fac12 k * ((12 * k + 11) * intB k) ≤ fac12 k * ((12 * (2 * k + 1)) * intA k) :=
            mul_le_mul_of_nonneg_left (mul_le_mul (by linarith) (by linarith) h4 (by positivity)) hf.le
          linarith
      _ ≤ (12 * (2 * k + 1)) * ((12 / 175) ^ k * Q8 (2 * k + 1)) := mul_le_mul_of_nonneg_left h2 (by positivity)
      _ = (12 / 175) ^ k * (12 * (2 * k + 1) * Q8 (2 * k + 1)) := by ring
      _ ≤ _ := mul_le_mul_of_nonneg_left h1 (by positivity)

end PiCF
