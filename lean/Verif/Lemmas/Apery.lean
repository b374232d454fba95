import Mathlib.NumberTheory.LSeries.HurwitzZetaValues
import Verif.Lemmas.Documented

/-!
# The continued fraction of Apéry's constant

`Σ 1/n³ = 5/2 Σ (-1)^(n-1) / (n³ C(2n, n))`, by Apéry's telescoping sums, and the convergents of `a_n = 2 + 8n + 10n² + 3n³`,
`b_n = -2n⁵ + 4n⁶`.
-/

namespace PiCF.Spec
open Filter Topology Finset Nat

/-- `k!² j! / (2 k³ (2k + j)!)`, as `n = k + j`. -/
noncomputable def apEps (n k : ℕ) : ℝ := (k ! : ℝ) ^ 2 * (n - k)! / (2 * k ^ 3 * (n + k)!)

/-- `(-1)^(k-1) / (k³ C(2k, k))` for `k = n + 1`, as `(-1)^n (n+1)!² / ((n+1)³ (2n+2)!)` -/
noncomputable def apTerm (n : ℕ) : ℝ := (-1) ^ n * ((n + 1)! : ℝ) ^ 2 / ((n + 1) ^ 3 * (2 * n + 2)!)

noncomputable def apSum (n : ℕ) : ℝ := ∑ k ∈ range n, apTerm k

theorem apSum_succ (n : ℕ) : apSum (n + 1) = apSum n + apTerm n := sum_range_succ _ _

/-- The inner sum over `k = 1, …, K` for `n = K + 1 + j`. -/
theorem ap_inner (n : ℕ) : ∀ K, K + 1 ≤ n →
    ∑ k ∈ range K, (-1 : ℝ) ^ k * (k ! : ℝ) ^ 2 * (n - (k + 2))! / (n + (k + 1))! =
      1 / n ^ 3 - (-1) ^ K * (K ! : ℝ) ^ 2 * (n - (K + 1))! / (n ^ 2 * (n + K)!)
  | 0, h => by
    obtain ⟨m, rfl⟩ : ∃ m, n = m + 1 := ⟨n - 1, by omega⟩
    have : ((m ! : ℕ) : ℝ) ≠ 0 := by positivity
    have h2 : ((m : ℝ) + 1) ≠ 0 := by positivity
    simp only [range_zero, sum_empty, pow_zero, factorial_zero, zero_add, add_tsub_cancel_right, add_zero, factorial_succ]
    push_cast
    field_simp
    ring
  | K + 1, h => by
    rw [sum_range_succ, ap_inner n K (by omega)]
    obtain ⟨j, rfl⟩ : ∃ j, n = K + 2 + j := ⟨n - (K + 2), by omega⟩
    have e1 : K + 2 + j - (K + 1) = j + 1 := by omega
    have e2 : K + 2 + j - (K + 2) = j := by omega
    have e4 : K + 2 + j + (K + 1) = (K + 2 + j + K) + 1 := by omega
    rw [e1, e2, e4]
    simp only [factorial_succ]
    have h1 : (((K + 2 + j + K)! : ℕ) : ℝ) ≠ 0 := by positivity
    have h2 : ((K : ℝ) + 2 + j) ≠ 0 := by positivity
    have h3 : ((K : ℝ) + 2 + j + K + 1) ≠ 0 := by positivity
    push_cast
    field_simp
    ring

theorem apEps_sub (n k : ℕ) (h : k + 2 ≤ n + 1) :
    apEps (n + 1) (k + 1) - apEps n (k + 1) = -((k ! : ℝ) ^ 2 * (n + 1 - (k + 2))! / (n + 1 + (k + 1))!) := by
  obtain ⟨j, rfl⟩ : ∃ j, n = k + 1 + j := ⟨n - (k + 1), by omega⟩
  have e1 : k + 1 + j + 1 - (k + 1) = j + 1 := by omega
  have e2 : k + 1 + j - (k + 1) = j := by omega
  have e3 : k + 1 + j + 1 - (k + 2) = j := by omega
  have e4 : k + 1 + j + 1 + (k + 1) = (k + 1 + j + (k + 1)) + 1 := by omega
  rw [apEps, apEps, e1, e2, e3, e4]
  simp only [factorial_succ]
  have h1 : (((k + 1 + j + (k + 1))! : ℕ) : ℝ) ≠ 0 := by positivity
  have h2 : ((k : ℝ) + 1) ≠ 0 := by positivity
  have h3 : ((k : ℝ) + 1 + j + (k + 1) + 1) ≠ 0 := by positivity
  push_cast
  field_simp
  ring

/-- `Σ_{k=1}^n (-1)^k ε_{n,k}` -/
noncomputable def apRest (n : ℕ) : ℝ := ∑ k ∈ range n, (-1) ^ (k + 1) * apEps n (k + 1)

theorem ap_partial : ∀ n : ℕ, ∑ k ∈ range n, 1 / ((k : ℝ) + 1) ^ 3 = 5 / 2 * apSum n + apRest n
  | 0 => by simp [apSum, apRest]
  | n + 1 => by
    rw [sum_range_succ, ap_partial n, apSum_succ]
    have h1 : apRest (n + 1) - apRest n = (∑ k ∈ range n, (-1 : ℝ) ^ k * (k ! : ℝ) ^ 2 * (n + 1 - (k + 2))! / (n + 1 + (k + 1))!) +
        (-1) ^ (n + 1) * apEps (n + 1) (n + 1) := by
      rw [apRest, apRest, sum_range_succ, add_sub_right_comm, ← sum_sub_distrib]
      congr 1
      refine sum_congr rfl fun k hk => ?_
      have := mem_range.1 hk
      rw [← mul_sub, apEps_sub n k (by omega), pow_succ]
      ring
    rw [ap_inner (n + 1) n le_rfl, apEps] at h1
    have h2 : 1 / ((n : ℝ) + 1) ^ 3 = 5 / 2 * apTerm n + (apRest (n + 1) - apRest n) := by
      rw [h1, apTerm, show n + 1 + n = 2 * n + 1 by ring, show n + 1 + (n + 1) = 2 * n + 1 + 1 by ring,
        show 2 * n + 2 = 2 * n + 1 + 1 by ring, Nat.sub_self]
      simp only [factorial_succ, factorial_zero, pow_succ]
      have h1 : (((2 * n)! : ℕ) : ℝ) ≠ 0 := by positivity
      have h2 : ((n : ℝ) + 1) ≠ 0 := by positivity
      have h3 : (2 * (n : ℝ) + 1) ≠ 0 := by positivity
      have h4 : (2 * (n : ℝ) + 1 + 1) ≠ 0 := by positivity
      have h5 : ((n ! : ℕ) : ℝ) ≠ 0 := by positivity
      push_cast
      field_simp
      ring
    linarith

theorem apEps_le {n k : ℕ} (h1 : 1 ≤ k) (h2 : k ≤ n) : apEps n k ≤ 1 / (2 * (n + 1)) * (1 / (k : ℝ) ^ 3) := by
  have hN : k ! ^ 2 * (n - k)! * (n + 1) ≤ (n + k)! := by
    have e1 := Nat.choose_mul_factorial_mul_factorial (Nat.le_add_right n k)
    have e2 := Nat.choose_mul_factorial_mul_factorial h2
    have e3 : n + 1 ≤ (n + k).choose n := by
      calc n + 1 = (n + 1).choose n := by simp
        _ ≤ _ := Nat.choose_le_choose n (by omega)
    have e4 : 1 ≤ n.choose k := Nat.choose_pos h2
    calc k ! ^ 2 * (n - k)! * (n + 1) = (n + 1) * (1 * k ! * (n - k)!) * k ! := by ring
      _ ≤ (n + k).choose n * (n.choose k * k ! * (n - k)!) * k ! := by gcongr
      _ = (n + k)! := by rw [e2, ← e1, Nat.add_sub_cancel_left]
  have hR : (k ! : ℝ) ^ 2 * (n - k)! * (n + 1) ≤ (n + k)! := by exact_mod_cast hN
  have hk : (0 : ℝ) < k := by exact_mod_cast h1
  have hf : (0 : ℝ) < (n + k)! := by positivity
  rw [apEps, _root_.div_mul_div_comm, div_le_div_iff₀ (by positivity) (by positivity)]
  have hk3 : (0 : ℝ) < 2 * k ^ 3 := by positivity
  nlinarith [mul_le_mul_of_nonneg_left hR hk3.le]

theorem apEps_nonneg (n k : ℕ) : 0 ≤ apEps n k := by rw [apEps]; positivity

theorem cube_summable : Summable fun k : ℕ => 1 / ((k : ℝ) + 1) ^ 3 := by
  have := (summable_nat_add_iff 1).2 (Real.summable_one_div_nat_pow.2 (show 1 < 3 by norm_num))
  simpa using this

/-- Apéry's constant. -/
noncomputable def apery : ℝ := ∑' k : ℕ, 1 / ((k : ℝ) + 1) ^ 3

theorem apRest_le (n : ℕ) : |apRest n| ≤ apery / (2 * (n + 1)) := by
  calc |apRest n| ≤ ∑ k ∈ range n, |(-1 : ℝ) ^ (k + 1) * apEps n (k + 1)| := abs_sum_le_sum_abs _ _
    _ ≤ ∑ k ∈ range n, 1 / (2 * (n + 1)) * (1 / ((k : ℝ) + 1) ^ 3) := by
      refine sum_le_sum fun k hk => ?_
      have := mem_range.1 hk
      rw [abs_mul, abs_pow, abs_neg, abs_one, one_pow, one_mul, abs_of_nonneg (apEps_nonneg _ _)]
      have := apEps_le (n := n) (k := k + 1) (by omega) (by omega)
      push_cast at this
      exact this
    _ = 1 / (2 * (n + 1)) * ∑ k ∈ range n, 1 / ((k : ℝ) + 1) ^ 3 := by rw [mul_sum]
    _ ≤ 1 / (2 * (n + 1)) * apery := by
      gcongr
      exact cube_summable.sum_le_tsum _ fun k _ => by positivity
    _ = _ := by ring

theorem apSum_tendsto : Tendsto apSum atTop (𝓝 (2 / 5 * apery)) := by
  have h1 : Tendsto (fun n => ∑ k ∈ range n, 1 / ((k : ℝ) + 1) ^ 3) atTop (𝓝 apery) := cube_summable.hasSum.tendsto_sum_nat
  have h2 : Tendsto apRest atTop (𝓝 0) := by
    refine squeeze_zero_norm (fun n => apRest_le n) ?_
    have := (tendsto_one_div_add_atTop_nhds_zero_nat (𝕜 := ℝ)).const_mul (apery / 2)
    rw [mul_zero] at this
    refine this.congr fun n => ?_
    have : ((n : ℝ) + 1) ≠ 0 := by positivity
    field_simp
  have := (h1.sub h2).const_mul (2 / 5)
  rw [sub_zero] at this
  refine this.congr fun n => ?_
  rw [ap_partial]
  ring

theorem apery_eq : apery = (riemannZeta 3).re := by
  have h := zeta_nat_eq_tsum_of_gt_one (k := 3) (by norm_num)
  push_cast at h
  rw [h, ← Complex.ofReal_re apery]
  congr 1
  have h2 : Summable fun n : ℕ => 1 / (n : ℝ) ^ 3 := Real.summable_one_div_nat_pow.2 (by norm_num)
  have h3 : apery = ∑' n : ℕ, 1 / (n : ℝ) ^ 3 := by
    rw [h2.tsum_eq_zero_add, apery]
    simp
  rw [h3]
  push_cast
  rfl

theorem apery_pos : 0 < apery := cube_summable.tsum_pos (fun k => by positivity) 0 (by positivity)

/-! ### The convergents -/

theorem aA_eq (n : ℕ) : seqAt [[2, 8, 10, 3]] n = 2 + 8 * n + 10 * n ^ 2 + 3 * n ^ 3 := by rw [seqAt_single]; simp [horner]; ring
theorem bA_eq (n : ℕ) : seqAt [[0, 0, 0, 0, 0, -2, 4]] n = -2 * n ^ 5 + 4 * n ^ 6 := by rw [seqAt_single]; simp [horner]; ring

theorem apery_pq (n : ℕ) : (contP (seqAt [[2, 8, 10, 3]]) (seqAt [[0, 0, 0, 0, 0, -2, 4]]) n : ℝ) = (n ! : ℝ) * (2 * n)! ∧
    (contQ (seqAt [[2, 8, 10, 3]]) (seqAt [[0, 0, 0, 0, 0, -2, 4]]) n : ℝ) = (n ! : ℝ) * (2 * n)! * apSum n := by
  constructor
  · refine contP_eq (y := fun n => (n ! : ℝ) * (2 * n)!) (by simp) ?_ (fun n => ?_) n
    · simp only [aA_eq]; norm_num
    · simp only [aA_eq, bA_eq, show 2 * (n + 2) = 2 * n + 1 + 1 + 1 + 1 by ring, show 2 * (n + 1) = 2 * n + 1 + 1 by ring, factorial_succ]
      push_cast
      ring
  · refine contQ_eq (y := fun n => (n ! : ℝ) * (2 * n)! * apSum n) (by simp [apSum]) ?_ (fun n => ?_) n
    · simp only [apSum, sum_range_one, apTerm]; norm_num
    · rw [apSum_succ, apSum_succ]
      simp only [aA_eq, bA_eq, apTerm, show 2 * (n + 2) = 2 * n + 1 + 1 + 1 + 1 by ring, show 2 * (n + 1) = 2 * n + 1 + 1 by ring,
        show 2 * n + 2 = 2 * n + 1 + 1 by ring, factorial_succ, pow_succ]
      have h1 : (((2 * n)! : ℕ) : ℝ) ≠ 0 := by positivity
      have h2 : ((n : ℝ) + 1) ≠ 0 := by positivity
      have h3 : (2 * (n : ℝ) + 1) ≠ 0 := by positivity
      have h4 : (2 * (n : ℝ) + 1 + 1) ≠ 0 := by positivity
      have h5 : ((n ! : ℕ) : ℝ) ≠ 0 := by positivity
      have h6 : ((n : ℝ) + 1 + 1) ≠ 0 := by positivity
      have h7 : (2 * (n : ℝ) + 1 + 1 + 1) ≠ 0 := by positivity
      have h8 : (2 * (n : ℝ) + 1 + 1 + 1 + 1) ≠ 0 := by positivity
      push_cast
      field_simp
      ring

theorem cfA_pos (n : ℕ) (hn : 1 ≤ n) : 0 < seqAt [[2, 8, 10, 3]] n ∧ 0 < seqAt [[0, 0, 0, 0, 0, -2, 4]] n := by
  rw [aA_eq, bA_eq]
  have : (1 : ℤ) ≤ n := by exact_mod_cast hn
  refine ⟨by positivity, ?_⟩
  have h5 : (0 : ℤ) < n ^ 5 := by positivity
  nlinarith [mul_pos h5 (show (0 : ℤ) < 4 * n - 2 by linarith)]

theorem apery_tendsto : Tendsto (fun n => (contP (seqAt [[2, 8, 10, 3]]) (seqAt [[0, 0, 0, 0, 0, -2, 4]]) (n + 1) : ℝ) /
    contQ (seqAt [[2, 8, 10, 3]]) (seqAt [[0, 0, 0, 0, 0, -2, 4]]) (n + 1)) atTop (𝓝 (5 / (2 * apery))) := by
  have h := ((tendsto_add_atTop_iff_nat 1).2 apSum_tendsto).inv₀ (by have := apery_pos; positivity)
  rw [show (2 / 5 * apery)⁻¹ = 5 / (2 * apery) by have := apery_pos; field_simp] at h
  refine h.congr fun n => ?_
  rw [(apery_pq _).1, (apery_pq _).2]
  have h1 : (((2 * (n + 1))! : ℕ) : ℝ) ≠ 0 := by positivity
  have h5 : (((n + 1)! : ℕ) : ℝ) ≠ 0 := by positivity
  rw [div_mul_eq_div_div, div_self (mul_ne_zero h5 h1), one_div]

end PiCF.Spec
