import Verif.Spec.TestTable
import Verif.Lemmas.TestTable
import Verif.Props.Reinit
import Verif.Props.Process

/-!
# C128: the continued fractions of tests/test_cont_fracs.py
-/

namespace PiCF.ContFrac
open PiCF.Spec PiCF.Process Filter Topology

/-- The tails of the fraction are at least 1. -/
theorem nested_one {a b : ℕ → ℤ} (h : ∀ n, 1 ≤ a n ∧ 1 ≤ a n + b (n + 1)) : ∀ n k : ℕ,
    ∃ v : ℚ, nested (fun i => (a i : ℚ)) (fun i => (b i : ℚ)) k n = some v ∧ 1 ≤ v
  | 0, k => ⟨a k, rfl, by exact_mod_cast (h k).1⟩
  | n + 1, k => by
    obtain ⟨d, hd, h1⟩ := nested_one h n (k + 1)
    refine ⟨a k + b (k + 1) / d, ?_, ?_⟩
    · rw [nested, hd]
      simp only
      rw [if_neg (by linarith)]
    · have hk : (1 : ℚ) ≤ a k := by exact_mod_cast (h k).1
      have hk' : (1 : ℚ) ≤ a k + b (k + 1) := by exact_mod_cast (h k).2
      rcases le_total 0 (b (k + 1) : ℚ) with h0 | h0
      · have : 0 ≤ (b (k + 1) : ℚ) / d := div_nonneg h0 (by linarith)
        linarith
      · have : (b (k + 1) : ℚ) ≤ b (k + 1) / d := by
          rw [le_div_iff₀ (by linarith)]
          nlinarith
        linarith

/-- What is known about a row: no `b_n` and no denominator vanishes, the convergents tend to the target, and from the given number of
iterations on the errors are below 99% of the threshold. -/
structure RowFacts (r : TestRow) : Prop where
  init : ∃ s, init r.a r.b true none false = .ok s
  b : ∀ n, 1 ≤ n → seqAt r.b n ≠ 0
  one : ∀ n, 1 ≤ seqAt r.a n ∧ 1 ≤ seqAt r.a n + seqAt r.b (n + 1)
  q : ∀ n, contQ (seqAt r.a) (seqAt r.b) (n + 1) ≠ 0
  lim : Tendsto (fun n => (contP (seqAt r.a) (seqAt r.b) (n + 1) : ℝ) / contQ (seqAt r.a) (seqAt r.b) (n + 1)) atTop (𝓝 r.target)
  err : ∀ n, r.iters ≤ n → |(contP (seqAt r.a) (seqAt r.b) (n + 1) : ℝ) / contQ (seqAt r.a) (seqAt r.b) (n + 1) - r.target| <
    99 / 100 * r.threshold

theorem tendsto_of_pow {f : ℕ → ℝ} {l c κ : ℝ} (h0 : 0 ≤ κ) (h1 : κ < 1) (h : ∀ n, |f n - l| ≤ c * κ ^ n) : Tendsto f atTop (𝓝 l) := by
  rw [tendsto_iff_dist_tendsto_zero]
  have hlim := (tendsto_pow_atTop_nhds_zero_of_lt_one h0 h1).const_mul c
  rw [mul_zero] at hlim
  exact squeeze_zero (fun n => dist_nonneg) h hlim

theorem row_facts (r : TestRow) (hr : r ∈ testRows) : RowFacts r := by
  have b4 : ∀ n, 1 ≤ n → seqAt [[1, -4, 4]] n ≠ 0 := fun n hn => by rw [b4_eq]; exact pow_ne_zero 2 (by omega)
  simp only [testRows, List.mem_cons, List.not_mem_nil, or_false] at hr
  rcases hr with rfl | rfl | rfl | rfl | rfl | rfl
  · refine ⟨⟨_, rfl⟩, b4, fun n => by rw [a5_eq, b4_eq]; exact ⟨by norm_num, by nlinarith [sq_nonneg (2 * ((n + 1 : ℕ) : ℤ) - 1)]⟩, fun n => (cf5_contQ n).ne', ?_, fun n hn => ?_⟩
    · rw [tendsto_iff_dist_tendsto_zero]
      have hlim := (tendsto_one_div_add_atTop_nhds_zero_nat (𝕜 := ℝ)).const_mul 1.63
      rw [mul_zero] at hlim
      refine squeeze_zero' (.of_forall fun n => dist_nonneg) (eventually_atTop.2 ⟨500, fun n hn => (cf5_bound n hn).trans ?_⟩) hlim
      rw [mul_one_div]
      have h0 : (0 : ℝ) ≤ n := Nat.cast_nonneg n
      exact div_le_div_of_nonneg_left (by norm_num) (by positivity) (by linarith)
    · refine (cf5_bound n (by simp only at hn; omega)).trans_lt ?_
      have : (550 : ℝ) ≤ n := by exact_mod_cast hn
      refine (div_le_div_of_nonneg_left (by norm_num) (by norm_num : (0 : ℝ) < 2 * (2 * 550 + 1)) (by linarith)).trans_lt ?_
      norm_num
  · refine ⟨⟨_, rfl⟩, b4, fun n => by rw [a4_eq, b4_eq]; exact ⟨by norm_num, by nlinarith [sq_nonneg (2 * ((n + 1 : ℕ) : ℤ) - 1)]⟩, cf4_contQ, ?_, fun n hn => ?_⟩ <;>
      have e : ∀ n, (contP (seqAt [[6]]) (seqAt [[1, -4, 4]]) (n + 1) : ℝ) / contQ (seqAt [[6]]) (seqAt [[1, -4, 4]]) (n + 1) - (Real.pi + 3) =
        nilSum n - (Real.pi - 3) := fun n => by
      have h0 := oddProd_pos (n + 1)
      rw [(cf4_pq n).1, (cf4_pq n).2, mul_div_cancel_left₀ _ (by positivity)]; ring
    · rw [tendsto_iff_dist_tendsto_zero]
      refine squeeze_zero (fun n => dist_nonneg) (fun n => ?_) nilTerm_tendsto
      rw [Real.dist_eq, e]
      exact (nil_error n).2
    · simp only
      rw [e]
      refine (nil_error n).2.trans_lt ?_
      have : (500 : ℝ) ≤ n := by exact_mod_cast hn
      rw [nilTerm]
      refine (one_div_le_one_div_of_le (by norm_num) (?_ : ((500 : ℝ) + 1) * (500 + 2) * (2 * 500 + 3) ≤ _)).trans_lt ?_
      · gcongr
      · norm_num
  · refine ⟨⟨_, rfl⟩, fun n hn => (cf3_pos n hn).2.ne',
      fun n => by rw [a3_eq, b3_eq]; exact ⟨by omega, by nlinarith [sq_nonneg ((n + 1 : ℕ) : ℤ)]⟩, fun n => (contQ_pos cf3_pos n).2.ne',
      tendsto_of_pow (by norm_num) (by norm_num) cf3_bound, fun n hn => (cf3_bound n).trans_lt ?_⟩
    have := pow_le_pow_of_le_one (by norm_num : (0 : ℝ) ≤ 1 / 2) (by norm_num) (show 200 ≤ n from hn)
    refine (mul_le_mul_of_nonneg_left this (by norm_num)).trans_lt ?_
    norm_num
  · refine ⟨⟨_, rfl⟩, fun n hn => by rw [b6_eq]; simp; omega,
      fun n => by rw [a6_eq, b6_eq]; push_cast; exact ⟨by omega, by omega⟩, fun n => (cf6_contQ n).ne',
      tendsto_of_pow (κ := 1 / 2) (c := 1) (by norm_num) (by norm_num) (fun n => by rw [one_mul]; exact cf6_bound n), fun n hn => (cf6_bound n).trans_lt ?_⟩
    refine (pow_le_pow_of_le_one (by norm_num : (0 : ℝ) ≤ 1 / 2) (by norm_num) ((show 200 ≤ 400 by norm_num).trans (show 400 ≤ n from hn))).trans_lt ?_
    norm_num
  · refine ⟨⟨_, rfl⟩, fun n hn => by rw [c7_eq]; norm_num, fun n => by rw [c7_eq, c7_eq]; norm_num, fun n => (cf7_contQ n).ne',
      tendsto_of_pow (κ := 3 / 4) (c := 1) (by norm_num) (by norm_num) (fun n => by rw [one_mul]; exact cf7_bound n), fun n hn => (cf7_bound n).trans_lt ?_⟩
    refine (pow_le_pow_of_le_one (by norm_num : (0 : ℝ) ≤ 3 / 4) (by norm_num) ((show 200 ≤ 400 by norm_num).trans (show 400 ≤ n from hn))).trans_lt ?_
    norm_num
  · refine ⟨⟨_, rfl⟩, fun n hn => ?_, fun n => ?_, fun n => (cf8_contQ n).ne', ?_, fun n hn => (cf8_bound n).trans_lt ?_⟩
    · rcases Nat.even_or_odd' n with ⟨k, rfl | rfl⟩
      · rw [b8_even]; omega
      · rw [b8_odd]; omega
    · rcases Nat.even_or_odd' n with ⟨k, rfl | rfl⟩
      · rw [a8_even, b8_odd]; omega
      · rw [a8_odd, show 2 * k + 1 + 1 = 2 * (k + 1) by ring, b8_even]; push_cast; omega
    · rw [tendsto_iff_dist_tendsto_zero]
      have hlim := (tendsto_pow_atTop_nhds_zero_of_lt_one (by norm_num : (0 : ℝ) ≤ 12 / 175) (by norm_num)).comp
        (tendsto_atTop_mono (fun n => by show n / 2 ≤ n / 2; exact le_rfl) (Nat.tendsto_div_const_atTop (by norm_num : (2 : ℕ) ≠ 0)))
      exact squeeze_zero (fun n => dist_nonneg) (fun n => cf8_bound n) hlim
    · refine (pow_le_pow_of_le_one (by norm_num : (0 : ℝ) ≤ 12 / 175) (by norm_num) (show 200 ≤ n / 2 by simp only at hn; omega)).trans_lt ?_
      norm_num

/-- **C128, the limits.** For every row of the table of tests/test_cont_fracs.py, all convergents exist and they tend to the target of
the row: `4/π + 1`, `π + 3`, `4/π`, `e/(e - 1)`, the golden ratio and `2^(1/12) + 1`. -/
theorem C128_limits (r : TestRow) (hr : r ∈ testRows) :
    ∃ v : ℕ → ℚ, (∀ n, nested (ratSeq r.a) (ratSeq r.b) 0 n = some (v n)) ∧ Tendsto (fun n => (v n : ℝ)) atTop (𝓝 r.target) := by
  obtain ⟨-, -, h1, -, hl, -⟩ := row_facts r hr
  choose v hv h1 using fun n => nested_one h1 n 0
  refine ⟨v, hv, hl.congr fun n => ?_⟩
  rw [(nested_eq_cont _ _ n _ (hv n)).2]
  push_cast
  rfl

/-- **C128, the assertions.** For every row, any object, whatever its flags and its history: `reinitialize` with the coefficients of
the row, `gen_iterations` with at least the number of iterations of the row, and `compare_result(t)` all succeed, and the last yields a
number below the threshold of the row, if `t` is within 1% of the threshold of the target. -/
theorem C128_assertions (r : TestRow) (hr : r ∈ testRows) {a₀ b₀ : Coeffs} {z l : Bool} {s₀ : CF} (hinit : init a₀ b₀ z none l = .ok s₀)
    (ops : List CFOp) (n : ℕ) (hn : r.iters ≤ n) (t : ℚ) (ht : |t - r.target| ≤ r.threshold / 100) :
    ∃ s₁ s₂ e, reinitialize (some r.a) (some r.b) none (runOps ops s₀) = (s₁, .ok ()) ∧ genIterations n true s₁ = (s₂, .ok ()) ∧
      compareResultArgs none (some (.fin t)) true s₂ = .ok (.fin e) ∧ 0 ≤ e ∧ e < r.threshold := by
  obtain ⟨hi, hb, h1, -, -, he⟩ := row_facts r hr
  have hw : WF r.a r.b := (init_ok_iff r.a r.b true false).1 hi
  obtain ⟨s₁', hi'⟩ := (init_ok_iff r.a r.b z l).2 hw
  obtain ⟨lg, ms, k, hre⟩ := reinit_eq hinit hi' ops
  have hrun : runOps (ops ++ [.reinit (some r.a) (some r.b)]) s₀ = (reinitialize (some r.a) (some r.b) none (runOps ops s₀)).1 := by
    rw [runOps, List.foldl_append]; rfl
  have hp : s₁'.params.a = r.a ∧ s₁'.params.b = r.b := by
    obtain ⟨-, rfl⟩ := init_fresh hi'
    exact ⟨rfl, rfl⟩
  obtain ⟨v, hv, -⟩ := nested_one h1 n 0
  have hpos : 0 < n := lt_of_lt_of_le (by
    simp only [testRows, List.mem_cons, List.not_mem_nil, or_false] at hr
    rcases hr with rfl | rfl | rfl | rfl | rfl | rfl <;> norm_num) hn
  have ha : (runOps (ops ++ [.reinit (some r.a) (some r.b)]) s₀).params.a = r.a := by rw [hrun, hre]; exact hp.1
  have hb' : (runOps (ops ++ [.reinit (some r.a) (some r.b)]) s₀).params.b = r.b := by rw [hrun, hre]; exact hp.2
  obtain ⟨s₂, hg, hc, -, -⟩ := C103_compare_partial hinit (ops ++ [.reinit (some r.a) (some r.b)]) n v (by rw [ha, hb']; exact hv)
    (fun _ j hj _ => by rw [hb']; exact hb j hj) (fun _ => hpos)
  rw [hrun, hre] at hg
  refine ⟨_, s₂, |v - t|, hre, hg, (hc none t).1, abs_nonneg _, ?_⟩
  have hvr := (nested_eq_cont _ _ n _ hv).2
  have h2 := he n hn
  have h3 : (|v - t| : ℝ) ≤ |(v : ℝ) - r.target| + |r.target - t| := abs_sub_le _ _ _
  rw [abs_sub_comm r.target] at h3
  have h4 : (v : ℝ) = (contP (seqAt r.a) (seqAt r.b) (n + 1) : ℝ) / contQ (seqAt r.a) (seqAt r.b) (n + 1) := by
    rw [hvr]; push_cast; rfl
  rw [← h4] at h2
  have h5 : (|v - t| : ℝ) < r.threshold := by linarith
  exact_mod_cast h5

-- the first row with the fixture of the test, 550 iterations and pi = 3.1416
example : ∃ r ∈ testRows, r.iters ≤ 550 ∧ (∃ s₀, init [[1]] [[1]] true none false = .ok s₀) ∧
    |((4 / (31416 / 10000) + 1 : ℚ) : ℝ) - r.target| ≤ r.threshold / 100 := by
  refine ⟨_, List.mem_cons_self, le_rfl, ⟨_, rfl⟩, ?_⟩
  have h1 := Real.pi_gt_d6
  have h2 := Real.pi_lt_d6
  norm_num at h1 h2
  have h3 : (4 : ℝ) / (3141593 / 1000000) ≤ 4 / Real.pi := div_le_div_of_nonneg_left (by norm_num) Real.pi_pos h2.le
  have h4 : 4 / Real.pi ≤ (4 : ℝ) / (392699 / 125000) := div_le_div_of_nonneg_left (by norm_num) (by norm_num) h1.le
  push_cast
  rw [abs_le]
  constructor <;> norm_num at h3 h4 ⊢ <;> linarith

end PiCF.ContFrac
