import Mathlib.Algebra.Polynomial.Taylor
import Mathlib.Analysis.Polynomial.Basic
import Mathlib.Analysis.SpecificLimits.Basic
import Mathlib.Data.List.GetD
import Mathlib.Tactic.Linarith
import Mathlib.Tactic.Positivity
import Mathlib.Tactic.FieldSimp
import Mathlib.Tactic.Ring
import Verif.Lemmas.ContFrac
import Verif.Spec.Convergence
import Verif.Spec.EnumPoly

/-!
# The speed of convergence of continued fractions with polynomial terms
-/

namespace PiCF
open PiCF.Spec PiCF.ContFrac Polynomial Filter Topology

/-! ### Growth of the denominators -/

theorem prodB_ne {b : ℕ → ℤ} (hb : ∀ n, 1 ≤ n → b n ≠ 0) : ∀ n, prodB b n ≠ 0
  | 0 => by simp [prodB]
  | n + 1 => by rw [prodB]; exact mul_ne_zero (prodB_ne hb n) (hb _ (by omega))

/-- `q_n² / |b_1 ⋯ b_n|` -/
noncomputable def scaled (a b : ℕ → ℤ) (n : ℕ) : ℝ := (contQ a b (n + 1) : ℝ) ^ 2 / |(prodB b n : ℝ)|

theorem scaled_nonneg (a b : ℕ → ℤ) (n : ℕ) : 0 ≤ scaled a b n := by unfold scaled; positivity

theorem sq_add_le (x y η : ℝ) (hη : 0 < η) : (x + y) ^ 2 ≤ (1 + 1 / η) * x ^ 2 + (1 + η) * y ^ 2 := by
  have h : (1 + 1 / η) * x ^ 2 + (1 + η) * y ^ 2 - (x + y) ^ 2 = (x - η * y) ^ 2 / η := by
    field_simp
    ring
  have : 0 ≤ (x - η * y) ^ 2 / η := by positivity
  linarith

theorem scaled_step {a b : ℕ → ℤ} (hb : ∀ n, 1 ≤ n → b n ≠ 0) (n : ℕ) {η : ℝ} (hη : 0 < η) :
    scaled a b (n + 2) ≤ (1 + 1 / η) * ((a (n + 2) : ℝ) ^ 2 / |(b (n + 2) : ℝ)|) * scaled a b (n + 1) +
      (1 + η) * (|(b (n + 2) : ℝ)| / |(b (n + 1) : ℝ)|) * scaled a b n := by
  have h1 : (0 : ℝ) < |(b (n + 1) : ℝ)| := abs_pos.2 (Int.cast_ne_zero.2 (hb _ (by omega)))
  have h2 : (0 : ℝ) < |(b (n + 2) : ℝ)| := abs_pos.2 (Int.cast_ne_zero.2 (hb _ (by omega)))
  have h3 : (0 : ℝ) < |(prodB b n : ℝ)| := abs_pos.2 (Int.cast_ne_zero.2 (prodB_ne hb _))
  have hq : (contQ a b (n + 2 + 1) : ℝ) = a (n + 2) * contQ a b (n + 1 + 1) + b (n + 2) * contQ a b (n + 1) := by
    rw [show n + 2 + 1 = (n + 1) + 2 from rfl, contQ]; push_cast; rfl
  have hp1 : |(prodB b (n + 1) : ℝ)| = |(prodB b n : ℝ)| * |(b (n + 1) : ℝ)| := by rw [prodB]; push_cast; rw [abs_mul]
  have hp2 : |(prodB b (n + 2) : ℝ)| = |(prodB b n : ℝ)| * |(b (n + 1) : ℝ)| * |(b (n + 2) : ℝ)| := by
    rw [prodB]; push_cast; rw [abs_mul, hp1]
  rw [scaled, scaled, scaled, hq, hp1, hp2]
  have := sq_add_le ((a (n + 2) : ℝ) * contQ a b (n + 1 + 1)) (b (n + 2) * contQ a b (n + 1)) η hη
  have hd : (0 : ℝ) < |(prodB b n : ℝ)| * |(b (n + 1) : ℝ)| * |(b (n + 2) : ℝ)| := by positivity
  rw [div_le_iff₀ hd]
  refine this.trans (le_of_eq ?_)
  have hsq : |(b (n + 2) : ℝ)| ^ 2 = (b (n + 2) : ℝ) ^ 2 := sq_abs _
  field_simp
  rw [← hsq]
  ring

/-- If `a_n²` is small compared to `b_n` and `b_n` varies slowly, the denominators grow like `√|b_1 ⋯ b_n|`, up to factors that are
not exponential. -/
theorem scaled_growth {a b : ℕ → ℤ} (hb : ∀ n, 1 ≤ n → b n ≠ 0)
    (hα : Tendsto (fun n => (a n : ℝ) ^ 2 / |(b n : ℝ)|) atTop (𝓝 0))
    (hβ : Tendsto (fun n => |(b (n + 1) : ℝ)| / |(b n : ℝ)|) atTop (𝓝 1)) {θ : ℝ} (hθ : 1 < θ) :
    ∃ N, ∀ n, N ≤ n → scaled a b (n + 2) ≤ θ * max (scaled a b n) (scaled a b (n + 1)) := by
  set η := (θ - 1) / 4 with hη
  have hη0 : 0 < η := by rw [hη]; linarith
  have e1 : ∀ᶠ n in atTop, (a n : ℝ) ^ 2 / |(b n : ℝ)| < η / (1 + 1 / η) :=
    hα.eventually (gt_mem_nhds (by positivity))
  have e2 : ∀ᶠ n in atTop, |(b (n + 1) : ℝ)| / |(b n : ℝ)| < (1 + 2 * η) / (1 + η) :=
    hβ.eventually (gt_mem_nhds (by rw [lt_div_iff₀ (by positivity)]; linarith))
  obtain ⟨N1, hN1⟩ := eventually_atTop.1 e1
  obtain ⟨N2, hN2⟩ := eventually_atTop.1 e2
  refine ⟨max N1 N2, fun n hn => ?_⟩
  have hn1 := hN1 (n + 2) (by omega)
  have hn2 := hN2 (n + 1) (by omega)
  rw [lt_div_iff₀ (by positivity)] at hn1 hn2
  refine (scaled_step hb n hη0).trans ?_
  set M := max (scaled a b n) (scaled a b (n + 1)) with hM
  have hM0 : 0 ≤ M := (scaled_nonneg a b n).trans (le_max_left _ _)
  have t1 : (1 + 1 / η) * ((a (n + 2) : ℝ) ^ 2 / |(b (n + 2) : ℝ)|) * scaled a b (n + 1) ≤ η * M :=
    mul_le_mul (by linarith) (le_max_right _ _) (scaled_nonneg _ _ _) hη0.le
  have t2 : (1 + η) * (|(b (n + 2) : ℝ)| / |(b (n + 1) : ℝ)|) * scaled a b n ≤ (1 + 2 * η) * M :=
    mul_le_mul (by rw [show n + 2 = n + 1 + 1 from rfl]; linarith) (le_max_left _ _) (scaled_nonneg _ _ _) (by linarith)
  have : η * M + (1 + 2 * η) * M ≤ θ * M := by
    have : θ = 1 + 4 * η := by rw [hη]; ring
    rw [this]; nlinarith
  linarith

/-- The distance of consecutive convergents. -/
theorem conv_dist {a b : ℕ → ℤ} (hb : ∀ n, 1 ≤ n → b n ≠ 0) {n : ℕ} (h1 : contQ a b (n + 1) ≠ 0) (h2 : contQ a b (n + 2) ≠ 0) :
    1 ≤ |(contP a b (n + 2) : ℝ) / contQ a b (n + 2) - contP a b (n + 1) / contQ a b (n + 1)| *
      max (scaled a b n) (scaled a b (n + 1)) := by
  have c1 : (contQ a b (n + 1) : ℝ) ≠ 0 := Int.cast_ne_zero.2 h1
  have c2 : (contQ a b (n + 2) : ℝ) ≠ 0 := Int.cast_ne_zero.2 h2
  have hdet : (contP a b (n + 2) : ℝ) * contQ a b (n + 1) - contP a b (n + 1) * contQ a b (n + 2) =
      (-1) ^ (n + 2) * prodB b (n + 1) := by exact_mod_cast determinant a b (n + 1)
  have hD : |(contP a b (n + 2) : ℝ) / contQ a b (n + 2) - contP a b (n + 1) / contQ a b (n + 1)| =
      |(prodB b (n + 1) : ℝ)| / (|(contQ a b (n + 1) : ℝ)| * |(contQ a b (n + 2) : ℝ)|) := by
    rw [div_sub_div _ _ c2 c1, abs_div, abs_mul, mul_comm (contQ a b (n + 2) : ℝ) (contP a b (n + 1) : ℝ), hdet, abs_mul]
    simp [mul_comm]
  have hB1 : (0 : ℝ) < |(prodB b n : ℝ)| := abs_pos.2 (Int.cast_ne_zero.2 (prodB_ne hb _))
  have hbn : (1 : ℝ) ≤ |(b (n + 1) : ℝ)| := by
    have : (1 : ℤ) ≤ |b (n + 1)| := Int.one_le_abs (hb _ (by omega))
    calc (1 : ℝ) = ((1 : ℤ) : ℝ) := by simp
      _ ≤ ((|b (n + 1)| : ℤ) : ℝ) := Int.cast_le.2 this
      _ = _ := by simp
  have hp : |(prodB b (n + 1) : ℝ)| = |(prodB b n : ℝ)| * |(b (n + 1) : ℝ)| := by rw [prodB]; push_cast; rw [abs_mul]
  set M := max (scaled a b n) (scaled a b (n + 1)) with hM
  have hM0 : 0 ≤ M := (scaled_nonneg a b n).trans (le_max_left _ _)
  have hm1 : |(contQ a b (n + 1) : ℝ)| ^ 2 ≤ M * |(prodB b n : ℝ)| := by
    have : scaled a b n ≤ M := le_max_left _ _
    rw [scaled, div_le_iff₀ hB1] at this
    rwa [sq_abs]
  have hm2 : |(contQ a b (n + 2) : ℝ)| ^ 2 ≤ M * (|(prodB b n : ℝ)| * |(b (n + 1) : ℝ)|) := by
    have : scaled a b (n + 1) ≤ M := le_max_right _ _
    rw [scaled, hp, div_le_iff₀ (by positivity)] at this
    rwa [sq_abs]
  rw [hD, hp, div_mul_eq_mul_div, le_div_iff₀ (by positivity), one_mul]
  refine abs_le_of_sq_le_sq' ?_ (by positivity) |>.2
  calc (|(contQ a b (n + 1) : ℝ)| * |(contQ a b (n + 2) : ℝ)|) ^ 2 = |(contQ a b (n + 1) : ℝ)| ^ 2 * |(contQ a b (n + 2) : ℝ)| ^ 2 := by ring
    _ ≤ (M * |(prodB b n : ℝ)|) * (M * (|(prodB b n : ℝ)| * |(b (n + 1) : ℝ)|)) :=
        mul_le_mul hm1 hm2 (by positivity) (by positivity)
    _ ≤ (M * |(prodB b n : ℝ)|) * (M * (|(prodB b n : ℝ)| * |(b (n + 1) : ℝ)|)) * |(b (n + 1) : ℝ)| :=
        le_mul_of_one_le_right (by positivity) hbn
    _ = (|(prodB b n : ℝ)| * |(b (n + 1) : ℝ)| * M) ^ 2 := by ring

theorem not_convergesExp {a b : ℕ → ℤ} (hb : ∀ n, 1 ≤ n → b n ≠ 0)
    (hα : Tendsto (fun n => (a n : ℝ) ^ 2 / |(b n : ℝ)|) atTop (𝓝 0))
    (hβ : Tendsto (fun n => |(b (n + 1) : ℝ)| / |(b n : ℝ)|) atTop (𝓝 1)) : ¬ ConvergesExp a b := by
  rintro ⟨l, c, κ, N, hκ0, hκ1, h⟩
  set θ : ℝ := 2 / (1 + κ) with hθ
  have hθ1 : 1 < θ := by rw [hθ, lt_div_iff₀ (by linarith)]; linarith
  have hθ0 : 0 ≤ θ := by linarith
  have hκθ : κ * θ < 1 := by rw [hθ, ← mul_div_assoc, div_lt_one (by linarith)]; linarith
  obtain ⟨N', hN'⟩ := scaled_growth hb hα hβ hθ1
  set N0 := max N N' with hN0
  set M : ℕ → ℝ := fun n => max (scaled a b n) (scaled a b (n + 1)) with hM
  have hMnn : ∀ n, 0 ≤ M n := fun n => (scaled_nonneg a b n).trans (le_max_left _ _)
  have hgrow : ∀ k, M (N0 + k) ≤ M N0 * θ ^ k := by
    intro k
    induction k with
    | zero => simp
    | succ k ih =>
      have hs := hN' (N0 + k) (by omega)
      have : M (N0 + (k + 1)) ≤ θ * M (N0 + k) := by
        refine max_le ?_ hs
        refine (le_max_right _ _ : scaled a b (N0 + k + 1) ≤ M (N0 + k)).trans ?_
        exact le_mul_of_one_le_left (hMnn _) hθ1.le
      calc M (N0 + (k + 1)) ≤ θ * M (N0 + k) := this
        _ ≤ θ * (M N0 * θ ^ k) := mul_le_mul_of_nonneg_left ih hθ0
        _ = M N0 * θ ^ (k + 1) := by ring
  have hc0 : ∀ n, N ≤ n → 0 ≤ c * κ ^ n := fun n hn => (abs_nonneg _).trans (h n hn).2
  have key : ∀ k, 1 ≤ 2 * (c * κ ^ N0) * M N0 * (κ * θ) ^ k := by
    intro k
    obtain ⟨q1, e1⟩ := h (N0 + k) (by omega)
    obtain ⟨q2, e2⟩ := h (N0 + k + 1) (by omega)
    have hd := conv_dist hb q1 q2
    have hcn := hc0 (N0 + k) (by omega)
    have hdist : |(contP a b (N0 + k + 2) : ℝ) / contQ a b (N0 + k + 2) - contP a b (N0 + k + 1) / contQ a b (N0 + k + 1)| ≤
        2 * (c * κ ^ (N0 + k)) := by
      have hstep : c * κ ^ (N0 + k + 1) ≤ c * κ ^ (N0 + k) := by
        rw [pow_succ, ← mul_assoc]
        exact mul_le_of_le_one_right hcn hκ1.le
      have := abs_sub_le ((contP a b (N0 + k + 2) : ℝ) / contQ a b (N0 + k + 2)) l (contP a b (N0 + k + 1) / contQ a b (N0 + k + 1))
      rw [abs_sub_comm l] at this
      have e2' : |(contP a b (N0 + k + 2) : ℝ) / contQ a b (N0 + k + 2) - l| ≤ c * κ ^ (N0 + k + 1) := e2
      linarith
    calc (1 : ℝ) ≤ _ := hd
      _ ≤ 2 * (c * κ ^ (N0 + k)) * (M N0 * θ ^ k) := mul_le_mul hdist (hgrow k) (hMnn _) (by positivity)
      _ = 2 * (c * κ ^ N0) * M N0 * (κ * θ) ^ k := by rw [pow_add, mul_pow]; ring
  have hlim : Tendsto (fun k => 2 * (c * κ ^ N0) * M N0 * (κ * θ) ^ k) atTop (𝓝 (2 * (c * κ ^ N0) * M N0 * 0)) :=
    (tendsto_pow_atTop_nhds_zero_of_lt_one (by positivity) hκθ).const_mul _
  rw [mul_zero] at hlim
  obtain ⟨k, hk⟩ := (hlim.eventually (gt_mem_nhds one_pos)).exists
  exact absurd (key k) (not_le.2 hk)

/-! ### Polynomials -/

/-- The polynomial with these coefficients. -/
noncomputable def realPoly : List ℤ → ℝ[X]
  | [] => 0
  | c :: cs => C (c : ℝ) + X * realPoly cs

theorem eval_realPoly (p : List ℤ) (n : ℕ) : (realPoly p).eval (n : ℝ) = ((horner p (n : ℤ) : ℤ) : ℝ) := by
  induction p with
  | nil => simp [realPoly, horner]
  | cons c cs ih => simp [realPoly, horner, ih]

theorem coeff_realPoly (p : List ℤ) (i : ℕ) : (realPoly p).coeff i = p.getD i 0 := by
  induction p generalizing i with
  | nil => simp [realPoly]
  | cons c cs ih =>
    cases i with
    | zero => simp [realPoly]
    | succ i => rw [realPoly, coeff_add, coeff_C_succ, zero_add, coeff_X_mul, ih]; rfl

theorem realPoly_degree {p : List ℤ} {d : ℤ} (h : IsDegree p d) :
    (d = -1 ∧ realPoly p = 0) ∨ ∃ i : ℕ, d = i ∧ (realPoly p).degree = i := by
  rcases h with ⟨h1, h2⟩ | ⟨i, h1, h2, h3⟩
  · refine .inl ⟨h1, ?_⟩
    ext i
    rw [coeff_realPoly, coeff_zero]
    by_cases hi : i < p.length
    · rw [List.getD_eq_getElem _ _ hi, h2 _ (List.getElem_mem hi)]; simp
    · rw [List.getD_eq_default _ _ (by omega)]; simp
  · refine .inr ⟨i, h1, le_antisymm ?_ ?_⟩
    · rw [degree_le_iff_coeff_zero]
      intro m hm
      rw [coeff_realPoly, h3 m (by exact_mod_cast hm)]; simp
    · refine le_degree_of_ne_zero ?_
      rw [coeff_realPoly]; exact_mod_cast h2

theorem seqAt_single (p : List ℤ) (n : ℕ) : seqAt [p] n = horner p (n : ℤ) := by
  rw [seqAt]; simp [Nat.mod_one]

/-- `a_n² / b_n → 0` if `2 deg a < deg b`. -/
theorem ratio_zero {pa pb : List ℤ} (h : ((realPoly pa) ^ 2).degree < (realPoly pb).degree) :
    Tendsto (fun n : ℕ => (seqAt [pa] n : ℝ) ^ 2 / |(seqAt [pb] n : ℝ)|) atTop (𝓝 0) := by
  have := ((div_tendsto_atTop_zero_of_degree_lt _ _ h).comp (tendsto_natCast_atTop_atTop (R := ℝ))).abs
  rw [abs_zero] at this
  refine this.congr fun n => ?_
  simp only [Function.comp, eval_pow, eval_realPoly, seqAt_single]
  rw [abs_div, abs_of_nonneg (sq_nonneg _)]

/-- `b_{n+1} / b_n → 1` -/
theorem ratio_one {pb : List ℤ} (h : realPoly pb ≠ 0) :
    Tendsto (fun n : ℕ => |(seqAt [pb] (n + 1) : ℝ)| / |(seqAt [pb] n : ℝ)|) atTop (𝓝 1) := by
  have := ((div_tendsto_atTop_leadingCoeff_div_of_degree_eq (taylor 1 (realPoly pb)) (realPoly pb) (degree_taylor _ _)).comp
    (tendsto_natCast_atTop_atTop (R := ℝ))).abs
  rw [leadingCoeff_taylor, div_self (leadingCoeff_ne_zero.2 h), abs_one] at this
  refine this.congr fun n => ?_
  simp only [Function.comp, taylor_eval, seqAt_single]
  rw [abs_div, eval_realPoly, ← Nat.cast_add_one, eval_realPoly]

/-- A continued fraction with `deg b > 2 deg a` (and no `b_n` zero) does not converge exponentially. -/
theorem not_exp_of_degree {pa pb : List ℤ} {da db : ℤ} (ha : IsDegree pa da) (hb : IsDegree pb db) (hd : 2 * da < db)
    (h0 : ∀ n, 1 ≤ n → seqAt [pb] n ≠ 0) : ¬ ConvergesExp (seqAt [pa]) (seqAt [pb]) := by
  have hne : realPoly pb ≠ 0 := by
    intro h
    have := eval_realPoly pb 1
    rw [h, eval_zero] at this
    refine h0 1 le_rfl ?_
    rw [seqAt_single]
    exact_mod_cast this.symm
  refine not_convergesExp h0 (ratio_zero ?_) (ratio_one hne)
  obtain ⟨j, rfl, hj⟩ := (realPoly_degree hb).resolve_left fun h => hne h.2
  rcases realPoly_degree ha with ⟨-, h⟩ | ⟨i, rfl, hi⟩
  · rw [h, hj]; simp
  · rw [degree_pow, hi, hj]
    have : 2 * i < j := by omega
    rw [nsmul_eq_mul]
    exact_mod_cast this

/-! ### Convergence -/

theorem dist_consec {a b : ℕ → ℤ} {n : ℕ} (h1 : contQ a b (n + 1) ≠ 0) (h2 : contQ a b (n + 2) ≠ 0) :
    |(contP a b (n + 2) : ℝ) / contQ a b (n + 2) - contP a b (n + 1) / contQ a b (n + 1)| =
      |(prodB b (n + 1) : ℝ)| / (|(contQ a b (n + 1) : ℝ)| * |(contQ a b (n + 2) : ℝ)|) := by
  have c1 : (contQ a b (n + 1) : ℝ) ≠ 0 := Int.cast_ne_zero.2 h1
  have c2 : (contQ a b (n + 2) : ℝ) ≠ 0 := Int.cast_ne_zero.2 h2
  have hdet : (contP a b (n + 2) : ℝ) * contQ a b (n + 1) - contP a b (n + 1) * contQ a b (n + 2) =
      (-1) ^ (n + 2) * prodB b (n + 1) := by exact_mod_cast determinant a b (n + 1)
  rw [div_sub_div _ _ c2 c1, abs_div, abs_mul, mul_comm (contQ a b (n + 2) : ℝ) (contP a b (n + 1) : ℝ), hdet, abs_mul]
  simp [mul_comm]

/-- If the distance of consecutive convergents shrinks by a factor, they converge at that rate. -/
theorem conv_of_ratio {a b : ℕ → ℤ} {ρ : ℝ} (hρ0 : 0 < ρ) (hρ1 : ρ < 1) {N : ℕ} (hq : ∀ n, N ≤ n → contQ a b (n + 1) ≠ 0)
    (hr : ∀ n, N ≤ n → |(b (n + 2) : ℝ)| * |(contQ a b (n + 1) : ℝ)| ≤ ρ * |(contQ a b (n + 3) : ℝ)|) :
    ∃ l c : ℝ, 0 ≤ c ∧ Tendsto (fun n => (contP a b (n + 1) : ℝ) / contQ a b (n + 1)) atTop (𝓝 l) ∧
      ∀ n, N ≤ n → |(contP a b (n + 1) : ℝ) / contQ a b (n + 1) - l| ≤ c * ρ ^ n := by
  set v : ℕ → ℝ := fun n => (contP a b (n + 1) : ℝ) / contQ a b (n + 1) with hv
  set D : ℕ → ℝ := fun n => |(prodB b (n + 1) : ℝ)| / (|(contQ a b (n + 1) : ℝ)| * |(contQ a b (n + 2) : ℝ)|) with hD
  have hD0 : ∀ n, 0 ≤ D n := fun n => by simp only [hD]; positivity
  have hstep : ∀ n, N ≤ n → D (n + 1) ≤ ρ * D n := by
    intro n hn
    have q1 : 0 < |(contQ a b (n + 1) : ℝ)| := abs_pos.2 (Int.cast_ne_zero.2 (hq n hn))
    have q2 : 0 < |(contQ a b (n + 2) : ℝ)| := abs_pos.2 (Int.cast_ne_zero.2 (hq (n + 1) (by omega)))
    have q3 : 0 < |(contQ a b (n + 3) : ℝ)| := abs_pos.2 (Int.cast_ne_zero.2 (hq (n + 2) (by omega)))
    have hp : |(prodB b (n + 2) : ℝ)| = |(prodB b (n + 1) : ℝ)| * |(b (n + 2) : ℝ)| := by rw [prodB]; push_cast; rw [abs_mul]
    show |(prodB b (n + 2) : ℝ)| / (|(contQ a b (n + 2) : ℝ)| * |(contQ a b (n + 3) : ℝ)|) ≤
      ρ * (|(prodB b (n + 1) : ℝ)| / (|(contQ a b (n + 1) : ℝ)| * |(contQ a b (n + 2) : ℝ)|))
    rw [hp, ← mul_div_assoc, div_le_div_iff₀ (by positivity) (by positivity)]
    calc _ = (|(prodB b (n + 1) : ℝ)| * |(contQ a b (n + 2) : ℝ)|) * (|(b (n + 2) : ℝ)| * |(contQ a b (n + 1) : ℝ)|) := by ring
      _ ≤ (|(prodB b (n + 1) : ℝ)| * |(contQ a b (n + 2) : ℝ)|) * (ρ * |(contQ a b (n + 3) : ℝ)|) :=
          mul_le_mul_of_nonneg_left (hr n hn) (by positivity)
      _ = _ := by ring
  have hgeo : ∀ k, D (N + k) ≤ D N * ρ ^ k := by
    intro k
    induction k with
    | zero => simp
    | succ k ih =>
      calc D (N + (k + 1)) ≤ ρ * D (N + k) := hstep (N + k) (by omega)
        _ ≤ ρ * (D N * ρ ^ k) := mul_le_mul_of_nonneg_left ih hρ0.le
        _ = D N * ρ ^ (k + 1) := by ring
  have hu : ∀ k, dist (v (N + k)) (v (N + (k + 1))) ≤ D N * ρ ^ k := by
    intro k
    rw [dist_comm, Real.dist_eq]
    exact (dist_consec (hq _ (by omega)) (hq (N + k + 1) (by omega))).le.trans (hgeo k)
  obtain ⟨l, hl⟩ := cauchySeq_tendsto_of_complete (cauchySeq_of_le_geometric ρ (D N) hρ1 hu)
  refine ⟨l, D N / (1 - ρ) / ρ ^ N, ?_, ?_, ?_⟩
  · have := hD0 N
    have : 0 < 1 - ρ := by linarith
    positivity
  · rw [← tendsto_add_atTop_iff_nat N]
    refine hl.congr fun k => ?_
    rw [add_comm N k]
  · intro n hn
    have := dist_le_of_le_geometric_of_tendsto ρ (D N) hρ1 hu hl (n - N)
    rw [Real.dist_eq, show N + (n - N) = n by omega] at this
    refine this.trans (le_of_eq ?_)
    have h1 : 1 - ρ ≠ 0 := by linarith
    have h2 : ρ ^ N ≠ 0 := (pow_pos hρ0 N).ne'
    rw [show ρ ^ n = ρ ^ (n - N) * ρ ^ N by rw [← pow_add]; congr 1; omega]
    field_simp

/-- `y` solves the recurrence of numerators and denominators. -/
def Solves (a b : ℕ → ℤ) (y : ℕ → ℤ) : Prop := ∀ m, y (m + 2) = a (m + 1) * y (m + 1) + b (m + 1) * y m

theorem contQ_solves (a b : ℕ → ℤ) : Solves a b (contQ a b) := fun m => by rw [contQ]
theorem contP_solves (a b : ℕ → ℤ) : Solves a b (contP a b) := fun m => by rw [contP]

/-- `b_{m+1}` is eventually small compared to `a_{m+1} a_m`. -/
def Small (a b : ℕ → ℤ) : Prop := ∀ K : ℝ, ∃ N, ∀ m, N ≤ m → K * |(b (m + 1) : ℝ)| ≤ |(a (m + 1) : ℝ)| * |(a m : ℝ)|

/-- From `m` on, `y` is dominated by the terms `a_m y_m`. -/
def Dominant (a y : ℕ → ℤ) (m : ℕ) : Prop := |(a m : ℝ)| * |(y m : ℝ)| ≤ 2 * |(y (m + 1) : ℝ)|

theorem dominant_step {a b y : ℕ → ℤ} (hy : Solves a b y) {m : ℕ}
    (hs : 8 * |(b (m + 1) : ℝ)| ≤ |(a (m + 1) : ℝ)| * |(a m : ℝ)|) (h : Dominant a y m) : Dominant a y (m + 1) := by
  have e : (y (m + 2) : ℝ) = a (m + 1) * y (m + 1) + b (m + 1) * y m := by rw [hy m]; push_cast; rfl
  have t : |(a (m + 1) : ℝ)| * |(y (m + 1) : ℝ)| - |(b (m + 1) : ℝ)| * |(y m : ℝ)| ≤ |(y (m + 2) : ℝ)| := by
    rw [e, ← abs_mul, ← abs_mul]
    have := abs_sub_abs_le_abs_sub ((a (m + 1) : ℝ) * y (m + 1)) (-((b (m + 1) : ℝ) * y m))
    rwa [abs_neg, sub_neg_eq_add] at this
  have t2 : 8 * |(b (m + 1) : ℝ)| * |(y m : ℝ)| ≤ |(a (m + 1) : ℝ)| * (2 * |(y (m + 1) : ℝ)|) :=
    calc 8 * |(b (m + 1) : ℝ)| * |(y m : ℝ)| ≤ |(a (m + 1) : ℝ)| * |(a m : ℝ)| * |(y m : ℝ)| :=
          mul_le_mul_of_nonneg_right hs (abs_nonneg _)
      _ = |(a (m + 1) : ℝ)| * (|(a m : ℝ)| * |(y m : ℝ)|) := by ring
      _ ≤ _ := mul_le_mul_of_nonneg_left h (abs_nonneg _)
  unfold Dominant
  have : 0 ≤ |(a (m + 1) : ℝ)| * |(y (m + 1) : ℝ)| := by positivity
  show _ ≤ 2 * |(y (m + 2) : ℝ)|
  nlinarith

/-- The other solutions: `a_{m+1} y_{m+1}` is at most twice `b_{m+1} y_m`. -/
theorem not_dominant {a b y : ℕ → ℤ} (hy : Solves a b y) {m : ℕ} (h : ¬ Dominant a y (m + 1)) :
    a (m + 1) ≠ 0 ∧ |(a (m + 1) : ℝ)| * |(y (m + 1) : ℝ)| ≤ 2 * (|(b (m + 1) : ℝ)| * |(y m : ℝ)|) := by
  unfold Dominant at h
  rw [not_le] at h
  replace h : 2 * |(y (m + 2) : ℝ)| < |(a (m + 1) : ℝ)| * |(y (m + 1) : ℝ)| := h
  constructor
  · intro h0
    rw [h0] at h
    simp at h
    exact absurd h (not_lt.2 (by positivity))
  · have e : (b (m + 1) : ℝ) * y m = y (m + 2) - a (m + 1) * y (m + 1) := by rw [hy m]; push_cast; ring
    rw [← abs_mul (b (m + 1) : ℝ), e]
    have := abs_sub_abs_le_abs_sub ((a (m + 1) : ℝ) * y (m + 1)) (y (m + 2) : ℝ)
    rw [abs_sub_comm, abs_mul] at this
    linarith

theorem not_dominant' {a b y : ℕ → ℤ} (hy : Solves a b y) {K : ℝ} (hK : 0 ≤ K) {m : ℕ} (h : ¬ Dominant a y (m + 1))
    (hs : K * |(b (m + 1) : ℝ)| ≤ |(a (m + 1) : ℝ)| * |(a m : ℝ)|) : K * |(y (m + 1) : ℝ)| ≤ 2 * (|(a m : ℝ)| * |(y m : ℝ)|) := by
  obtain ⟨h1, h2⟩ := not_dominant hy h
  have h3 : 0 < |(a (m + 1) : ℝ)| := abs_pos.2 (Int.cast_ne_zero.2 h1)
  refine le_of_mul_le_mul_left ?_ h3
  calc |(a (m + 1) : ℝ)| * (K * |(y (m + 1) : ℝ)|) = K * (|(a (m + 1) : ℝ)| * |(y (m + 1) : ℝ)|) := by ring
    _ ≤ K * (2 * (|(b (m + 1) : ℝ)| * |(y m : ℝ)|)) := mul_le_mul_of_nonneg_left h2 hK
    _ = 2 * ((K * |(b (m + 1) : ℝ)|) * |(y m : ℝ)|) := by ring
    _ ≤ 2 * ((|(a (m + 1) : ℝ)| * |(a m : ℝ)|) * |(y m : ℝ)|) :=
        mul_le_mul_of_nonneg_left (mul_le_mul_of_nonneg_right hs (abs_nonneg _)) (by norm_num)
    _ = _ := by ring

theorem dominant_from {a b y : ℕ → ℤ} (hy : Solves a b y) {N : ℕ}
    (hs : ∀ m, N ≤ m → 8 * |(b (m + 1) : ℝ)| ≤ |(a (m + 1) : ℝ)| * |(a m : ℝ)|) {m : ℕ} (hm : N ≤ m) (h : Dominant a y m) :
    ∀ k, m ≤ k → Dominant a y k := by
  intro k hk
  induction k, hk using Nat.le_induction with
  | base => exact h
  | succ k hk ih => exact dominant_step hy (hs k (by omega)) ih

/-- A dominant solution that does not vanish twice in a row has no zeros. -/
theorem dominant_ne {a b y : ℕ → ℤ} (hb : ∀ n, 1 ≤ n → b n ≠ 0) (h2 : ∀ n, ¬ (y n = 0 ∧ y (n + 1) = 0))
    (hs : 8 * |(b (m + 1) : ℝ)| ≤ |(a (m + 1) : ℝ)| * |(a m : ℝ)|) (h : Dominant a y m) : y (m + 1) ≠ 0 := by
  intro h0
  unfold Dominant at h
  rw [h0] at h
  have hb' : 0 < |(b (m + 1) : ℝ)| := abs_pos.2 (Int.cast_ne_zero.2 (hb _ (by omega)))
  have ha : a m ≠ 0 := by
    intro ha
    rw [ha] at hs
    simp only [Int.cast_zero, abs_zero, mul_zero] at hs
    linarith
  have : |(a m : ℝ)| * |(y m : ℝ)| = 0 := le_antisymm (by simpa using h) (by positivity)
  rcases mul_eq_zero.1 this with h' | h'
  · exact ha (by simpa using h')
  · exact h2 m ⟨by simpa using h', h0⟩

/-- The two basic solutions are not both non-dominant. -/
theorem dominant_exists {a b : ℕ → ℤ} (hb : ∀ n, 1 ≤ n → b n ≠ 0) {N : ℕ}
    (hs : ∀ m, N ≤ m → 8 * |(b (m + 1) : ℝ)| ≤ |(a (m + 1) : ℝ)| * |(a m : ℝ)|)
    (hp : ∀ m, N ≤ m → ¬ Dominant a (contP a b) m) (hq : ∀ m, N ≤ m → ¬ Dominant a (contQ a b) m) : False := by
  set u : ℕ → ℝ := fun m => |(contP a b (m + 1) : ℝ)| * |(contQ a b m : ℝ)| + |(contP a b m : ℝ)| * |(contQ a b (m + 1) : ℝ)| with hu
  have hdet : ∀ m, |(prodB b m : ℝ)| ≤ u m := by
    intro m
    have : (contP a b (m + 1) : ℝ) * contQ a b m - contP a b m * contQ a b (m + 1) = (-1) ^ (m + 1) * prodB b m := by
      exact_mod_cast determinant a b m
    have h := abs_sub (contP a b (m + 1) * contQ a b m : ℝ) (contP a b m * contQ a b (m + 1))
    rw [this, abs_mul, abs_pow, abs_neg, abs_one, one_pow, one_mul, abs_mul, abs_mul] at h
    exact h
  have hstep : ∀ m, N ≤ m → 2 * u (m + 1) ≤ |(b (m + 1) : ℝ)| * u m := by
    intro m hm
    have half : ∀ {y z : ℕ → ℤ}, Solves a b y → Solves a b z → (∀ m, N ≤ m → ¬ Dominant a y m) →
        (∀ m, N ≤ m → ¬ Dominant a z m) →
        2 * (|(y (m + 2) : ℝ)| * |(z (m + 1) : ℝ)|) ≤ |(b (m + 1) : ℝ)| * (|(y (m + 1) : ℝ)| * |(z m : ℝ)|) := by
      intro y z hy hz ny nz
      have h1 := not_dominant' hy (K := 8) (by norm_num) (ny (m + 1 + 1) (by omega)) (hs (m + 1) (by omega))
      obtain ⟨-, h2⟩ := not_dominant hz (nz (m + 1) (by omega))
      replace h1 : 8 * |(y (m + 2) : ℝ)| ≤ 2 * (|(a (m + 1) : ℝ)| * |(y (m + 1) : ℝ)|) := h1
      have : 8 * |(y (m + 2) : ℝ)| * |(z (m + 1) : ℝ)| ≤ 2 * |(y (m + 1) : ℝ)| * (2 * (|(b (m + 1) : ℝ)| * |(z m : ℝ)|)) :=
        calc _ ≤ 2 * (|(a (m + 1) : ℝ)| * |(y (m + 1) : ℝ)|) * |(z (m + 1) : ℝ)| := mul_le_mul_of_nonneg_right h1 (abs_nonneg _)
          _ = 2 * |(y (m + 1) : ℝ)| * (|(a (m + 1) : ℝ)| * |(z (m + 1) : ℝ)|) := by ring
          _ ≤ _ := mul_le_mul_of_nonneg_left h2 (by positivity)
      linarith
    have h1 := half (contP_solves a b) (contQ_solves a b) hp hq
    have h2 := half (contQ_solves a b) (contP_solves a b) hq hp
    show 2 * (|(contP a b (m + 2) : ℝ)| * |(contQ a b (m + 1) : ℝ)| + |(contP a b (m + 1) : ℝ)| * |(contQ a b (m + 2) : ℝ)|) ≤
      |(b (m + 1) : ℝ)| * (|(contP a b (m + 1) : ℝ)| * |(contQ a b m : ℝ)| + |(contP a b m : ℝ)| * |(contQ a b (m + 1) : ℝ)|)
    linarith
  have hall : ∀ k, 2 ^ k * u (N + k) * |(prodB b N : ℝ)| ≤ u N * |(prodB b (N + k) : ℝ)| := by
    intro k
    induction k with
    | zero => simp
    | succ k ih =>
      have hpr : |(prodB b (N + (k + 1)) : ℝ)| = |(prodB b (N + k) : ℝ)| * |(b (N + k + 1) : ℝ)| := by
        rw [show N + (k + 1) = N + k + 1 from rfl, prodB]; push_cast; rw [abs_mul]
      rw [hpr]
      calc 2 ^ (k + 1) * u (N + (k + 1)) * |(prodB b N : ℝ)| = 2 ^ k * (2 * u (N + k + 1)) * |(prodB b N : ℝ)| := by
            rw [pow_succ]; ring_nf
        _ ≤ 2 ^ k * (|(b (N + k + 1) : ℝ)| * u (N + k)) * |(prodB b N : ℝ)| := by
            have := hstep (N + k) (by omega)
            gcongr
        _ = |(b (N + k + 1) : ℝ)| * (2 ^ k * u (N + k) * |(prodB b N : ℝ)|) := by ring
        _ ≤ |(b (N + k + 1) : ℝ)| * (u N * |(prodB b (N + k) : ℝ)|) := mul_le_mul_of_nonneg_left ih (abs_nonneg _)
        _ = _ := by ring
  have hP : ∀ m, 0 < |(prodB b m : ℝ)| := fun m => abs_pos.2 (Int.cast_ne_zero.2 (prodB_ne hb m))
  have hfin : ∀ k, (2 : ℝ) ^ k * |(prodB b N : ℝ)| ≤ u N := by
    intro k
    refine le_of_mul_le_mul_right ?_ (hP (N + k))
    calc _ = 2 ^ k * |(prodB b (N + k) : ℝ)| * |(prodB b N : ℝ)| := by ring
      _ ≤ 2 ^ k * u (N + k) * |(prodB b N : ℝ)| := by have := hdet (N + k); gcongr
      _ ≤ _ := hall k
  obtain ⟨k, hk⟩ := pow_unbounded_of_one_lt (u N / |(prodB b N : ℝ)|) (one_lt_two (α := ℝ))
  rw [div_lt_iff₀ (hP N)] at hk
  exact absurd (hfin k) (not_le.2 hk)

theorem not_both_zero {a b : ℕ → ℤ} (hb : ∀ n, 1 ≤ n → b n ≠ 0) (n : ℕ) :
    ¬ (contP a b n = 0 ∧ contP a b (n + 1) = 0) ∧ ¬ (contQ a b n = 0 ∧ contQ a b (n + 1) = 0) := by
  have h := determinant a b n
  have h' : (-1 : ℤ) ^ (n + 1) * prodB b n ≠ 0 := mul_ne_zero (pow_ne_zero _ (by norm_num)) (prodB_ne hb n)
  constructor <;> rintro ⟨h1, h2⟩ <;> rw [h1, h2] at h <;> simp at h <;> exact h' (by simpa using h)

/-- If the denominators never become dominant, the convergents tend to infinity. -/
theorem fast_of_not_dominant {a b : ℕ → ℤ} (hb : ∀ n, 1 ≤ n → b n ≠ 0) (hs : Small a b) {N : ℕ}
    (hN : ∀ m, N ≤ m → 8 * |(b (m + 1) : ℝ)| ≤ |(a (m + 1) : ℝ)| * |(a m : ℝ)|)
    (hq : ∀ m, N ≤ m → ¬ Dominant a (contQ a b) m) : DivergesFast a b := by
  obtain ⟨m, hm, hd⟩ : ∃ m, N ≤ m ∧ Dominant a (contP a b) m := by
    by_contra hp
    push Not at hp
    exact dominant_exists hb hN hp hq
  have hdom := dominant_from (contP_solves a b) hN hm hd
  have hne : ∀ n, m ≤ n → contP a b (n + 1) ≠ 0 := fun n hn =>
    dominant_ne hb (fun n => (not_both_zero hb n).1) (hN n (by omega)) (hdom n hn)
  intro κ hκ
  obtain ⟨N', hN'⟩ := hs (4 / κ)
  set N0 := max (m + 1) N' with hN0
  have hstep : ∀ n, N0 ≤ n → |(contQ a b (n + 1) : ℝ) / contP a b (n + 1)| ≤ κ * |(contQ a b n : ℝ) / contP a b n| := by
    intro n hn
    have h1 := not_dominant' (contQ_solves a b) (K := 4 / κ) (by positivity) (hq (n + 1) (by omega)) (hN' n (by omega))
    have h2 : |(a n : ℝ)| * |(contP a b n : ℝ)| ≤ 2 * |(contP a b (n + 1) : ℝ)| := hdom n (by omega)
    have p1 : 0 < |(contP a b (n + 1) : ℝ)| := abs_pos.2 (Int.cast_ne_zero.2 (hne n (by omega)))
    have p0 : 0 < |(contP a b n : ℝ)| := by
      obtain ⟨n', rfl⟩ : ∃ n', n = n' + 1 := ⟨n - 1, by omega⟩
      exact abs_pos.2 (Int.cast_ne_zero.2 (hne n' (by omega)))
    rw [abs_div, abs_div, ← mul_div_assoc, div_le_div_iff₀ p1 p0]
    rw [div_mul_eq_mul_div, div_le_iff₀ hκ] at h1
    have h3 := mul_le_mul_of_nonneg_right h1 p0.le
    have h4 := mul_le_mul_of_nonneg_left h2 (mul_nonneg hκ.le (abs_nonneg (contQ a b n : ℝ)))
    nlinarith
  have hgeo : ∀ k, |(contQ a b (N0 + k) : ℝ) / contP a b (N0 + k)| ≤ |(contQ a b N0 : ℝ) / contP a b N0| * κ ^ k := by
    intro k
    induction k with
    | zero => simp
    | succ k ih =>
      calc _ ≤ κ * |(contQ a b (N0 + k) : ℝ) / contP a b (N0 + k)| := hstep (N0 + k) (by omega)
        _ ≤ κ * (|(contQ a b N0 : ℝ) / contP a b N0| * κ ^ k) := mul_le_mul_of_nonneg_left ih hκ.le
        _ = _ := by ring
  refine ⟨|(contQ a b N0 : ℝ) / contP a b N0| * κ / κ ^ N0, N0, fun n hn => ⟨hne n (by omega), ?_⟩⟩
  have := hgeo (n + 1 - N0)
  rw [show N0 + (n + 1 - N0) = n + 1 by omega] at this
  refine this.trans (le_of_eq ?_)
  have h2 : κ ^ N0 ≠ 0 := (pow_pos hκ N0).ne'
  rw [eq_comm, div_mul_eq_mul_div, div_eq_iff h2, mul_assoc, mul_assoc, ← pow_succ', ← pow_add]
  congr 2
  omega

/-- If `b_{m+1} / (a_{m+1} a_m)` tends to `0`, the convergents have a limit or tend to infinity, and do so faster than exponentially. -/
theorem fast_dichotomy {a b : ℕ → ℤ} (hb : ∀ n, 1 ≤ n → b n ≠ 0) (hs : Small a b) :
    (∃ l, ConvergesFast a b l) ∨ DivergesFast a b := by
  obtain ⟨N, hN⟩ := hs 8
  by_cases hq : ∃ m, N ≤ m ∧ Dominant a (contQ a b) m
  · obtain ⟨m, hm, hd⟩ := hq
    have hdom := dominant_from (contQ_solves a b) hN hm hd
    have hne : ∀ n, m ≤ n → contQ a b (n + 1) ≠ 0 := fun n hn =>
      dominant_ne hb (fun n => (not_both_zero hb n).2) (hN n (by omega)) (hdom n hn)
    have hrate : ∀ κ : ℝ, 0 < κ → κ < 1 → ∃ (l c : ℝ) (N' : ℕ), 0 ≤ c ∧
        Tendsto (fun n => (contP a b (n + 1) : ℝ) / contQ a b (n + 1)) atTop (𝓝 l) ∧ ∀ n, N' ≤ n →
        contQ a b (n + 1) ≠ 0 ∧ |(contP a b (n + 1) : ℝ) / contQ a b (n + 1) - l| ≤ c * κ ^ n := by
      intro κ hκ hκ1
      obtain ⟨N', hN'⟩ := hs (4 / κ)
      obtain ⟨l, c, hc, hl, h⟩ := conv_of_ratio (a := a) (b := b) hκ hκ1 (N := max m N') (fun n hn => hne n (by omega)) (by
        intro n hn
        have h1 := hN' (n + 1) (by omega)
        have h2 : |(a (n + 1) : ℝ)| * |(contQ a b (n + 1) : ℝ)| ≤ 2 * |(contQ a b (n + 2) : ℝ)| := hdom (n + 1) (by omega)
        have h3 : |(a (n + 2) : ℝ)| * |(contQ a b (n + 2) : ℝ)| ≤ 2 * |(contQ a b (n + 3) : ℝ)| := hdom (n + 2) (by omega)
        replace h1 : 4 / κ * |(b (n + 2) : ℝ)| ≤ |(a (n + 2) : ℝ)| * |(a (n + 1) : ℝ)| := h1
        have h4 : 4 * |(b (n + 2) : ℝ)| ≤ κ * (|(a (n + 2) : ℝ)| * |(a (n + 1) : ℝ)|) := by
          rw [div_mul_eq_mul_div, div_le_iff₀ hκ] at h1
          linarith
        have h5 : |(a (n + 2) : ℝ)| * (|(a (n + 1) : ℝ)| * |(contQ a b (n + 1) : ℝ)|) ≤ 4 * |(contQ a b (n + 3) : ℝ)| := by
          have := mul_le_mul_of_nonneg_left h2 (abs_nonneg (a (n + 2) : ℝ))
          linarith
        have h6 := mul_le_mul_of_nonneg_right h4 (abs_nonneg (contQ a b (n + 1) : ℝ))
        have h7 := mul_le_mul_of_nonneg_left h5 hκ.le
        nlinarith)
      exact ⟨l, c, max m N', hc, hl, fun n hn => ⟨hne n (by omega), h n hn⟩⟩
    obtain ⟨l, -, -, -, hl, -⟩ := hrate (1 / 2) (by norm_num) (by norm_num)
    refine .inl ⟨l, fun κ hκ => ?_⟩
    obtain ⟨l', c, N', hc, hl', h⟩ := hrate (min κ (1 / 2)) (by positivity) (lt_of_le_of_lt (min_le_right _ _) (by norm_num))
    rw [tendsto_nhds_unique hl' hl] at h
    refine ⟨c, N', fun n hn => ⟨(h n hn).1, (h n hn).2.trans ?_⟩⟩
    exact mul_le_mul_of_nonneg_left (pow_le_pow_left₀ (by positivity) (min_le_left _ _) n) hc
  · push Not at hq
    exact .inr (fast_of_not_dominant hb hs hN hq)

/-! ### Positive terms -/

theorem contQ_pos {a b : ℕ → ℤ} (hp : ∀ n, 1 ≤ n → 0 < a n ∧ 0 < b n) : ∀ n, 0 ≤ contQ a b n ∧ 0 < contQ a b (n + 1)
  | 0 => by simp [contQ]
  | n + 1 => by
    obtain ⟨h1, h2⟩ := contQ_pos hp n
    obtain ⟨h3, h4⟩ := hp (n + 1) (by omega)
    refine ⟨h2.le, ?_⟩
    rw [show n + 1 + 1 = n + 2 from rfl, contQ]
    have := mul_pos h3 h2
    have := mul_nonneg h4.le h1
    omega

/-- With positive terms the convergents are bounded. -/
theorem contP_le {a b : ℕ → ℤ} (hp : ∀ n, 1 ≤ n → 0 < a n ∧ 0 < b n) (n : ℕ) :
    |contP a b (n + 1)| ≤ (|a 0| + b 1) * contQ a b (n + 1) ∧ |contP a b (n + 2)| ≤ (|a 0| + b 1) * contQ a b (n + 2) := by
  induction n with
  | zero =>
    obtain ⟨h1, h2⟩ := hp 1 le_rfl
    simp only [contP, contQ]
    constructor
    · simp; omega
    · have h3 : |a 1 * a 0 + b 1| ≤ a 1 * |a 0| + b 1 := by
        refine (abs_add_le _ _).trans ?_
        rw [abs_mul, abs_of_pos h1, abs_of_pos h2]
      have h4 : (|a 0| + b 1) * a 1 = a 1 * |a 0| + b 1 + b 1 * (a 1 - 1) := by ring
      have h5 : 0 ≤ b 1 * (a 1 - 1) := mul_nonneg h2.le (by omega)
      simp
      linarith
  | succ n ih =>
    refine ⟨ih.2, ?_⟩
    obtain ⟨h1, h2⟩ := hp (n + 2) (by omega)
    rw [show n + 1 + 2 = (n + 1) + 2 from rfl, contP, contQ]
    calc |a (n + 1 + 1) * contP a b (n + 1 + 1) + b (n + 1 + 1) * contP a b (n + 1)|
        ≤ a (n + 2) * |contP a b (n + 2)| + b (n + 2) * |contP a b (n + 1)| := by
          refine (abs_add_le _ _).trans (le_of_eq ?_)
          rw [abs_mul, abs_mul, abs_of_pos (show 0 < a (n + 1 + 1) from h1), abs_of_pos (show 0 < b (n + 1 + 1) from h2)]
      _ ≤ a (n + 2) * ((|a 0| + b 1) * contQ a b (n + 2)) + b (n + 2) * ((|a 0| + b 1) * contQ a b (n + 1)) :=
          add_le_add (mul_le_mul_of_nonneg_left ih.2 h1.le) (mul_le_mul_of_nonneg_left ih.1 h2.le)
      _ = _ := by ring

theorem exp_of_pos {a b : ℕ → ℤ} (hp : ∀ n, 1 ≤ n → 0 < a n ∧ 0 < b n) {M : ℝ} (hM : 0 < M) {N : ℕ}
    (hs : ∀ n, N ≤ n → |(b (n + 1) : ℝ)| ≤ M * (|(a (n + 1) : ℝ)| * |(a n : ℝ)|)) : ConvergesExp a b := by
  obtain ⟨l, c, -, -, h⟩ := conv_of_ratio (a := a) (b := b) (ρ := M / (M + 1)) (by positivity)
    (by rw [div_lt_one (by positivity)]; linarith) (N := N) (fun n _ => (contQ_pos hp n).2.ne') (by
      intro n hn
      have h1 : |(b (n + 2) : ℝ)| ≤ M * (|(a (n + 2) : ℝ)| * |(a (n + 1) : ℝ)|) := hs (n + 1) (by omega)
      have a1 : (0 : ℝ) < a (n + 1) := by exact_mod_cast (hp (n + 1) (by omega)).1
      have a2 : (0 : ℝ) < a (n + 2) := by exact_mod_cast (hp (n + 2) (by omega)).1
      have b1 : (0 : ℝ) < b (n + 1) := by exact_mod_cast (hp (n + 1) (by omega)).2
      have b2 : (0 : ℝ) < b (n + 2) := by exact_mod_cast (hp (n + 2) (by omega)).2
      have q0 : (0 : ℝ) ≤ contQ a b n := by exact_mod_cast (contQ_pos hp n).1
      have q1 : (0 : ℝ) < contQ a b (n + 1) := by exact_mod_cast (contQ_pos hp n).2
      have q3 : (0 : ℝ) < contQ a b (n + 3) := by exact_mod_cast (contQ_pos hp (n + 2)).2
      have e2 : (contQ a b (n + 2) : ℝ) = a (n + 1) * contQ a b (n + 1) + b (n + 1) * contQ a b n := by
        rw [contQ]; push_cast; rfl
      have e3 : (contQ a b (n + 3) : ℝ) = a (n + 2) * contQ a b (n + 2) + b (n + 2) * contQ a b (n + 1) := by
        rw [show n + 3 = n + 1 + 2 from rfl, contQ]; push_cast; rfl
      rw [abs_of_pos b2, abs_of_pos a2, abs_of_pos a1] at h1
      rw [abs_of_pos b2, abs_of_pos q1, abs_of_pos q3, div_mul_eq_mul_div, le_div_iff₀ (by positivity)]
      have t1 : (a (n + 1) : ℝ) * contQ a b (n + 1) ≤ contQ a b (n + 2) := by rw [e2]; nlinarith
      have t2 := mul_le_mul_of_nonneg_left t1 a2.le
      have t3 := mul_le_mul_of_nonneg_right h1 q1.le
      rw [e3]
      nlinarith)
  exact ⟨l, c, M / (M + 1), N, by positivity, by rw [div_lt_one (by positivity)]; linarith,
    fun n hn => ⟨(contQ_pos hp n).2.ne', h n hn⟩⟩

/-! ### Polynomials of small degree -/

theorem degree_prod {pa pb : List ℤ} {da db : ℤ} (ha : IsDegree pa da) (hb : IsDegree pb db) (hb0 : realPoly pb ≠ 0) :
    (db ≤ 2 * da → (taylor 1 (realPoly pb)).degree ≤ (taylor 1 (realPoly pa) * realPoly pa).degree) ∧
    (db < 2 * da → (taylor 1 (realPoly pb)).degree < (taylor 1 (realPoly pa) * realPoly pa).degree) := by
  rw [degree_mul, degree_taylor, degree_taylor]
  obtain ⟨j, rfl, hj⟩ := (realPoly_degree hb).resolve_left fun h => hb0 h.2
  rcases realPoly_degree ha with ⟨rfl, -⟩ | ⟨i, rfl, hi⟩
  · constructor <;> intro h <;> omega
  · rw [hi, hj, ← two_mul]
    constructor <;> intro h <;> exact_mod_cast h

theorem eval_taylor_nat (p : List ℤ) (n : ℕ) : (taylor 1 (realPoly p)).eval (n : ℝ) = (seqAt [p] (n + 1) : ℝ) := by
  rw [taylor_eval, ← Nat.cast_add_one, eval_realPoly, seqAt_single]

theorem small_of_degree {pa pb : List ℤ} (h : (taylor 1 (realPoly pb)).degree < (taylor 1 (realPoly pa) * realPoly pa).degree) :
    Small (seqAt [pa]) (seqAt [pb]) := by
  intro K
  have hO := (isLittleO_atTop_of_degree_lt _ _ h).comp_tendsto (tendsto_natCast_atTop_atTop (R := ℝ))
  obtain ⟨N, hN⟩ := eventually_atTop.1 (hO.bound (c := 1 / (|K| + 1)) (by positivity))
  refine ⟨N, fun n hn => ?_⟩
  have := hN n hn
  simp only [Function.comp, eval_mul, eval_taylor_nat, eval_realPoly, Real.norm_eq_abs, abs_mul] at this
  rw [seqAt_single pa n]
  rw [div_mul_eq_mul_div, one_mul, le_div_iff₀ (by positivity)] at this
  refine le_trans ?_ this
  rw [mul_comm]
  exact mul_le_mul_of_nonneg_left ((le_abs_self K).trans (by linarith)) (abs_nonneg _)

theorem realPoly_ne {pb : List ℤ} (h0 : seqAt [pb] 1 ≠ 0) : realPoly pb ≠ 0 := by
  intro h
  have := eval_realPoly pb 1
  rw [h, eval_zero] at this
  refine h0 ?_
  rw [seqAt_single]
  exact_mod_cast this.symm

theorem bounded_of_degree {pa pb : List ℤ} (h : (taylor 1 (realPoly pb)).degree ≤ (taylor 1 (realPoly pa) * realPoly pa).degree) :
    ∃ M : ℝ, 0 < M ∧ ∃ N, ∀ n, N ≤ n →
      |(seqAt [pb] (n + 1) : ℝ)| ≤ M * (|(seqAt [pa] (n + 1) : ℝ)| * |(seqAt [pa] n : ℝ)|) := by
  have hO := (isBigO_atTop_of_degree_le _ _ h).comp_tendsto (tendsto_natCast_atTop_atTop (R := ℝ))
  obtain ⟨M, hM, hb⟩ := hO.exists_pos
  obtain ⟨N, hN⟩ := eventually_atTop.1 hb.bound
  refine ⟨M, hM, N, fun n hn => ?_⟩
  have := hN n hn
  simp only [Function.comp, eval_mul, eval_taylor_nat, eval_realPoly, Real.norm_eq_abs, abs_mul] at this
  rw [seqAt_single pa n]
  exact this

end PiCF
