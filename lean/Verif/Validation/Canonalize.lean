import Verif.Lemmas.RationalFunc

/-!
# The test of `canonalize_params`

tests/test_lhs_evaluators.py:220-223: the (unasserted) expectation of the authors, for the noncomputable part of the model.
-/

namespace PiCF.Validation
open Polynomial PiCF.Lhs

theorem gcd_test : polyGcd (ofCoeffs [0, 3, 6, 1]) (ofCoeffs [0, 1, 2]) = X := by
  have e1 : ofCoeffs [0, 3, 6, 1] = X * (X ^ 2 + 6 * X + 3) := by
    simp only [ofCoeffs, C_0]
    rw [show (C 3 : ℤ[X]) = 3 from rfl, show (C 6 : ℤ[X]) = 6 from rfl, C_1]
    ring
  have e2 : ofCoeffs [0, 1, 2] = X * (2 * X + 1) := by
    simp only [ofCoeffs, C_0]
    rw [show (C 2 : ℤ[X]) = 2 from rfl, C_1]
    ring
  obtain ⟨h1, h2, h3, h4⟩ := polyGcd_spec (ofCoeffs [0, 3, 6, 1]) (ofCoeffs [0, 1, 2])
  set g := polyGcd (ofCoeffs [0, 3, 6, 1]) (ofCoeffs [0, 1, 2]) with hg
  have hX : X ∣ g := h3 X ⟨_, e1⟩ ⟨_, e2⟩
  have hgX : g ∣ X := by
    have : (X : ℤ[X]) = 4 * ofCoeffs [0, 3, 6, 1] - (2 * X + 11) * ofCoeffs [0, 1, 2] := by rw [e1, e2]; ring
    rw [this]
    exact dvd_sub (dvd_mul_of_dvd_right h1 _) (dvd_mul_of_dvd_right h2 _)
  obtain ⟨u, hu⟩ := associated_of_dvd_dvd hX hgX
  have h5 : 0 ≤ (u : ℤ[X]).leadingCoeff := by
    rw [← hu, leadingCoeff_mul, leadingCoeff_X, one_mul] at h4
    exact h4
  rw [← hu, eq_one_of_isUnit u.isUnit h5, mul_one]

/-- tests/test_lhs_evaluators.py:220-223 -/
example : ∃ s, RF.canonalizeParams (RF.init ([0, 3, 6, 1], [0, 1, 2], 0) 5) = (s, .ok ()) ∧
    s.params = ([0, 0, 1], [1, 2], 3) := by
  have i : RF.Inv (RF.init ([0, 3, 6, 1], [0, 1, 2], 0) 5) := RF.init_inv (by simp) ⟨1, by simp, by decide⟩
  obtain ⟨s', n, d, e, -, -, hp, hn, hd, hd0, ha, h1, h2⟩ := RF.canonalizeParams_eq i
  refine ⟨s', e, ?_⟩
  change ofCoeffs [0, 3, 6, 1] = polyGcd (ofCoeffs [0, 3, 6, 1]) (ofCoeffs [0, 1, 2]) * n at hn
  change ofCoeffs [0, 1, 2] = polyGcd (ofCoeffs [0, 3, 6, 1]) (ofCoeffs [0, 1, 2]) * d at hd
  rw [gcd_test] at hn hd
  have hn' : n = X ^ 2 + 6 * X + 3 := by
    apply mul_left_cancel₀ (X_ne_zero (R := ℤ))
    rw [← hn]
    simp only [ofCoeffs, C_0]
    rw [show (C 3 : ℤ[X]) = 3 from rfl, show (C 6 : ℤ[X]) = 6 from rfl, C_1]
    ring
  have hd' : d = 2 * X + 1 := by
    apply mul_left_cancel₀ (X_ne_zero (R := ℤ))
    rw [← hd]
    simp only [ofCoeffs, C_0]
    rw [show (C 2 : ℤ[X]) = 2 from rfl, C_1]
    ring
  have hq : toQ n / toQ d = C (1 / 2) * X + C (11 / 4) := by
    have hdq : toQ d = C 2 * X + C 1 := by rw [hd']; simp [toQ]; rfl
    have hnq : toQ n = (C 2 * X + C 1) * (C (1 / 2) * X + C (11 / 4)) + C (1 / 4) := by
      rw [hn']
      have : toQ (X ^ 2 + 6 * X + 3) = X ^ 2 + C 6 * X + C 3 := by simp [toQ]; rfl
      rw [this]
      have e1 : (C 2 : ℚ[X]) * C (1 / 2) = 1 := by rw [← C_mul]; norm_num
      have e2 : (C 2 : ℚ[X]) * C (11 / 4) + C 1 * C (1 / 2) = C 6 := by rw [← C_mul, ← C_mul, ← C_add]; norm_num
      have e3 : (C 1 : ℚ[X]) * C (11 / 4) + C (1 / 4) = C 3 := by rw [← C_mul, ← C_add]; norm_num
      linear_combination (-X ^ 2) * e1 - X * e2 - e3
    rw [hdq, hnq]
    set D : ℚ[X] := C 2 * X + C 1 with hD
    have hD0 : D ≠ 0 := by
      intro h0
      have := congrArg (fun q => coeff q 0) h0
      simp [hD] at this
    have hm : (D * (C (1 / 2) * X + C (11 / 4)) + C (1 / 4)) % D = C (1 / 4) := by
      rw [mod_eq_of_dvd_sub (p₂ := C (1 / 4)) ⟨C (1 / 2) * X + C (11 / 4), by ring⟩, Polynomial.mod_eq_self_iff hD0, hD,
        degree_linear (by norm_num), degree_C (by norm_num)]
      exact zero_lt_one
    have h := EuclideanDomain.div_add_mod (D * (C (1 / 2) * X + C (11 / 4)) + C (1 / 4)) D
    rw [hm] at h
    exact mul_left_cancel₀ hD0 (add_right_cancel h)
  have hk : ⌈(toQ n / toQ d).coeff 0⌉ = 3 := by
    rw [hq]
    simp
    norm_num
  rw [hk] at ha h1
  have hnum : s'.num = [0, 0, 1] := by
    have : n - C 3 * d = X ^ 2 := by
      rw [hn', hd', show (C 3 : ℤ[X]) = 3 from rfl]; ring
    rw [h1, this, sympoly2poly, natDegree_X_pow]
    simp [List.range_succ, coeff_X_pow]
  have hden : s'.den = [1, 2] := by
    have : d = C 2 * X + C 1 := by rw [hd', show (C 2 : ℤ[X]) = 2 from rfl, C_1]
    rw [h2, this, sympoly2poly, natDegree_linear (by decide)]
    simp [List.range_succ, coeff_X, coeff_C, coeff_one, -eq_intCast]
  rw [hp, hnum, hden, ha]
  rfl

end PiCF.Validation
