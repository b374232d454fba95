import Verif.Lemmas.Ratio

/-!
# Continued fractions that tend to infinity

The reciprocal of `a_0 + b_1/(a_1 + ...)` is the continued fraction `0 + 1/(a_0 + b_1/(a_1 + ...))`.
-/

namespace PiCF
open PiCF.Spec Filter Topology

/-- The terms of the reciprocal. -/
def invA (a : ℕ → ℤ) : ℕ → ℤ
  | 0 => 0
  | n + 1 => a n

def invB (b : ℕ → ℤ) : ℕ → ℤ
  | 0 => 0
  | 1 => 1
  | n + 2 => b (n + 1)

theorem contP_inv (a b : ℕ → ℤ) : ∀ n, contP (invA a) (invB b) (n + 1) = contQ a b n
  | 0 => rfl
  | 1 => by simp [contP, contQ, invA, invB]
  | n + 2 => by
    rw [contP_solves _ _ (n + 1), contQ_solves a b n, contP_inv a b (n + 1), contP_inv a b n]
    simp only [invA, invB]

theorem contQ_inv (a b : ℕ → ℤ) : ∀ n, contQ (invA a) (invB b) (n + 1) = contP a b n
  | 0 => rfl
  | 1 => by simp [contP, contQ, invA, invB]
  | n + 2 => by
    rw [contQ_solves _ _ (n + 1), contP_solves a b n, contQ_inv a b (n + 1), contQ_inv a b n]
    simp only [invA, invB]

theorem invB_ne {b : ℕ → ℤ} (hb : ∀ n, 1 ≤ n → b n ≠ 0) : ∀ n, 1 ≤ n → invB b n ≠ 0
  | 0, h => by omega
  | 1, _ => by simp [invB]
  | n + 2, _ => hb (n + 1) (by omega)

theorem _root_.PiCF.Spec.DivergesExp.inv {a b : ℕ → ℤ} (h : DivergesExp a b) : ConvergesExpTo (invA a) (invB b) 0 := by
  obtain ⟨c, κ, N, h0, h1, h⟩ := h
  have hc : 0 ≤ c * κ ^ N := (abs_nonneg _).trans (h N le_rfl).2
  set κ' := (1 + κ) / 2 with hκ'
  have k0 : 0 < κ' := by rw [hκ']; linarith
  have k1 : κ ≤ κ' := by rw [hκ']; linarith
  refine ⟨|c| / κ', κ', N + 1, k0.le, by rw [hκ']; linarith, fun n hn => ?_⟩
  obtain ⟨n, rfl⟩ : ∃ m, n = m + 1 := ⟨n - 1, by omega⟩
  rw [contQ_inv, contP_inv, sub_zero]
  refine ⟨(h n (by omega)).1, (h n (by omega)).2.trans ?_⟩
  calc c * κ ^ n ≤ |c| * κ' ^ n := mul_le_mul (le_abs_self c) (pow_le_pow_left₀ h0 k1 n) (pow_nonneg h0 n) (abs_nonneg c)
    _ = |c| / κ' * κ' ^ (n + 1) := by rw [pow_succ]; field_simp

theorem Balanced.inv {a b : ℕ → ℤ} {l : ℝ} (h : Balanced a b l) : Balanced (invA a) (invB b) l := by
  refine ⟨invB_ne h.bne, ?_, h.lne⟩
  refine (tendsto_add_atTop_iff_nat 1).1 (h.lim.congr fun m => ?_)
  simp only [coeffC, invA, invB]

theorem Small.inv {a b : ℕ → ℤ} (h : Small a b) : Small (invA a) (invB b) := by
  intro K
  obtain ⟨N, hN⟩ := h K
  refine ⟨N + 1, fun m hm => ?_⟩
  obtain ⟨m, rfl⟩ : ∃ k, m = k + 1 := ⟨m - 1, by omega⟩
  exact hN m (by omega)

/-- If the reciprocals of the convergents tend to zero with a limiting ratio, the comparison of `is_convergence_fast()` fails. -/
theorem not_shrinks_of_inverse {a b : ℕ → ℤ} {ρ : ℝ} (h0 : 0 ≤ ρ) (h1 : ρ < 1) (hb : ∀ n, 1 ≤ n → b n ≠ 0)
    (hR : RatioLimit (invA a) (invB b) ρ)
    (hl : Tendsto (fun n => (contP (invA a) (invB b) (n + 1) : ℝ) / contQ (invA a) (invB b) (n + 1)) atTop (𝓝 0)) :
    ∃ N, ∀ m, N ≤ m → ¬ Shrinks a b m ∧ contQ a b m ≠ 0 ∧ a m ≠ 0 := by
  obtain ⟨N₁, h₁⟩ := hR.ane
  obtain ⟨N₂, h₂⟩ := hR.qne
  have hv : Tendsto (fun m => (contP (invA a) (invB b) m : ℝ) / contQ (invA a) (invB b) m) atTop (𝓝 0) := (tendsto_add_atTop_iff_nat 1).1 hl
  obtain ⟨⟨M, hM⟩, hlim⟩ := error_ratio (K := max N₁ N₂) hv h0 h1 hR.lim
    (fun m hm => diff_step (h₁ _ (by omega)) (h₂ _ (by omega)) (h₂ _ (by omega)) (h₂ _ (by omega)))
    (fun m hm => diff_ne (invB_ne hb) (h₁ _ (by omega)) (h₂ _ (by omega)) (h₂ _ (by omega)))
  simp only [sub_zero] at hlim
  set s : ℕ → ℝ := fun m => (contP (invA a) (invB b) (m + 2) : ℝ) / contQ (invA a) (invB b) (m + 2) /
    ((contP (invA a) (invB b) m : ℝ) / contQ (invA a) (invB b) m) with hs
  have hs2 : Tendsto (fun m => s (m + 2)) atTop (𝓝 ρ) := (tendsto_add_atTop_iff_nat 2).2 hlim
  have hcmp : Tendsto (fun m => 17 * |1 - s (m + 2)| - 16 * (|s (m + 2)| * |1 - s m|)) atTop (𝓝 (17 * |1 - ρ| - 16 * (|ρ| * |1 - ρ|))) :=
    (((tendsto_const_nhds.sub hs2).abs).const_mul 17).sub ((hs2.abs.mul (tendsto_const_nhds.sub hlim).abs).const_mul 16)
  have hpos : 0 < 17 * |1 - ρ| - 16 * (|ρ| * |1 - ρ|) := by
    rw [abs_of_nonneg h0, abs_of_pos (by linarith : 0 < 1 - ρ)]
    nlinarith
  obtain ⟨N₃, h₃⟩ := eventually_atTop.1 (hcmp.eventually (lt_mem_nhds hpos))
  refine ⟨max N₃ (max M (max N₁ N₂)), fun m hm => ⟨fun hsh => ?_, fun h => ?_, h₁ (m + 1) (by omega)⟩⟩
  swap
  · have := hM (m + 1) (by omega)
    rw [contP_inv, h] at this
    simp at this
  have hk := h₃ (m + 1) (by omega)
  have p0 := h₂ (m + 1) (by omega)
  have p2 := h₂ (m + 2 + 1) (by omega)
  have p4 := h₂ (m + 4 + 1) (by omega)
  have q0 := hM (m + 1) (by omega)
  have q2 := hM (m + 2 + 1) (by omega)
  have q4 := hM (m + 4 + 1) (by omega)
  simp only [contP_inv, contQ_inv] at p0 p2 p4 q0 q2 q4
  have e1 : s (m + 1) = (contQ a b (m + 2) : ℝ) / contP a b (m + 2) / ((contQ a b m : ℝ) / contP a b m) := by
    simp only [hs]
    rw [show m + 1 + 2 = m + 2 + 1 from rfl, contP_inv, contQ_inv, contP_inv, contQ_inv]
  have e2 : s (m + 1 + 2) = (contQ a b (m + 4) : ℝ) / contP a b (m + 4) / ((contQ a b (m + 2) : ℝ) / contP a b (m + 2)) := by
    simp only [hs]
    rw [show m + 1 + 2 + 2 = m + 4 + 1 from rfl, show m + 1 + 2 = m + 2 + 1 from rfl, contP_inv, contQ_inv, contP_inv, contQ_inv]
  rw [e1, e2] at hk
  unfold Shrinks at hsh
  have hsh' : (17 : ℝ) * |(contQ a b m : ℝ) * (contP a b (m + 4) * contQ a b (m + 2) - contP a b (m + 2) * contQ a b (m + 4))| <
      16 * |(contQ a b (m + 4) : ℝ) * (contP a b (m + 2) * contQ a b m - contP a b m * contQ a b (m + 2))| := by exact_mod_cast hsh
  have r0 : (contP a b m : ℝ) ≠ 0 := Int.cast_ne_zero.2 p0
  have r2 : (contP a b (m + 2) : ℝ) ≠ 0 := Int.cast_ne_zero.2 p2
  have r4 : (contP a b (m + 4) : ℝ) ≠ 0 := Int.cast_ne_zero.2 p4
  generalize (contP a b m : ℝ) = P0 at *
  generalize (contP a b (m + 2) : ℝ) = P2 at *
  generalize (contP a b (m + 4) : ℝ) = P4 at *
  generalize (contQ a b m : ℝ) = Q0 at *
  generalize (contQ a b (m + 2) : ℝ) = Q2 at *
  generalize (contQ a b (m + 4) : ℝ) = Q4 at *
  have s0 : Q0 ≠ 0 := fun h => q0 (by rw [h, zero_div])
  have s2 : Q2 ≠ 0 := fun h => q2 (by rw [h, zero_div])
  have f1 : Q0 * (P4 * Q2 - P2 * Q4) = Q0 * P4 * Q2 * (1 - Q4 / P4 / (Q2 / P2)) := by field_simp
  have f2 : Q4 * (P2 * Q0 - P0 * Q2) = Q0 * P4 * Q2 * (Q4 / P4 / (Q2 / P2) * (1 - Q2 / P2 / (Q0 / P0))) := by field_simp
  rw [f1, f2, abs_mul, abs_mul (Q0 * P4 * Q2), abs_mul (Q4 / P4 / (Q2 / P2))] at hsh'
  have hA : 0 < |Q0 * P4 * Q2| := abs_pos.2 (mul_ne_zero (mul_ne_zero s0 r4) s2)
  nlinarith

end PiCF
