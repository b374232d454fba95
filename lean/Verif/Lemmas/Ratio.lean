import Mathlib.NumberTheory.Real.Irrational
import Verif.Lemmas.Discriminant

/-!
# The ratio `(x_{m+4} - x_{m+2}) / (x_{m+2} - x_m)` of differences of convergents
-/

namespace PiCF
open PiCF.Spec PiCF.ContFrac Filter Topology

/-- The ratio, in terms of the denominators. -/
noncomputable def diffRatio (a b : ℕ → ℤ) (m : ℕ) : ℝ :=
  (a (m + 3) * (b (m + 2) * b (m + 1)) * contQ a b m) / (a (m + 1) * contQ a b (m + 4))

theorem two_apart (a b : ℕ → ℤ) (m : ℕ) :
    contP a b (m + 2) * contQ a b m - contP a b m * contQ a b (m + 2) = a (m + 1) * ((-1) ^ (m + 1) * prodB b m) := by
  have h := determinant a b m
  rw [← h, show contP a b (m + 2) = a (m + 1) * contP a b (m + 1) + b (m + 1) * contP a b m from contP_solves a b m,
    show contQ a b (m + 2) = a (m + 1) * contQ a b (m + 1) + b (m + 1) * contQ a b m from contQ_solves a b m]
  ring

theorem four_apart (a b : ℕ → ℤ) (m : ℕ) :
    contP a b (m + 4) * contQ a b (m + 2) - contP a b (m + 2) * contQ a b (m + 4) =
      a (m + 3) * (b (m + 2) * b (m + 1)) * ((-1) ^ (m + 1) * prodB b m) := by
  rw [show m + 4 = m + 2 + 2 from rfl, two_apart, show m + 2 + 1 = m + 3 from rfl, prodB, prodB]
  rw [show m + 3 = m + 1 + 2 from rfl, pow_add]
  ring

/-- The integer comparison of `is_convergence_fast()` is a comparison of the ratio with `16/17`. -/
theorem shrinks_iff_ratio {a b : ℕ → ℤ} (hb : ∀ n, 1 ≤ n → b n ≠ 0) {m : ℕ} (ha : a (m + 1) ≠ 0) (hq : contQ a b (m + 4) ≠ 0) :
    Shrinks a b m ↔ |diffRatio a b m| < 16 / 17 := by
  have hw : (0 : ℝ) < |(prodB b m : ℝ)| := abs_pos.2 (Int.cast_ne_zero.2 (prodB_ne hb m))
  have h1 : (0 : ℝ) < |(a (m + 1) : ℝ)| * |(contQ a b (m + 4) : ℝ)| :=
    mul_pos (abs_pos.2 (Int.cast_ne_zero.2 ha)) (abs_pos.2 (Int.cast_ne_zero.2 hq))
  unfold Shrinks
  rw [four_apart, two_apart, ← Int.cast_lt (R := ℝ)]
  unfold diffRatio
  push_cast
  simp only [abs_mul, abs_div, abs_pow, abs_neg, abs_one, one_pow, one_mul]
  rw [div_lt_div_iff₀ h1 (by norm_num)]
  set A := |(a (m + 3) : ℝ)| * (|(b (m + 2) : ℝ)| * |(b (m + 1) : ℝ)|) * |(contQ a b m : ℝ)|
  set B := |(a (m + 1) : ℝ)| * |(contQ a b (m + 4) : ℝ)|
  have e1 : 17 * (|(contQ a b m : ℝ)| * (|(a (m + 3) : ℝ)| * (|(b (m + 2) : ℝ)| * |(b (m + 1) : ℝ)|) * |(prodB b m : ℝ)|)) =
      (A * 17) * |(prodB b m : ℝ)| := by ring
  have e2 : 16 * (|(contQ a b (m + 4) : ℝ)| * (|(a (m + 1) : ℝ)| * |(prodB b m : ℝ)|)) = (16 * B) * |(prodB b m : ℝ)| := by ring
  rw [e1, e2]
  exact mul_lt_mul_iff_left₀ hw

/-- `diffRatio` is the ratio of the differences. -/
theorem diff_step {a b : ℕ → ℤ} {m : ℕ} (ha : a (m + 1) ≠ 0) (h0 : contQ a b m ≠ 0) (h2 : contQ a b (m + 2) ≠ 0)
    (h4 : contQ a b (m + 4) ≠ 0) :
    (contP a b (m + 4) : ℝ) / contQ a b (m + 4) - contP a b (m + 2) / contQ a b (m + 2) =
      diffRatio a b m * ((contP a b (m + 2) : ℝ) / contQ a b (m + 2) - contP a b m / contQ a b m) := by
  have q0 : (contQ a b m : ℝ) ≠ 0 := Int.cast_ne_zero.2 h0
  have q2 : (contQ a b (m + 2) : ℝ) ≠ 0 := Int.cast_ne_zero.2 h2
  have q4 : (contQ a b (m + 4) : ℝ) ≠ 0 := Int.cast_ne_zero.2 h4
  have a1 : (a (m + 1) : ℝ) ≠ 0 := Int.cast_ne_zero.2 ha
  have e1 : (contP a b (m + 2) : ℝ) * contQ a b m - contP a b m * contQ a b (m + 2) = a (m + 1) * ((-1) ^ (m + 1) * prodB b m) := by
    exact_mod_cast two_apart a b m
  have e2 : (contP a b (m + 4) : ℝ) * contQ a b (m + 2) - contP a b (m + 2) * contQ a b (m + 4) =
      a (m + 3) * (b (m + 2) * b (m + 1)) * ((-1) ^ (m + 1) * prodB b m) := by exact_mod_cast four_apart a b m
  rw [div_sub_div _ _ q4 q2, div_sub_div _ _ q2 q0, mul_comm (contQ a b (m + 4) : ℝ) (contP a b (m + 2) : ℝ),
    mul_comm (contQ a b (m + 2) : ℝ) (contP a b m : ℝ), e1, e2]
  unfold diffRatio
  field_simp

theorem diff_ne {a b : ℕ → ℤ} (hb : ∀ n, 1 ≤ n → b n ≠ 0) {m : ℕ} (ha : a (m + 1) ≠ 0) (h0 : contQ a b m ≠ 0)
    (h2 : contQ a b (m + 2) ≠ 0) : (contP a b (m + 2) : ℝ) / contQ a b (m + 2) - contP a b m / contQ a b m ≠ 0 := by
  have q0 : (contQ a b m : ℝ) ≠ 0 := Int.cast_ne_zero.2 h0
  have q2 : (contQ a b (m + 2) : ℝ) ≠ 0 := Int.cast_ne_zero.2 h2
  have e1 : (contP a b (m + 2) : ℝ) * contQ a b m - contP a b m * contQ a b (m + 2) = a (m + 1) * ((-1) ^ (m + 1) * prodB b m) := by
    exact_mod_cast two_apart a b m
  rw [div_sub_div _ _ q2 q0, mul_comm (contQ a b (m + 2) : ℝ) (contP a b m : ℝ), e1]
  exact div_ne_zero (mul_ne_zero (Int.cast_ne_zero.2 ha) (mul_ne_zero (pow_ne_zero _ (by norm_num))
    (Int.cast_ne_zero.2 (prodB_ne hb m)))) (mul_ne_zero q2 q0)

/-! ### From differences to distances -/

theorem contraction {w : ℕ → ℝ} {κ δ B : ℝ} {M : ℕ} (h0 : 0 ≤ κ) (h1 : κ < 1) (hw : ∀ m, M ≤ m → |w m| ≤ κ * |w (m + 2)| + δ)
    (hB : ∀ m, M ≤ m → |w m| ≤ B) : ∀ m, M ≤ m → |w m| ≤ δ / (1 - κ) := by
  have hκ : 0 < 1 - κ := by linarith
  have key : ∀ j m, M ≤ m → |w m| ≤ κ ^ j * (B - δ / (1 - κ)) + δ / (1 - κ) := by
    intro j
    induction j with
    | zero => intro m hm; simpa using hB m hm
    | succ j ih =>
      intro m hm
      refine (hw m hm).trans ?_
      have := mul_le_mul_of_nonneg_left (ih (m + 2) (by omega)) h0
      have e : δ = (1 - κ) * (δ / (1 - κ)) := by field_simp
      rw [pow_succ]
      linarith
  intro m hm
  have h : Tendsto (fun j => κ ^ j * (B - δ / (1 - κ)) + δ / (1 - κ)) atTop (𝓝 (0 * (B - δ / (1 - κ)) + δ / (1 - κ))) :=
    ((tendsto_pow_atTop_nhds_zero_of_lt_one h0 h1).mul_const _).add_const _
  rw [zero_mul, zero_add] at h
  exact ge_of_tendsto' h fun j => key j m hm

/-- If the ratio of the differences `v_{m+4} - v_{m+2}` and `v_{m+2} - v_m` has a limit `ρ < 1`, then so has the ratio of the distances to
the limit. -/
theorem error_ratio {v s : ℕ → ℝ} {L ρ : ℝ} {K : ℕ} (hv : Tendsto v atTop (𝓝 L)) (h0 : 0 ≤ ρ) (h1 : ρ < 1)
    (hs : Tendsto s atTop (𝓝 ρ)) (hd : ∀ m, K ≤ m → v (m + 4) - v (m + 2) = s m * (v (m + 2) - v m))
    (hne : ∀ m, K ≤ m → v (m + 2) - v m ≠ 0) :
    (∃ M, ∀ m, M ≤ m → v m ≠ L) ∧ Tendsto (fun m => (v (m + 2) - L) / (v m - L)) atTop (𝓝 ρ) := by
  set κ := (1 + ρ) / 2 with hκ
  have hκ0 : 0 ≤ κ := by rw [hκ]; linarith
  have hκ1 : κ < 1 := by rw [hκ]; linarith
  have hκ' : 0 < 1 - κ := by linarith
  have hsa : ∀ᶠ m in atTop, |s m| ≤ κ := by
    have := hs.abs
    rw [abs_of_nonneg h0] at this
    exact (this.eventually (gt_mem_nhds (show ρ < κ by rw [hκ]; linarith))).mono fun m h => h.le
  obtain ⟨M₁, hM₁⟩ := eventually_atTop.1 hsa
  set M := max K M₁ with hM
  set D : ℕ → ℝ := fun m => v (m + 2) - v m with hD
  have hDs : ∀ m, M ≤ m → D (m + 2) = s m * D m := fun m hm => hd m (by omega)
  have hDn : ∀ m, M ≤ m → D m ≠ 0 := fun m hm => hne m (by omega)
  have hDk : ∀ m, M ≤ m → |D (m + 2)| ≤ κ * |D m| := fun m hm => by
    rw [hDs m hm, abs_mul]
    exact mul_le_mul_of_nonneg_right (hM₁ m (by omega)) (abs_nonneg _)
  have hpart : ∀ j m, M ≤ m → |v (m + 2 * j) - v m| ≤ |D m| / (1 - κ) := by
    intro j
    induction j with
    | zero => intro m hm; simp; positivity
    | succ j ih =>
      intro m hm
      have h := ih (m + 2) (by omega)
      have e : v (m + 2 * (j + 1)) - v m = (v (m + 2 + 2 * j) - v (m + 2)) + D m := by
        rw [hD, show m + 2 * (j + 1) = m + 2 + 2 * j by ring]; ring
      rw [e]
      refine (abs_add_le _ _).trans ?_
      have h2 := hDk m hm
      have h3 : |D (m + 2)| / (1 - κ) ≤ κ * |D m| / (1 - κ) := div_le_div_of_nonneg_right h2 hκ'.le
      have h4 : |D m| / (1 - κ) = κ * |D m| / (1 - κ) + |D m| := by field_simp; ring
      linarith
  have hbound : ∀ m, M ≤ m → |L - v m| ≤ |D m| / (1 - κ) := by
    intro m hm
    have ht : Tendsto (fun j : ℕ => |v (m + 2 * j) - v m|) atTop (𝓝 |L - v m|) := by
      have : Tendsto (fun j : ℕ => m + 2 * j) atTop atTop :=
        tendsto_atTop_mono (fun j => by omega : ∀ j : ℕ, j ≤ m + 2 * j) tendsto_id
      exact ((hv.comp this).sub_const _).abs
    exact le_of_tendsto' ht fun j => hpart j m hm
  set u : ℕ → ℝ := fun m => (L - v m) / D m with hu
  have hub : ∀ m, M ≤ m → |u m| ≤ 1 / (1 - κ) := by
    intro m hm
    have hp : 0 < |D m| := abs_pos.2 (hDn m hm)
    rw [hu]
    simp only
    rw [abs_div, div_le_iff₀ hp]
    refine (hbound m hm).trans (le_of_eq ?_)
    ring
  have hrec : ∀ m, M ≤ m → u m = 1 + s m * u (m + 2) := by
    intro m hm
    have d0 := hDn m hm
    have d2 := hDn (m + 2) (by omega)
    have e : L - v m = D m + (L - v (m + 2)) := by rw [hD]; ring
    have s0 : s m ≠ 0 := fun h => d2 (by rw [hDs m hm, h, zero_mul])
    simp only [hu]
    rw [e, hDs m hm]
    field_simp
  have hρ : 0 < 1 - ρ := by linarith
  set w : ℕ → ℝ := fun m => u m - 1 / (1 - ρ) with hw
  have hwr : ∀ m, M ≤ m → w m = s m * w (m + 2) + (s m - ρ) / (1 - ρ) := by
    intro m hm
    simp only [hw]
    rw [hrec m hm]
    field_simp
    ring
  have hwB : ∀ m, M ≤ m → |w m| ≤ 1 / (1 - κ) + 1 / (1 - ρ) := by
    intro m hm
    refine (abs_sub _ _).trans ?_
    rw [abs_of_pos (show 0 < 1 / (1 - ρ) by positivity)]
    exact add_le_add (hub m hm) le_rfl
  have hw0 : Tendsto w atTop (𝓝 0) := by
    rw [Metric.tendsto_atTop]
    intro ε hε
    set δ := ε / 2 * (1 - κ) with hδ
    have hδ0 : 0 < δ := by positivity
    have hev : Tendsto (fun m => |(s m - ρ) / (1 - ρ)|) atTop (𝓝 0) := by
      have := ((hs.sub_const ρ).div_const (1 - ρ)).abs
      simpa using this
    obtain ⟨M₂, hM₂⟩ := eventually_atTop.1 (hev.eventually (gt_mem_nhds hδ0))
    refine ⟨max M M₂, fun m hm => ?_⟩
    have := contraction (w := w) (δ := δ) (M := max M M₂) hκ0 hκ1 (fun m hm => by
      rw [hwr m (by omega)]
      refine (abs_add_le _ _).trans (add_le_add ?_ (hM₂ m (by omega)).le)
      rw [abs_mul]
      exact mul_le_mul_of_nonneg_right (hM₁ m (by omega)) (abs_nonneg _)) (fun m hm => hwB m (by omega)) m hm
    rw [Real.dist_eq, sub_zero]
    refine this.trans_lt ?_
    rw [hδ, mul_div_assoc, div_self hκ'.ne', mul_one]
    linarith
  have hu1 : Tendsto u atTop (𝓝 (1 / (1 - ρ))) := by
    have := hw0.add_const (1 / (1 - ρ))
    rw [zero_add] at this
    refine this.congr fun m => ?_
    simp only [hw]; ring
  have hune : (1 : ℝ) / (1 - ρ) ≠ 0 := by positivity
  obtain ⟨M₃, hM₃⟩ := eventually_atTop.1 (hu1.eventually_ne hune)
  have hvne : ∀ m, M₃ ≤ m → v m ≠ L := by
    intro m hm h
    refine hM₃ m hm ?_
    simp only [hu]
    rw [h, sub_self, zero_div]
  refine ⟨⟨M₃, hvne⟩, ?_⟩
  have hlim : Tendsto (fun m => 1 - (u m)⁻¹) atTop (𝓝 ρ) := by
    have := (hu1.inv₀ hune).const_sub 1
    rwa [one_div, inv_inv, sub_sub_cancel] at this
  refine hlim.congr' ?_
  filter_upwards [eventually_ge_atTop (max M M₃)] with m hm
  have d0 := hDn m (by omega)
  have l0 : v m - L ≠ 0 := sub_ne_zero.2 (hvne m (by omega))
  have l1 : L - v m ≠ 0 := by rw [← neg_sub]; exact neg_ne_zero.2 l0
  simp only [hu]
  rw [inv_div]
  have e : v (m + 2) - L = (v m - L) + D m := by rw [hD]; ring
  rw [e]
  field_simp
  ring

/-! ### The limit of the ratio -/

/-- What the test sees: the ratio tends to `ρ`, and from some depth on it can be formed. -/
structure RatioLimit (a b : ℕ → ℤ) (ρ : ℝ) : Prop where
  ane : ∃ N, ∀ m, N ≤ m → a m ≠ 0
  qne : ∃ N, ∀ m, N ≤ m → contQ a b m ≠ 0
  lim : Tendsto (diffRatio a b) atTop (𝓝 ρ)

theorem RatioLimit.shrinks {a b : ℕ → ℤ} {ρ : ℝ} (h : RatioLimit a b ρ) (hb : ∀ n, 1 ≤ n → b n ≠ 0) (h0 : 0 ≤ ρ) (h16 : ρ ≠ 16 / 17) :
    ∃ N, ∀ m, N ≤ m → (Shrinks a b m ↔ ρ < 16 / 17) := by
  obtain ⟨N₁, h₁⟩ := h.ane
  obtain ⟨N₂, h₂⟩ := h.qne
  have hl := h.lim.abs
  rw [abs_of_nonneg h0] at hl
  rcases lt_or_gt_of_ne h16 with hlt | hgt
  · obtain ⟨N₃, h₃⟩ := eventually_atTop.1 (hl.eventually (gt_mem_nhds hlt))
    refine ⟨max N₁ (max N₂ N₃), fun m hm => ?_⟩
    rw [shrinks_iff_ratio hb (h₁ _ (by omega)) (h₂ _ (by omega))]
    exact iff_of_true (h₃ m (by omega)) hlt
  · obtain ⟨N₃, h₃⟩ := eventually_atTop.1 (hl.eventually (lt_mem_nhds hgt))
    refine ⟨max N₁ (max N₂ N₃), fun m hm => ?_⟩
    rw [shrinks_iff_ratio hb (h₁ _ (by omega)) (h₂ _ (by omega))]
    exact iff_of_false (not_lt.2 (h₃ m (by omega)).le) (not_lt.2 hgt.le)

theorem RatioLimit.errors {a b : ℕ → ℤ} {ρ l : ℝ} (h : RatioLimit a b ρ) (hb : ∀ n, 1 ≤ n → b n ≠ 0) (h0 : 0 ≤ ρ) (h1 : ρ < 1)
    (hl : Tendsto (fun n => (contP a b (n + 1) : ℝ) / contQ a b (n + 1)) atTop (𝓝 l)) :
    (∃ N, ∀ n, N ≤ n → convError a b l n ≠ 0) ∧ Tendsto (fun n => convError a b l (n + 2) / convError a b l n) atTop (𝓝 ρ) := by
  obtain ⟨N₁, h₁⟩ := h.ane
  obtain ⟨N₂, h₂⟩ := h.qne
  have hv : Tendsto (fun m => (contP a b m : ℝ) / contQ a b m) atTop (𝓝 l) := (tendsto_add_atTop_iff_nat 1).1 hl
  obtain ⟨⟨M, hM⟩, hlim⟩ := error_ratio (K := max N₁ N₂) hv h0 h1 h.lim
    (fun m hm => diff_step (h₁ _ (by omega)) (h₂ _ (by omega)) (h₂ _ (by omega)) (h₂ _ (by omega)))
    (fun m hm => diff_ne hb (h₁ _ (by omega)) (h₂ _ (by omega)) (h₂ _ (by omega)))
  constructor
  · refine ⟨M, fun n hn => ?_⟩
    unfold convError
    exact abs_ne_zero.2 (sub_ne_zero.2 (hM (n + 1) (by omega)))
  · have := ((tendsto_add_atTop_iff_nat 1).2 hlim).abs
    rw [abs_of_nonneg h0] at this
    refine this.congr fun n => ?_
    unfold convError
    rw [abs_div, show n + 1 + 2 = n + 2 + 1 from rfl]

/-- A continued fraction does not both converge and tend to infinity. -/
theorem not_both {a b : ℕ → ℤ} {l : ℝ} (hl : Tendsto (fun n => (contP a b (n + 1) : ℝ) / contQ a b (n + 1)) atTop (𝓝 l))
    (hq : ∃ N, ∀ n, N ≤ n → contQ a b (n + 1) ≠ 0) : ¬ DivergesExp a b := by
  rintro ⟨c, κ, N, hκ0, hκ1, h⟩
  obtain ⟨N', hN'⟩ := hq
  have h1 : Tendsto (fun n => (contQ a b (n + 1) : ℝ) / contP a b (n + 1)) atTop (𝓝 0) := by
    refine squeeze_zero_norm' (a := fun n => c * κ ^ n) ?_ ?_
    · filter_upwards [eventually_ge_atTop N] with n hn
      rw [Real.norm_eq_abs]; exact (h n hn).2
    · simpa using (tendsto_pow_atTop_nhds_zero_of_lt_one hκ0 hκ1).const_mul c
  have h2 := hl.mul h1
  rw [mul_zero] at h2
  have h3 : (fun n => (contP a b (n + 1) : ℝ) / contQ a b (n + 1) * (contQ a b (n + 1) / contP a b (n + 1))) =ᶠ[atTop] fun _ => 1 := by
    filter_upwards [eventually_ge_atTop (max N N')] with n hn
    have p : (contP a b (n + 1) : ℝ) ≠ 0 := Int.cast_ne_zero.2 (h n (by omega)).1
    have q : (contQ a b (n + 1) : ℝ) ≠ 0 := Int.cast_ne_zero.2 (hN' n (by omega))
    field_simp
  exact zero_ne_one (tendsto_nhds_unique (h2.congr' h3) tendsto_const_nhds)

theorem DivergesFast.exp {a b : ℕ → ℤ} (h : DivergesFast a b) : DivergesExp a b := by
  obtain ⟨c, N, hN⟩ := h (1 / 2) (by norm_num)
  exact ⟨c, 1 / 2, N, by norm_num, by norm_num, hN⟩

/-- `deg b = 2 deg a` with positive discriminant. -/
theorem Balanced.ratio {a b : ℕ → ℤ} {r t : ℝ} (h : Balanced a b (r * t)) (h1 : r + t = 1) (ht : |t| < r) (ht0 : t ≠ 0)
    (hn : ¬ DivergesExp a b) : RatioLimit a b ((t / r) ^ 2) := by
  obtain ⟨N, ha, hP, hQ, hc, h0, hw⟩ := h.normal
  have hr : 0 < r := (abs_nonneg t).trans_lt ht
  have zQ : ∀ m, ¬ (normed a (contQ a b) N m = 0 ∧ normed a (contQ a b) N (m + 1) = 0) := by
    intro m
    rw [normed_eq_zero ha, normed_eq_zero ha]
    exact (not_both_zero h.bne (N + m)).2
  rcases perron hQ hc h1 ht zQ with ⟨⟨M, hM⟩, hlim⟩ | bQ
  · have hqne : ∀ m, M ≤ m → contQ a b (N + m) ≠ 0 := fun m hm => by
      have := hM m hm
      rwa [Ne, normed_eq_zero ha] at this
    refine ⟨⟨N, ha⟩, ⟨N + M, fun m hm => ?_⟩, ?_⟩
    · have := hqne (m - N) (by omega)
      rwa [show N + (m - N) = m by omega] at this
    · rw [← tendsto_add_atTop_iff_nat N]
      set x := normed a (contQ a b) N with hx
      have hl := hlim.inv₀ hr.ne'
      have hlk : ∀ k, Tendsto (fun m => (x (m + k + 1) / x (m + k))⁻¹) atTop (𝓝 r⁻¹) := fun k => (tendsto_add_atTop_iff_nat k).2 hl
      have hc1 : Tendsto (fun m => coeffC a b (N + m + 1)) atTop (𝓝 (-(r * t))) := (tendsto_add_atTop_iff_nat 1).2 hc
      have hf := (hc.mul hc1).mul (((hlk 0).mul (hlk 1)).mul ((hlk 2).mul (hlk 3)))
      have hval : -(r * t) * -(r * t) * (r⁻¹ * r⁻¹ * (r⁻¹ * r⁻¹)) = (t / r) ^ 2 := by field_simp
      rw [hval] at hf
      refine hf.congr' ?_
      filter_upwards [eventually_ge_atTop M] with m hm
      have y : ∀ k, (contQ a b (N + m + k) : ℝ) ≠ 0 := fun k => Int.cast_ne_zero.2 (by rw [Nat.add_assoc]; exact hqne (m + k) (by omega))
      have A : ∀ k, (a (N + m + k) : ℝ) ≠ 0 := fun k => Int.cast_ne_zero.2 (ha _ (by omega))
      have p0 := prodA_ne ha m
      have ex : ∀ k, x (m + k) = contQ a b (N + m + k) / prodA a N (m + k) := fun k => by rw [hx, normed, Nat.add_assoc]
      have a0 := A 0
      have a1 := A 1
      have a2 := A 2
      have a3 := A 3
      have y0 := y 0
      have y1 := y 1
      have y2 := y 2
      have y3 := y 3
      have y4 := y 4
      have P1 : prodA a N (m + 1) = prodA a N m * a (N + m) := rfl
      have P2 : prodA a N (m + 2) = prodA a N m * a (N + m) * a (N + m + 1) := rfl
      have P3 : prodA a N (m + 3) = prodA a N m * a (N + m) * a (N + m + 1) * a (N + m + 2) := rfl
      have P4 : prodA a N (m + 4) = prodA a N m * a (N + m) * a (N + m + 1) * a (N + m + 2) * a (N + m + 3) := rfl
      have x0 : x m = contQ a b (N + m) / prodA a N m := ex 0
      simp only [show m + 1 + 1 = m + 2 from rfl, show m + 2 + 1 = m + 3 from rfl,
        show m + 3 + 1 = m + 4 from rfl, ex, Nat.add_zero] at a0 y0 ⊢
      rw [x0, P1, P2, P3, P4, show m + N = N + m from Nat.add_comm _ _]
      unfold diffRatio coeffC
      rw [show N + m + 1 + 1 = N + m + 2 from rfl]
      field_simp
  · exact absurd (h.div_of_minor h1 ht ht0 ha hP hQ hc h0 hw bQ) hn

/-- `deg b < 2 deg a`. -/
theorem Small.ratio {a b : ℕ → ℤ} (hs : Small a b) (hb : ∀ n, 1 ≤ n → b n ≠ 0) (hn : ¬ DivergesExp a b) : RatioLimit a b 0 := by
  obtain ⟨N, hN⟩ := hs 8
  obtain ⟨m₀, hm₀, hd⟩ : ∃ m, N ≤ m ∧ Dominant a (contQ a b) m := by
    by_contra hq
    push Not at hq
    exact hn (DivergesFast.exp (fast_of_not_dominant hb hs hN hq))
  have hdom := dominant_from (contQ_solves a b) hN hm₀ hd
  have hne : ∀ n, m₀ + 1 ≤ n → contQ a b n ≠ 0 := by
    intro n hn
    obtain ⟨n, rfl⟩ : ∃ k, n = k + 1 := ⟨n - 1, by omega⟩
    exact dominant_ne hb (fun n => (not_both_zero hb n).2) (hN n (by omega)) (hdom n (by omega))
  have ha : ∀ m, N ≤ m → a m ≠ 0 := by
    intro m hm h0
    have h := hN m hm
    rw [h0] at h
    have : 0 < |(b (m + 1) : ℝ)| := abs_pos.2 (Int.cast_ne_zero.2 (hb _ (by omega)))
    simp only [Int.cast_zero, abs_zero, mul_zero] at h
    linarith
  refine ⟨⟨N, ha⟩, ⟨m₀ + 1, hne⟩, ?_⟩
  rw [Metric.tendsto_atTop]
  intro ε hε
  obtain ⟨K, hK⟩ : ∃ K : ℝ, 1 ≤ K ∧ 16 / ε < K :=
    ⟨16 / ε + 1, by have : 0 < 16 / ε := by positivity
                    linarith, by linarith⟩
  obtain ⟨N', hN'⟩ := hs K
  refine ⟨max (m₀ + 1) N', fun m hm => ?_⟩
  rw [Real.dist_eq, sub_zero]
  have b1 := hN' m (by omega)
  have b2 : K * |(b (m + 2) : ℝ)| ≤ |(a (m + 2) : ℝ)| * |(a (m + 1) : ℝ)| := hN' (m + 1) (by omega)
  have d0 : |(a m : ℝ)| * |(contQ a b m : ℝ)| ≤ 2 * |(contQ a b (m + 1) : ℝ)| := hdom m (by omega)
  have d1 : |(a (m + 1) : ℝ)| * |(contQ a b (m + 1) : ℝ)| ≤ 2 * |(contQ a b (m + 2) : ℝ)| := hdom (m + 1) (by omega)
  have d2 : |(a (m + 2) : ℝ)| * |(contQ a b (m + 2) : ℝ)| ≤ 2 * |(contQ a b (m + 3) : ℝ)| := hdom (m + 2) (by omega)
  have d3 : |(a (m + 3) : ℝ)| * |(contQ a b (m + 3) : ℝ)| ≤ 2 * |(contQ a b (m + 4) : ℝ)| := hdom (m + 3) (by omega)
  have a1 : 0 < |(a (m + 1) : ℝ)| := abs_pos.2 (Int.cast_ne_zero.2 (ha _ (by omega)))
  have q4 : 0 < |(contQ a b (m + 4) : ℝ)| := abs_pos.2 (Int.cast_ne_zero.2 (hne _ (by omega)))
  unfold diffRatio
  simp only [abs_div, abs_mul]
  rw [div_lt_iff₀ (by positivity)]
  generalize |(a m : ℝ)| = A0, hA1 : |(a (m + 1) : ℝ)| = A1, hA2 : |(a (m + 2) : ℝ)| = A2, hA3 : |(a (m + 3) : ℝ)| = A3,
    hB1 : |(b (m + 1) : ℝ)| = B1, hB2 : |(b (m + 2) : ℝ)| = B2, hQ0 : |(contQ a b m : ℝ)| = Q0, |(contQ a b (m + 1) : ℝ)| = Q1,
    |(contQ a b (m + 2) : ℝ)| = Q2, |(contQ a b (m + 3) : ℝ)| = Q3, |(contQ a b (m + 4) : ℝ)| = Q4 at *
  have hA2' : 0 ≤ A2 := hA2 ▸ abs_nonneg _
  have hA3' : 0 ≤ A3 := hA3 ▸ abs_nonneg _
  have hB1' : 0 ≤ B1 := hB1 ▸ abs_nonneg _
  have hB2' : 0 ≤ B2 := hB2 ▸ abs_nonneg _
  have hQ0' : 0 ≤ Q0 := hQ0 ▸ abs_nonneg _
  have e : A3 * A2 * A1 * (A0 * Q0) ≤ 16 * Q4 :=
    calc A3 * A2 * A1 * (A0 * Q0) ≤ A3 * A2 * A1 * (2 * Q1) := mul_le_mul_of_nonneg_left d0 (by positivity)
      _ = 2 * (A3 * A2 * (A1 * Q1)) := by ring
      _ ≤ 2 * (A3 * A2 * (2 * Q2)) := by gcongr
      _ = 4 * (A3 * (A2 * Q2)) := by ring
      _ ≤ 4 * (A3 * (2 * Q3)) := by gcongr
      _ = 8 * (A3 * Q3) := by ring
      _ ≤ 8 * (2 * Q4) := by gcongr
      _ = _ := by ring
  have e2 : (K * B2) * (K * B1) ≤ (A2 * A1) * (A1 * A0) := by
    refine mul_le_mul b2 b1 (mul_nonneg (by linarith [hK.1]) hB1') (by positivity)
  have e3 : K * (K * (A3 * (B2 * B1) * Q0)) ≤ 16 * (A1 * Q4) :=
    calc _ = A3 * Q0 * ((K * B2) * (K * B1)) := by ring
      _ ≤ A3 * Q0 * ((A2 * A1) * (A1 * A0)) := mul_le_mul_of_nonneg_left e2 (by positivity)
      _ = A1 * (A3 * A2 * A1 * (A0 * Q0)) := by ring
      _ ≤ A1 * (16 * Q4) := mul_le_mul_of_nonneg_left e a1.le
      _ = _ := by ring
  have e4 : K * (A3 * (B2 * B1) * Q0) ≤ K * (K * (A3 * (B2 * B1) * Q0)) :=
    le_mul_of_one_le_left (mul_nonneg (by linarith [hK.1]) (by positivity)) hK.1
  have e5 : A3 * (B2 * B1) * Q0 ≤ 16 * (A1 * Q4) / K := by
    rw [le_div_iff₀ (by linarith [hK.1])]
    linarith
  refine e5.trans_lt ?_
  rw [div_lt_iff₀ (by linarith [hK.1])]
  have h16 : 16 < K * ε := by
    have := hK.2
    rwa [div_lt_iff₀ hε] at this
  have : 0 < A1 * Q4 := by positivity
  nlinarith

/-- Thresholds such as `16/17` and `10/11` are never met exactly: `16 · 17` and `10 · 11` are not squares. -/
theorem ratio_ne {r t : ℝ} (h1 : r + t = 1) (hr : 0 < r) {q : ℚ} (hq : r * t = q) {k : ℕ} (hk : ¬ IsSquare (k * (k + 1))) :
    (t / r) ^ 2 ≠ k / (k + 1) := by
  intro h
  have hk0 : (0 : ℝ) < k + 1 := by positivity
  rw [div_pow, div_eq_div_iff (by positivity) hk0.ne'] at h
  have ht : t = 1 - r := by linarith
  rw [ht] at h hq
  have h2 : r ^ 2 = 2 * (k + 1) * r - (k + 1) := by nlinarith
  have hd : (0 : ℝ) < 2 * k + 1 := by positivity
  have h3 : r = (((k + 1 - q) / (2 * k + 1) : ℚ) : ℝ) := by
    push_cast
    rw [eq_div_iff hd.ne']
    nlinarith
  set s : ℚ := (k + 1 - q) / (2 * k + 1)
  have h4 : ((s - (k + 1) : ℚ) : ℝ) ^ 2 = ((k * (k + 1) : ℕ) : ℝ) := by
    push_cast
    rw [← h3]
    nlinarith
  refine irrational_sqrt_natCast_iff.2 hk ⟨|s - (k + 1)|, ?_⟩
  rw [Rat.cast_abs, ← Real.sqrt_sq_eq_abs, h4]

theorem not_square_of_between {n m : ℕ} (h1 : m * m < n) (h2 : n < (m + 1) * (m + 1)) : ¬ IsSquare n := by
  rintro ⟨r, rfl⟩
  have := Nat.mul_self_lt_mul_self_iff.1 h1
  have := Nat.mul_self_lt_mul_self_iff.1 h2
  omega

/-! ### Positive terms with `deg b > 2 deg a` -/

theorem shrink_to_zero {z e g : ℕ → ℝ} {K : ℕ} (hz : ∀ m, K ≤ m → 0 ≤ z m)
    (hr : ∀ m, K ≤ m → z (m + 2) = e m + g m * (z m / (1 + z m))) (he : Tendsto e atTop (𝓝 0)) (hg : Tendsto g atTop (𝓝 1)) :
    Tendsto z atTop (𝓝 0) := by
  rw [Metric.tendsto_atTop]
  intro η' hη'
  set η := min (η' / 2) 1 with hη
  have η0 : 0 < η := by rw [hη]; positivity
  have η1 : η ≤ 1 := min_le_right _ _
  have ηlt : η < η' := (min_le_left _ _).trans_lt (by linarith)
  set δ := η ^ 2 / 6 with hδ
  have δ0 : 0 < δ := by positivity
  obtain ⟨M₁, h₁⟩ := eventually_atTop.1 (he.eventually (gt_mem_nhds δ0))
  obtain ⟨M₂, h₂⟩ := eventually_atTop.1 (hg.eventually (gt_mem_nhds (show (1 : ℝ) < 1 + δ by linarith)))
  set M := max K (max M₁ M₂) with hM
  have hle : ∀ m, M ≤ m → z (m + 2) * (1 + z m) ≤ δ * (1 + z m) + (1 + δ) * z m := by
    intro m hm
    have p := hz m (by omega)
    have p1 : 0 < 1 + z m := by linarith
    have q1 := (h₁ m (by omega)).le
    have q2 := (h₂ m (by omega)).le
    rw [hr m (by omega), add_mul, mul_assoc, div_mul_cancel₀ _ p1.ne']
    exact add_le_add (mul_le_mul_of_nonneg_right q1 p1.le) (mul_le_mul_of_nonneg_right q2 p)
  have hstay : ∀ m, M ≤ m → z m ≤ η → z (m + 2) ≤ η := by
    intro m hm hzm
    have p := hz m (by omega)
    have p1 : 0 < 1 + z m := by linarith
    refine le_of_mul_le_mul_right ((hle m hm).trans ?_) p1
    have h6 : 6 * δ = η ^ 2 := by rw [hδ]; ring
    nlinarith
  have hdown : ∀ m, M ≤ m → η < z m → z (m + 2) ≤ z m - η ^ 2 / 4 := by
    intro m hm hzm
    have p := hz m (by omega)
    have p1 : 0 < 1 + z m := by linarith
    refine le_of_mul_le_mul_right ((hle m hm).trans ?_) p1
    have h6 : 6 * δ = η ^ 2 := by rw [hδ]; ring
    have t1 : η ^ 2 ≤ η * z m := by nlinarith
    have t2 : η * z m ≤ z m ^ 2 := by nlinarith
    have t3 : η * (η * z m) ≤ 1 * z m ^ 2 := by nlinarith
    nlinarith
  have hreach : ∀ m, M ≤ m → ∃ j, z (m + 2 * j) ≤ η := by
    intro m hm
    by_contra hcon
    push Not at hcon
    have hall : ∀ j : ℕ, z (m + 2 * j) ≤ z m - j * (η ^ 2 / 4) := by
      intro j
      induction j with
      | zero => simp
      | succ j ih =>
        have := hdown (m + 2 * j) (by omega) (hcon j)
        rw [show m + 2 * (j + 1) = m + 2 * j + 2 by ring]
        push_cast
        linarith
    obtain ⟨j, hj⟩ := exists_nat_gt (z m / (η ^ 2 / 4))
    rw [div_lt_iff₀ (by positivity)] at hj
    have := hall j
    have := hz (m + 2 * j) (by omega)
    linarith
  have hfrom : ∀ m, M ≤ m → z m ≤ η → ∀ j, z (m + 2 * j) ≤ η := by
    intro m hm h j
    induction j with
    | zero => simpa using h
    | succ j ih =>
      rw [show m + 2 * (j + 1) = m + 2 * j + 2 by ring]
      exact hstay _ (by omega) ih
  obtain ⟨j₁, hj₁⟩ := hreach M le_rfl
  obtain ⟨j₂, hj₂⟩ := hreach (M + 1) (by omega)
  refine ⟨M + 1 + 2 * (j₁ + j₂), fun m hm => ?_⟩
  rw [Real.dist_eq, sub_zero, abs_of_nonneg (hz m (by omega))]
  refine lt_of_le_of_lt ?_ ηlt
  rcases Nat.even_or_odd' (m - M) with ⟨k, hk | hk⟩
  · have := hfrom _ (by omega) hj₁ (k - j₁)
    rwa [show M + 2 * j₁ + 2 * (k - j₁) = m by omega] at this
  · have := hfrom _ (by omega) hj₂ (k - j₂)
    rwa [show M + 1 + 2 * j₂ + 2 * (k - j₂) = m by omega] at this

/-- Positive terms, `a_{m+1} a_m / b_{m+1} → 0` and slowly varying terms: the differences of convergents hardly shrink. -/
theorem slow_of_pos {a b : ℕ → ℤ} (hp : ∀ n, 1 ≤ n → 0 < a n ∧ 0 < b n)
    (he : Tendsto (fun m => (a (m + 1) * a m : ℝ) / b (m + 1)) atTop (𝓝 0))
    (ha : Tendsto (fun m => (a (m + 1) : ℝ) / a m) atTop (𝓝 1)) (hb : Tendsto (fun m => (b (m + 1) : ℝ) / b m) atTop (𝓝 1)) :
    RatioLimit a b 1 := by
  have A : ∀ m, (0 : ℝ) < a (m + 1) := fun m => by exact_mod_cast (hp (m + 1) (by omega)).1
  have B : ∀ m, (0 : ℝ) < b (m + 1) := fun m => by exact_mod_cast (hp (m + 1) (by omega)).2
  have Q : ∀ m, (0 : ℝ) < contQ a b (m + 1) := fun m => by exact_mod_cast (contQ_pos hp m).2
  have hQ : ∀ m, (contQ a b (m + 2) : ℝ) = a (m + 1) * contQ a b (m + 1) + b (m + 1) * contQ a b m := fun m => by
    rw [contQ_solves a b m]; push_cast; rfl
  set z : ℕ → ℝ := fun m => a (m + 1) * contQ a b (m + 1) / (b (m + 1) * contQ a b m) with hz
  set g : ℕ → ℝ := fun m => a (m + 3) * b (m + 2) / (b (m + 3) * a (m + 1)) with hg
  set e : ℕ → ℝ := fun m => (a (m + 3) * a (m + 2) : ℝ) / b (m + 3) with hee
  have he0 : Tendsto e atTop (𝓝 0) := (tendsto_add_atTop_iff_nat 2).2 he
  have hg1 : Tendsto g atTop (𝓝 1) := by
    have h1 := (tendsto_add_atTop_iff_nat 1).2 ha
    have h2 := (tendsto_add_atTop_iff_nat 2).2 ha
    have h3 := ((tendsto_add_atTop_iff_nat 2).2 hb).inv₀ one_ne_zero
    have := (h1.mul h2).mul h3
    simp only [mul_one, inv_one] at this
    refine this.congr fun m => ?_
    have a1 := (A m).ne'
    have a2 := (A (m + 1)).ne'
    have b2 := (B (m + 1)).ne'
    have b3 := (B (m + 2)).ne'
    simp only [hg, show m + 1 + 1 = m + 2 from rfl, show m + 2 + 1 = m + 3 from rfl] at *
    field_simp
  have hz0 : Tendsto z atTop (𝓝 0) := by
    refine shrink_to_zero (K := 1) (e := e) (g := g) ?_ ?_ he0 hg1
    · intro m hm
      obtain ⟨m, rfl⟩ : ∃ k, m = k + 1 := ⟨m - 1, by omega⟩
      have := A (m + 1)
      have := B (m + 1)
      have := Q (m + 1)
      have := Q m
      simp only [hz]
      positivity
    · intro m hm
      obtain ⟨m, rfl⟩ : ∃ k, m = k + 1 := ⟨m - 1, by omega⟩
      have a1 := A (m + 1)
      have a2 := A (m + 2)
      have a3 := A (m + 3)
      have b1 := B (m + 1)
      have b2 := B (m + 2)
      have b3 := B (m + 3)
      have q0 := Q m
      have q1 := Q (m + 1)
      have r2 := hQ (m + 1)
      have r3 := hQ (m + 2)
      simp only [hz, hg, hee, show m + 1 + 1 = m + 2 from rfl, show m + 2 + 1 = m + 3 from rfl,
        show m + 1 + 3 = m + 4 from rfl] at *
      rw [r3, r2]
      have s : (0 : ℝ) < a (m + 2) * contQ a b (m + 2) + b (m + 2) * contQ a b (m + 1) := by positivity
      field_simp
      ring
  refine ⟨⟨1, fun m hm => (hp m hm).1.ne'⟩, ⟨1, fun m hm => ?_⟩, ?_⟩
  · obtain ⟨m, rfl⟩ : ∃ k, m = k + 1 := ⟨m - 1, by omega⟩
    exact (contQ_pos hp m).2.ne'
  · have h1 := hg1.div ((hz0.const_add 1).mul (((tendsto_add_atTop_iff_nat 2).2 hz0).const_add 1)) (by norm_num)
    rw [add_zero, mul_one, div_one] at h1
    refine h1.congr' ?_
    filter_upwards [eventually_ge_atTop 1] with m hm
    obtain ⟨m, rfl⟩ : ∃ k, m = k + 1 := ⟨m - 1, by omega⟩
    have a1 := A (m + 1)
    have a2 := A (m + 2)
    have a3 := A (m + 3)
    have b1 := B (m + 1)
    have b2 := B (m + 2)
    have b3 := B (m + 3)
    have q0 := Q m
    have q1 := Q (m + 1)
    have q2 := Q (m + 2)
    have q3 := Q (m + 3)
    have q4 := Q (m + 4)
    have r2 := hQ (m + 1)
    have r4 := hQ (m + 3)
    simp only [Pi.div_apply, hz, hg, diffRatio, show m + 1 + 1 = m + 2 from rfl, show m + 2 + 1 = m + 3 from rfl,
      show m + 1 + 3 = m + 4 from rfl, show m + 1 + 4 = m + 5 from rfl] at *
    have e2 : (1 : ℝ) + a (m + 2) * contQ a b (m + 2) / (b (m + 2) * contQ a b (m + 1)) =
        contQ a b (m + 3) / (b (m + 2) * contQ a b (m + 1)) := by
      rw [r2]; field_simp; ring
    have e4 : (1 : ℝ) + a (m + 4) * contQ a b (m + 4) / (b (m + 4) * contQ a b (m + 3)) =
        contQ a b (m + 5) / (b (m + 4) * contQ a b (m + 3)) := by
      rw [r4]; field_simp; ring
    rw [e2, e4]
    field_simp

end PiCF
