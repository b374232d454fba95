import Mathlib.Tactic.Linarith
import Mathlib.Tactic.FieldSimp
import Mathlib.Tactic.Positivity
import Mathlib.Tactic.Ring
import Mathlib.Tactic.GCongr
import Verif.Model.Rounded
import Verif.Spec.Rounded

/-!
# Lemmas about rounded evaluation
-/

namespace PiCF.Rounded
open PiCF.ContFrac PiCF.Spec

variable {rnd : ℚ → ℚ} {u : ℚ} {M : ℤ}

/-! ### `roundBin` -/

theorem roundEven_err (x : ℚ) : |(roundEven x : ℚ) - x| ≤ 1 / 2 := by
  have h1 := Int.floor_le x
  have h2 := Int.lt_floor_add_one x
  unfold roundEven
  split_ifs <;> push_cast <;> rw [abs_le] <;> constructor <;> linarith

theorem roundEven_int (m : ℤ) : roundEven (m : ℚ) = m := by
  unfold roundEven
  simp

theorem roundBin_ok (p : ℕ) (hp : 1 ≤ p) : RoundOk (roundBin p) (1 / 2 ^ p) (2 ^ p) := by
  refine ⟨by positivity, ?_, fun x => ?_, fun m hm => ?_⟩
  · rw [div_lt_one (by positivity)]
    exact one_lt_pow₀ (by norm_num) (by omega)
  · unfold roundBin
    split_ifs with h
    · simp [h]
    · have hx : 0 < |x| := abs_pos.2 h
      set e : ℤ := Int.log 2 |x| + 1 - p with he
      have hE : (0 : ℚ) < 2 ^ e := zpow_pos (by norm_num) e
      have h1 : (2 : ℚ) ^ (Int.log 2 |x|) ≤ |x| := by exact_mod_cast Int.zpow_log_le_self (b := 2) (by norm_num) hx
      have h2 : (2 : ℚ) ^ e = 2 ^ (Int.log 2 |x|) * 2 / 2 ^ p := by
        rw [he, zpow_sub₀ (by norm_num), zpow_add₀ (by norm_num), zpow_one, zpow_natCast]
      have h3 := roundEven_err (x / 2 ^ e)
      have h4 : (roundEven (x / 2 ^ e) : ℚ) * 2 ^ e - x = ((roundEven (x / 2 ^ e) : ℚ) - x / 2 ^ e) * 2 ^ e := by
        field_simp
      rw [h4, abs_mul, abs_of_pos hE]
      calc |(roundEven (x / 2 ^ e) : ℚ) - x / 2 ^ e| * 2 ^ e ≤ 1 / 2 * 2 ^ e := by gcongr
        _ = 1 / 2 ^ p * 2 ^ (Int.log 2 |x|) := by rw [h2]; ring
        _ ≤ 1 / 2 ^ p * |x| := by gcongr
  · unfold roundBin
    split_ifs with h
    · rw [h]
    · have hx : 0 < |(m : ℚ)| := abs_pos.2 h
      have hlog : Int.log 2 |(m : ℚ)| < p := by
        rw [← Int.lt_zpow_iff_log_lt (by norm_num) hx]
        rw [zpow_natCast, ← Int.cast_abs]
        exact_mod_cast hm
      obtain ⟨k, hk⟩ := Int.eq_ofNat_of_zero_le (show 0 ≤ (p : ℤ) - (Int.log 2 |(m : ℚ)| + 1) by omega)
      have he : Int.log 2 |(m : ℚ)| + 1 - p = -(k : ℤ) := by omega
      rw [he, zpow_neg, zpow_natCast, div_inv_eq_mul]
      have : (m : ℚ) * 2 ^ k = ((m * 2 ^ k : ℤ) : ℚ) := by push_cast; ring
      rw [this, roundEven_int]
      push_cast
      rw [mul_assoc, mul_inv_cancel₀ (by positivity), mul_one]

/-! ### Consequences of the assumptions -/

theorem _root_.PiCF.Spec.RoundOk.zero (h : RoundOk rnd u M) : rnd 0 = 0 := by
  have := h.err 0
  rw [abs_zero, mul_zero, sub_zero] at this
  exact abs_eq_zero.1 (le_antisymm this (abs_nonneg _))

theorem _root_.PiCF.Spec.RoundOk.eq_zero (h : RoundOk rnd u M) {x : ℚ} : rnd x = 0 ↔ x = 0 := by
  refine ⟨fun hx => ?_, fun hx => by rw [hx, h.zero]⟩
  have := h.err x
  rw [hx, zero_sub, abs_neg] at this
  by_contra hne
  have h0 := abs_pos.2 hne
  nlinarith [h.u1]

/-- The rounded number is a multiple near 1 of the number. -/
theorem _root_.PiCF.Spec.RoundOk.factor (h : RoundOk rnd u M) (x : ℚ) : ∃ θ, rnd x = θ * x ∧ 1 - u ≤ θ ∧ θ ≤ 1 + u := by
  by_cases hx : x = 0
  · exact ⟨1, by rw [hx, h.zero, mul_zero], by linarith [h.u0], by linarith [h.u0]⟩
  · have h0 := abs_pos.2 hx
    have := h.err x
    have e : rnd x - x = (rnd x / x - 1) * x := by field_simp
    rw [e, abs_mul, mul_le_mul_iff_left₀ h0, abs_le] at this
    exact ⟨rnd x / x, by field_simp, by linarith, by linarith⟩

theorem inv_bounds (h : RoundOk rnd u M) : 1 ≤ (1 - u)⁻¹ ∧ 1 + u ≤ (1 - u)⁻¹ ∧ 0 < 1 - u := by
  have h1 := h.u1
  have h0 := h.u0
  have hp : 0 < 1 - u := by linarith
  refine ⟨(one_le_inv₀ hp).2 (by linarith), ?_, hp⟩
  rw [← one_div, le_div_iff₀ hp]
  nlinarith

theorem _root_.PiCF.Spec.RoundOk.within (h : RoundOk rnd u M) {x : ℚ} (hx : 0 ≤ x) : Within (1 - u)⁻¹ (rnd x) x := by
  obtain ⟨θ, e, h1, h2⟩ := h.factor x
  obtain ⟨g1, g2, g3⟩ := inv_bounds h
  rw [Within, e]
  refine ⟨mul_le_mul_of_nonneg_right (h2.trans g2) hx, ?_⟩
  rw [← mul_assoc]
  refine le_mul_of_one_le_left hx ?_
  rw [← div_eq_inv_mul, le_div_iff₀ g3]
  linarith

theorem _root_.PiCF.Spec.Within.trans {F G x y z : ℚ} (h : Within F x y) (h' : Within G y z) (hF : 0 ≤ F) (hG : 0 ≤ G) : Within (F * G) x z := by
  refine ⟨h.1.trans ?_, h'.2.trans ?_⟩
  · rw [mul_assoc]; exact mul_le_mul_of_nonneg_left h'.1 hF
  · rw [mul_comm F G, mul_assoc]; exact mul_le_mul_of_nonneg_left h.2 hG

theorem _root_.PiCF.Spec.RoundOk.pos (h : RoundOk rnd u M) {x : ℚ} (hx : 0 < x) : 0 < rnd x := by
  obtain ⟨θ, e, h1, h2⟩ := h.factor x
  have := h.u1
  rw [e]
  exact mul_pos (by linarith) hx

/-! ### Integer values of polynomials are exact -/

theorem foldl_exact (h : RoundOk rnd u M) : ∀ (ts : List ℤ) (acc : ℤ), |acc| + (ts.map abs).sum < M →
    (ts.map fun (t : ℤ) => rnd (t : ℚ)).foldl (fun acc t => rnd (acc + t)) (acc : ℚ) = ((acc + ts.sum : ℤ) : ℚ)
  | [], acc, _ => by simp
  | t :: ts, acc, hM => by
    have hs : 0 ≤ (ts.map abs).sum := List.sum_nonneg (by
      intro x hx; obtain ⟨y, -, rfl⟩ := List.mem_map.1 hx; exact abs_nonneg y)
    simp only [List.map_cons, List.sum_cons] at hM
    have h1 := abs_add_le acc t
    rw [List.map_cons, List.foldl_cons, h.exact t (by have := abs_nonneg acc; omega),
      show ((acc : ℚ) + (t : ℚ)) = ((acc + t : ℤ) : ℚ) by push_cast; rfl, h.exact (acc + t) (by omega),
      foldl_exact h ts (acc + t) (by omega), List.sum_cons, add_assoc]

theorem subsR_exact (h : RoundOk rnd u M) (cs : List ℤ) (x : ℤ) (hM : absSum cs x < M) :
    subsR rnd (cs.map fun (c : ℤ) => rnd (c : ℚ)) x = ((Utils.subsInPolynom cs x : ℤ) : ℚ) := by
  have hterm : ∀ j < cs.length, rnd ((cs.map fun (c : ℤ) => rnd (c : ℚ)).getD j 0 * (x : ℚ) ^ j) = rnd ((cs.getD j 0 * x ^ j : ℤ) : ℚ) := by
    intro j hj
    have e : (cs.map fun (c : ℤ) => rnd (c : ℚ)).getD j 0 = rnd ((cs.getD j 0 : ℤ) : ℚ) := by
      simp [List.getD, hj]
    rw [e]
    by_cases hx : x ^ j = 0
    · have : (x : ℚ) ^ j = 0 := by exact_mod_cast hx
      rw [this, hx]; simp
    · have hle : |cs.getD j 0| * |x| ^ j ≤ absSum cs x := by
        refine List.single_le_sum (fun y hy => ?_) _ (List.mem_map.2 ⟨j, List.mem_range.2 hj, rfl⟩)
        obtain ⟨k, -, rfl⟩ := List.mem_map.1 hy
        positivity
      have h1 : 1 ≤ |x| ^ j := by rw [← abs_pow]; exact Int.one_le_abs hx
      have h2 : |cs.getD j 0| ≤ |cs.getD j 0| * |x| ^ j := le_mul_of_one_le_right (abs_nonneg _) h1
      rw [h.exact _ (by omega)]
      push_cast
      rfl
  have e2 : ((List.range (cs.map fun (c : ℤ) => rnd (c : ℚ)).length).map fun j => rnd ((cs.map fun (c : ℤ) => rnd (c : ℚ)).getD j 0 * (x : ℚ) ^ j)) =
      (((List.range cs.length).map fun j => cs.getD j 0 * x ^ j).map fun (t : ℤ) => rnd (t : ℚ)) := by
    rw [List.length_map, List.map_map]
    apply List.map_congr_left
    intro j hj
    exact hterm j (List.mem_range.1 hj)
  have := foldl_exact h ((List.range cs.length).map fun j => cs.getD j 0 * x ^ j) 0 (by
    rw [abs_zero, zero_add, List.map_map]
    refine lt_of_eq_of_lt ?_ hM
    unfold absSum
    congr 1
    apply List.map_congr_left
    intro j _
    simp [abs_mul, abs_pow])
  rw [subsR, e2, Utils.subsInPolynom]
  rw [Int.cast_zero, zero_add] at this
  exact this

/-! ### The loop -/

/-- Positive terms: every step costs two roundings. -/
theorem evalLoopR_pos (h : RoundOk rnd u M) : ∀ (xs : List (ℚ × ℚ)) (F r r' : ℚ), (∀ x ∈ xs, 0 ≤ x.1 ∧ 0 < x.2) → 0 < r → 0 < r' → 1 ≤ F →
    Within F r' r → ∃ v v', evalLoop xs r = .ok v ∧ evalLoopR rnd xs r' = .ok v' ∧ 0 < v ∧ 0 < v' ∧
      Within (F * (1 - u)⁻¹ ^ (2 * xs.length)) v' v
  | [], F, r, r', _, hr, hr', _, hw => ⟨r, r', rfl, rfl, hr, hr', by simpa using hw⟩
  | (a, b) :: xs, F, r, r', hx, hr, hr', hF, hw => by
    obtain ⟨g1, g2, g3⟩ := inv_bounds h
    set g := (1 - u)⁻¹
    obtain ⟨ha, hb⟩ := hx _ List.mem_cons_self
    simp only at ha hb
    have hq : Within F (b / r') (b / r) := by
      constructor
      · rw [div_le_iff₀ hr', mul_assoc, div_mul_eq_mul_div, mul_div_assoc', le_div_iff₀ hr]
        nlinarith [hw.2]
      · rw [div_le_iff₀ hr, mul_assoc, div_mul_eq_mul_div, mul_div_assoc', le_div_iff₀ hr']
        nlinarith [hw.1]
    have hq0 : 0 < b / r' := by positivity
    have hq1 : 0 < b / r := by positivity
    have hF0 : 0 ≤ F := by linarith
    have hg0 : 0 ≤ g := by linarith
    have h1 := (h.within hq0.le).trans hq hg0 hF0
    have h2 : Within (g * F) (a + rnd (b / r')) (a + b / r) := by
      have : 1 ≤ g * F := one_le_mul_of_one_le_of_one_le g1 hF
      constructor
      · nlinarith [h1.1]
      · nlinarith [h1.2]
    have h3 := h.pos hq0
    have h4 := (h.within (by linarith : 0 ≤ a + rnd (b / r'))).trans h2 hg0 (by positivity)
    obtain ⟨v, v', e1, e2, p1, p2, hw'⟩ := evalLoopR_pos h xs (g * (g * F)) (a + b / r) (rnd (a + rnd (b / r')))
      (fun x hx' => hx x (List.mem_cons_of_mem _ hx')) (by linarith) (h.pos (by linarith))
      (one_le_mul_of_one_le_of_one_le g1 (one_le_mul_of_one_le_of_one_le g1 hF)) h4
    refine ⟨v, v', ?_, ?_, p1, p2, ?_⟩
    · rw [evalLoop, if_neg hr.ne', e1]
    · rw [evalLoopR, if_neg hr'.ne', e2]
    · convert hw' using 1
      rw [List.length_cons, mul_add, pow_add]
      ring

/-- One step of the loop is continuous. -/
theorem step_near (a b r : ℚ) (hr : r ≠ 0) {δ₁ : ℚ} (h1 : 0 < δ₁) : ∃ δ > 0, δ ≤ δ₁ ∧ ∀ (rnd : ℚ → ℚ) (u : ℚ) (M : ℤ), RoundOk rnd u M → u ≤ δ →
    ∀ r', |r' - r| ≤ δ → r' ≠ 0 ∧ |rnd (a + rnd (b / r')) - (a + b / r)| ≤ δ₁ := by
  have hr0 : 0 < |r| := abs_pos.2 hr
  set C := 2 * |b| / |r| with hC
  have hC0 : 0 ≤ C := by positivity
  set K := C / |r| + C + (|a| + 2 * C) with hK
  have hK0 : 0 ≤ K := by positivity
  refine ⟨min (|r| / 2) (min 1 (min δ₁ (δ₁ / (K + 1)))), by positivity,
    (min_le_right _ _).trans ((min_le_right _ _).trans (min_le_left _ _)), fun rnd u M h hu r' hr' => ?_⟩
  set δ := min (|r| / 2) (min 1 (min δ₁ (δ₁ / (K + 1)))) with hδ
  have hδ0 : 0 < δ := by positivity
  have d1 : δ ≤ |r| / 2 := min_le_left _ _
  have d2 : δ ≤ 1 := (min_le_right _ _).trans (min_le_left _ _)
  have d3 : δ * (K + 1) ≤ δ₁ := by
    rw [← le_div_iff₀ (by positivity)]
    exact (min_le_right _ _).trans ((min_le_right _ _).trans (min_le_right _ _))
  have hu0 := h.u0
  have hge : |r| / 2 ≤ |r'| := by
    have := abs_sub_abs_le_abs_sub r r'
    rw [abs_sub_comm] at this
    linarith
  have hr'0 : 0 < |r'| := by linarith
  have hne : r' ≠ 0 := abs_pos.1 hr'0
  refine ⟨hne, ?_⟩
  have hq : |b / r'| ≤ C := by
    rw [abs_div, hC, div_le_div_iff₀ hr'0 hr0]
    nlinarith [abs_nonneg b]
  have e1 : |b / r' - b / r| ≤ δ * (C / |r|) := by
    have : b / r' - b / r = b / r' * (-(r' - r)) / r := by field_simp; ring
    rw [this, abs_div, abs_mul, abs_neg, mul_div_assoc', div_le_div_iff_of_pos_right hr0, mul_comm δ C]
    exact mul_le_mul hq hr' (abs_nonneg _) hC0
  have e2 := h.err (b / r')
  have e2' : |rnd (b / r') - b / r'| ≤ δ * C := e2.trans (mul_le_mul hu hq (abs_nonneg _) hδ0.le)
  have hb2 : |rnd (b / r')| ≤ 2 * C := by
    have := abs_sub_abs_le_abs_sub (rnd (b / r')) (b / r')
    nlinarith
  have e3 := h.err (a + rnd (b / r'))
  have e3' : |rnd (a + rnd (b / r')) - (a + rnd (b / r'))| ≤ δ * (|a| + 2 * C) :=
    e3.trans (mul_le_mul hu ((abs_add_le _ _).trans (by linarith)) (abs_nonneg _) hδ0.le)
  have : rnd (a + rnd (b / r')) - (a + b / r) = (rnd (a + rnd (b / r')) - (a + rnd (b / r'))) + ((rnd (b / r') - b / r') + (b / r' - b / r)) := by ring
  rw [this]
  refine (abs_add_le _ _).trans ?_
  have e4 := abs_add_le (rnd (b / r') - b / r') (b / r' - b / r)
  have e5 : δ * K = δ * (C / |r|) + δ * C + δ * (|a| + 2 * C) := by rw [hK]; ring
  linarith

/-- With enough precision the loop comes as near to the exact result as wanted. -/
theorem evalLoopR_near : ∀ (xs : List (ℚ × ℚ)) (r v : ℚ), evalLoop xs r = .ok v → ∀ ε > 0, ∃ δ > 0, ∀ (rnd : ℚ → ℚ) (u : ℚ) (M : ℤ),
    RoundOk rnd u M → u ≤ δ → ∀ r', |r' - r| ≤ δ → ∃ v', evalLoopR rnd xs r' = .ok v' ∧ |v' - v| ≤ ε
  | [], r, v, h, ε, hε => ⟨ε, hε, fun rnd u M _ _ r' hr' => ⟨r', rfl, by cases h; exact hr'⟩⟩
  | (a, b) :: xs, r, v, h, ε, hε => by
    rw [evalLoop] at h
    split at h
    · cases h
    · rename_i hr
      obtain ⟨δ₁, h1, f1⟩ := evalLoopR_near xs _ v h ε hε
      obtain ⟨δ, h2, hle, f2⟩ := step_near a b r hr h1
      refine ⟨δ, h2, fun rnd u M hR hu r' hr' => ?_⟩
      obtain ⟨g1, g2⟩ := f2 rnd u M hR hu r' hr'
      obtain ⟨v', g3, g4⟩ := f1 rnd u M hR (hu.trans hle) _ g2
      exact ⟨v', by rw [evalLoopR, if_neg g1, g3], g4⟩

end PiCF.Rounded
