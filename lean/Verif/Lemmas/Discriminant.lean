import Verif.Lemmas.Convergence

/-!
# Recurrences `x_{m+2} = x_{m+1} + c_m x_m` with `c_m → c`

The denominators and numerators of a continued fraction satisfy such a recurrence after division by `a_0 ⋯ a_m`, with
`c_m = b_{m+1} / (a_{m+1} a_m)`.  For `1 + 4 c > 0` the two solutions `r > |t|` of `z² = z + c` determine the growth (theorem of
Poincaré and Perron), for `1 + 4 c ≤ 0` no solution grows faster than `√|c|^m`, up to factors that are not exponential.
-/

namespace PiCF
open PiCF.Spec PiCF.ContFrac Polynomial Filter Topology

/-- `x` solves the recurrence. -/
def Rec (c : ℕ → ℝ) (x : ℕ → ℝ) : Prop := ∀ m, x (m + 2) = x (m + 1) + c m * x m

/-! ### Positive discriminant -/

section positive
variable {c : ℕ → ℝ} {x : ℕ → ℝ} {r t : ℝ}

/-- The part of `x` in the direction of `r`. -/
def domPart (x : ℕ → ℝ) (t : ℝ) (m : ℕ) : ℝ := x (m + 1) - t * x m

theorem domPart_step (hx : Rec c x) (h1 : r + t = 1) (m : ℕ) :
    domPart x t (m + 1) = r * domPart x t m + (c m + r * t) * x m := by
  unfold domPart
  rw [show m + 1 + 1 = m + 2 from rfl, hx m]
  have : r = 1 - t := by linarith
  rw [this]; ring

theorem domPart_sub (m : ℕ) : domPart x t m - domPart x r m = (r - t) * x m := by unfold domPart; ring

theorem x_le (hrt : 0 < r - t) (m : ℕ) : (r - t) * |x m| ≤ |domPart x t m| + |domPart x r m| := by
  have := abs_sub (domPart x t m) (domPart x r m)
  rw [domPart_sub (x := x) (r := r) (t := t), abs_mul, abs_of_pos hrt] at this
  exact this

/-- The two parts in the next step. -/
theorem parts_step (hx : Rec c x) (h1 : r + t = 1) (hrt : 0 < r - t) (hr : 0 < r) {η : ℝ} {m : ℕ}
    (hc : |c m + r * t| ≤ η * (r - t)) (hη : 0 ≤ η) :
    r * |domPart x t m| - η * (|domPart x t m| + |domPart x r m|) ≤ |domPart x t (m + 1)| ∧
    |domPart x r (m + 1)| ≤ |t| * |domPart x r m| + η * (|domPart x t m| + |domPart x r m|) := by
  have hsmall : |(c m + r * t) * x m| ≤ η * (|domPart x t m| + |domPart x r m|) := by
    rw [abs_mul]
    calc |c m + r * t| * |x m| ≤ η * (r - t) * |x m| := mul_le_mul_of_nonneg_right hc (abs_nonneg _)
      _ = η * ((r - t) * |x m|) := by ring
      _ ≤ _ := mul_le_mul_of_nonneg_left (x_le hrt m) hη
  constructor
  · rw [domPart_step hx h1]
    have := abs_sub_abs_le_abs_sub (r * domPart x t m) (-((c m + r * t) * x m))
    rw [abs_neg, sub_neg_eq_add, abs_mul r, abs_of_pos hr] at this
    linarith
  · have e : domPart x r (m + 1) = t * domPart x r m + (c m + r * t) * x m := by
      rw [mul_comm r t]; exact domPart_step hx (by linarith) m
    rw [e]
    have := abs_add_le (t * domPart x r m) ((c m + r * t) * x m)
    rw [abs_mul t] at this
    linarith

/-- Eventually the coefficients are as close to the limit as needed. -/
theorem eventually_close (hc : Tendsto c atTop (𝓝 (-(r * t)))) (hrt : 0 < r - t) {η : ℝ} (hη : 0 < η) :
    ∃ N, ∀ m, N ≤ m → |c m + r * t| ≤ η * (r - t) := by
  have := (Metric.tendsto_atTop.1 hc) (η * (r - t)) (mul_pos hη hrt)
  obtain ⟨N, hN⟩ := this
  refine ⟨N, fun m hm => ?_⟩
  have := hN m hm
  rw [Real.dist_eq, sub_neg_eq_add] at this
  exact this.le

/-- If the dominant part is the larger one at some point, the other one becomes negligible. -/
theorem dominant_decay (hx : Rec c x) (hc : Tendsto c atTop (𝓝 (-(r * t)))) (h1 : r + t = 1) (ht : |t| < r) {N M : ℕ}
    (hN : ∀ m, N ≤ m → |c m + r * t| ≤ (r - |t|) / 4 * (r - t)) (hM : N ≤ M) (hdom : |domPart x r M| ≤ |domPart x t M|)
    (hne : domPart x t M ≠ 0) :
    (∀ m, M ≤ m → domPart x t m ≠ 0) ∧ Tendsto (fun m => domPart x r m / domPart x t m) atTop (𝓝 0) := by
  have hr : 0 < r := (abs_nonneg t).trans_lt ht
  have hrt : 0 < r - t := by have := le_abs_self t; linarith
  have hall : ∀ m, M ≤ m → |domPart x r m| ≤ |domPart x t m| ∧ domPart x t m ≠ 0 := by
    intro m hm
    induction m, hm using Nat.le_induction with
    | base => exact ⟨hdom, hne⟩
    | succ m hm ih =>
      obtain ⟨i1, i2⟩ := ih
      obtain ⟨s1, s2⟩ := parts_step hx h1 hrt hr (hN m (by omega)) (by linarith)
      have hpos : 0 < |domPart x t m| := abs_pos.2 i2
      have hp := abs_nonneg t
      constructor
      · nlinarith
      · refine abs_pos.1 (lt_of_lt_of_le ?_ s1)
        nlinarith
  refine ⟨fun m hm => (hall m hm).2, ?_⟩
  set z : ℕ → ℝ := fun m => |domPart x r m| / |domPart x t m| with hz
  have hz0 : ∀ m, 0 ≤ z m := fun m => by simp only [hz]; positivity
  set g : ℝ := (r + |t|) / 2 with hg
  have hg0 : 0 < g := by rw [hg]; have := abs_nonneg t; linarith
  set θ : ℝ := |t| / g with hθ
  have hθ0 : 0 ≤ θ := by rw [hθ]; positivity
  have hθ1 : θ < 1 := by rw [hθ, div_lt_one hg0, hg]; linarith
  have hstep : ∀ η : ℝ, 0 < η → η ≤ (r - |t|) / 4 → ∃ N', M ≤ N' ∧ ∀ m, N' ≤ m → z (m + 1) ≤ θ * z m + 2 * η / g := by
    intro η hη0 hη1
    obtain ⟨N', hN'⟩ := eventually_close hc hrt hη0
    refine ⟨max M N', le_max_left _ _, fun m hm => ?_⟩
    obtain ⟨i1, i2⟩ := hall m (by omega)
    obtain ⟨-, i3⟩ := hall (m + 1) (by omega)
    have p0 : 0 < |domPart x t m| := abs_pos.2 i2
    have p1 : 0 < |domPart x t (m + 1)| := abs_pos.2 i3
    obtain ⟨s1, s2⟩ := parts_step hx h1 hrt hr (hN' m (by omega)) hη0.le
    have l1 : g * |domPart x t m| ≤ |domPart x t (m + 1)| := by
      rw [hg]
      nlinarith
    have l2 : |domPart x r (m + 1)| ≤ |t| * |domPart x r m| + 2 * η * |domPart x t m| := by nlinarith
    calc z (m + 1) = |domPart x r (m + 1)| / |domPart x t (m + 1)| := rfl
      _ ≤ (|t| * |domPart x r m| + 2 * η * |domPart x t m|) / (g * |domPart x t m|) :=
          div_le_div₀ (by positivity) l2 (by positivity) l1
      _ = θ * z m + 2 * η / g := by rw [hθ]; simp only [hz]; field_simp
  have hlim : Tendsto z atTop (𝓝 0) := by
    rw [Metric.tendsto_atTop]
    intro ε hε
    obtain ⟨η, hη0, hη1, hη2⟩ : ∃ η : ℝ, 0 < η ∧ η ≤ (r - |t|) / 4 ∧ 2 * η / g ≤ ε / 2 * (1 - θ) := by
      have h1θ : 0 < 1 - θ := by linarith
      refine ⟨min ((r - |t|) / 4) (ε / 4 * (1 - θ) * g), lt_min (by linarith) (by positivity), min_le_left _ _, ?_⟩
      rw [div_le_iff₀ hg0]
      have := min_le_right ((r - |t|) / 4) (ε / 4 * (1 - θ) * g)
      linarith
    obtain ⟨N', hN', hs⟩ := hstep η hη0 hη1
    have hk : ∀ k, z (N' + k) ≤ z N' * θ ^ k + ε / 2 := by
      intro k
      induction k with
      | zero => simp; linarith
      | succ k ih =>
        calc z (N' + (k + 1)) ≤ θ * z (N' + k) + 2 * η / g := hs (N' + k) (by omega)
          _ ≤ θ * (z N' * θ ^ k + ε / 2) + ε / 2 * (1 - θ) := add_le_add (mul_le_mul_of_nonneg_left ih hθ0) hη2
          _ = z N' * θ ^ (k + 1) + ε / 2 := by ring
    have ht0 := (tendsto_pow_atTop_nhds_zero_of_lt_one hθ0 hθ1).const_mul (z N')
    rw [mul_zero] at ht0
    obtain ⟨k0, hk0⟩ := eventually_atTop.1 (ht0.eventually (gt_mem_nhds (show (0 : ℝ) < ε / 2 by linarith)))
    refine ⟨N' + k0, fun m hm => ?_⟩
    have h2 := hk (m - N')
    have h3 := hk0 (m - N') (by omega)
    rw [show N' + (m - N') = m by omega] at h2
    rw [Real.dist_eq, sub_zero, abs_of_nonneg (hz0 m)]
    linarith
  refine (tendsto_zero_iff_abs_tendsto_zero _).2 (hlim.congr fun m => ?_)
  simp only [hz, Function.comp, abs_div]

/-- Poincaré and Perron, for a positive discriminant. -/
theorem perron (hx : Rec c x) (hc : Tendsto c atTop (𝓝 (-(r * t)))) (h1 : r + t = 1) (ht : |t| < r)
    (hz : ∀ m, ¬ (x m = 0 ∧ x (m + 1) = 0)) :
    ((∃ M, ∀ m, M ≤ m → x m ≠ 0) ∧ Tendsto (fun m => x (m + 1) / x m) atTop (𝓝 r)) ∨
    (∀ κ, |t| < κ → ∃ C, 0 ≤ C ∧ ∀ m, |x m| ≤ C * κ ^ m) := by
  have hr : 0 < r := (abs_nonneg t).trans_lt ht
  have hrt : 0 < r - t := by have := le_abs_self t; linarith
  obtain ⟨N, hN⟩ := eventually_close hc hrt (η := (r - |t|) / 4) (by linarith)
  by_cases hd : ∃ M, N ≤ M ∧ |domPart x r M| ≤ |domPart x t M|
  · obtain ⟨M, hM, hd⟩ := hd
    have hne : domPart x t M ≠ 0 := by
      intro h0
      rw [h0, abs_zero] at hd
      have h2 : domPart x r M = 0 := abs_eq_zero.1 (le_antisymm hd (abs_nonneg _))
      have h3 := domPart_sub (x := x) (r := r) (t := t) M
      rw [h0, h2, sub_zero, eq_comm, mul_eq_zero] at h3
      have h4 : x M = 0 := h3.resolve_left hrt.ne'
      refine hz M ⟨h4, ?_⟩
      unfold domPart at h0
      rw [h4] at h0
      linarith
    obtain ⟨hX, hlim⟩ := dominant_decay hx hc h1 ht hN hM hd hne
    left
    have hsmall : ∀ᶠ m in atTop, |domPart x r m / domPart x t m| < 1 / 2 := by
      have := hlim.abs
      rw [abs_zero] at this
      exact this.eventually (gt_mem_nhds (by norm_num))
    obtain ⟨M', hM'⟩ := eventually_atTop.1 hsmall
    have hxne : ∀ m, max M M' ≤ m → x m ≠ 0 := by
      intro m hm h0
      have h3 := domPart_sub (x := x) (r := r) (t := t) m
      rw [h0, mul_zero, sub_eq_zero] at h3
      have h4 := hM' m (by omega)
      rw [← h3, div_self (hX m (by omega)), abs_one] at h4
      norm_num at h4
    refine ⟨⟨_, hxne⟩, ?_⟩
    have hform : ∀ᶠ m in atTop, (r - t * (domPart x r m / domPart x t m)) / (1 - domPart x r m / domPart x t m) = x (m + 1) / x m := by
      refine eventually_atTop.2 ⟨max M M', fun m hm => ?_⟩
      have hXm := hX m (by omega)
      have hxm := hxne m hm
      have e : domPart x t m - domPart x r m = (r - t) * x m := domPart_sub m
      have hd0 : (1 : ℝ) - domPart x r m / domPart x t m ≠ 0 := by
        rw [one_sub_div hXm, e]
        exact div_ne_zero (mul_ne_zero hrt.ne' hxm) hXm
      rw [div_eq_div_iff hd0 hxm]
      field_simp
      unfold domPart
      ring
    refine Tendsto.congr' hform ?_
    have h2 := (tendsto_const_nhds (x := r)).sub (hlim.const_mul t)
    have h3 := (tendsto_const_nhds (x := (1 : ℝ))).sub hlim
    have h4 : Tendsto (fun m => (r - t * (domPart x r m / domPart x t m)) / (1 - domPart x r m / domPart x t m)) atTop
        (𝓝 ((r - t * 0) / (1 - 0))) := h2.div h3 (by norm_num)
    simpa using h4
  · right
    push Not at hd
    intro κ hκ
    have hκ0 : 0 < κ := (abs_nonneg t).trans_lt hκ
    obtain ⟨N', hN'⟩ := eventually_close hc hrt (η := (κ - |t|) / 2) (by linarith)
    set N0 := max N N' with hN0
    have hY : ∀ k, |domPart x r (N0 + k)| ≤ |domPart x r N0| * κ ^ k := by
      intro k
      induction k with
      | zero => simp
      | succ k ih =>
        obtain ⟨-, s2⟩ := parts_step hx h1 hrt hr (hN' (N0 + k) (by omega)) (by linarith)
        have := hd (N0 + k) (by omega)
        calc |domPart x r (N0 + (k + 1))| ≤ κ * |domPart x r (N0 + k)| := by
              refine s2.trans ?_
              nlinarith [abs_nonneg (domPart x r (N0 + k))]
          _ ≤ κ * (|domPart x r N0| * κ ^ k) := mul_le_mul_of_nonneg_left ih hκ0.le
          _ = _ := by ring
    have hfin : ∀ m, N0 ≤ m → |x m| ≤ 2 * |domPart x r N0| / (r - t) / κ ^ N0 * κ ^ m := by
      intro m hm
      have h2 := hY (m - N0)
      rw [show N0 + (m - N0) = m by omega] at h2
      have h3 := x_le (x := x) hrt m
      have h4 := hd m (by omega)
      have h5 : κ ^ m = κ ^ (m - N0) * κ ^ N0 := by rw [← pow_add]; congr 1; omega
      have h6 : κ ^ N0 ≠ 0 := (pow_pos hκ0 _).ne'
      have h7 : 2 * |domPart x r N0| / (r - t) / κ ^ N0 * κ ^ m = 2 * (|domPart x r N0| * κ ^ (m - N0)) / (r - t) := by
        rw [h5]; field_simp
      rw [h7, le_div_iff₀ hrt]
      linarith
    refine ⟨2 * |domPart x r N0| / (r - t) / κ ^ N0 + ∑ i ∈ Finset.range N0, |x i| / κ ^ i, by positivity, fun m => ?_⟩
    rw [add_mul]
    by_cases hm : N0 ≤ m
    · have : 0 ≤ (∑ i ∈ Finset.range N0, |x i| / κ ^ i) * κ ^ m := by positivity
      linarith [hfin m hm]
    · have h2 : |x m| / κ ^ m ≤ ∑ i ∈ Finset.range N0, |x i| / κ ^ i :=
        Finset.single_le_sum (f := fun i => |x i| / κ ^ i) (fun i _ => by positivity) (Finset.mem_range.2 (by omega))
      have h3 : |x m| ≤ (∑ i ∈ Finset.range N0, |x i| / κ ^ i) * κ ^ m := by
        rwa [div_le_iff₀ (by positivity)] at h2
      have : 0 ≤ 2 * |domPart x r N0| / (r - t) / κ ^ N0 * κ ^ m := by positivity
      linarith

end positive

/-! ### Discriminant zero or negative -/

/-- For `c ≤ -1/4` the solutions grow like `√|c|^m`, up to factors that are not exponential. -/
theorem growth_le {c x : ℕ → ℝ} {l : ℝ} (hx : Rec c x) (hc : Tendsto c atTop (𝓝 (-l))) (hl : 1 / 4 ≤ l) {θ : ℝ} (hθ : 1 < θ) :
    ∃ C N, 0 ≤ C ∧ ∀ m, N ≤ m → x m ^ 2 ≤ C * (l * θ) ^ m := by
  obtain ⟨e, he0, he1⟩ : ∃ e : ℝ, 0 < e ∧ l + e + 5 * e ^ 2 ≤ l * θ := by
    refine ⟨min 1 ((l * θ - l) / 6), lt_min one_pos (by nlinarith), ?_⟩
    set e := min 1 ((l * θ - l) / 6) with he
    have h1 : e ≤ 1 := min_le_left _ _
    have h2 : e ≤ (l * θ - l) / 6 := min_le_right _ _
    have h0 : 0 < e := lt_min one_pos (by nlinarith)
    nlinarith
  obtain ⟨N, hN⟩ := (Metric.tendsto_atTop.1 hc) (e ^ 2) (by positivity)
  set μ : ℝ := l + e ^ 2 - 1 / 4 with hμ
  have hμ1 : e ^ 2 ≤ μ := by rw [hμ]; linarith
  have hμ0 : 0 < μ := lt_of_lt_of_le (by positivity) hμ1
  set V : ℕ → ℝ := fun m => (x (m + 1) - x m / 2) ^ 2 + μ * x m ^ 2 with hV
  have hV0 : ∀ m, 0 ≤ V m := fun m => by simp only [hV]; positivity
  have hstep : ∀ m, N ≤ m → V (m + 1) ≤ l * θ * V m := by
    intro m hm
    have hδ := hN m hm
    rw [Real.dist_eq, abs_lt] at hδ
    set δ : ℝ := c m + l + e ^ 2 with hδd
    have d0 : 0 ≤ δ := by linarith
    have d1 : δ ≤ 2 * e ^ 2 := by linarith
    set u : ℝ := x (m + 1) - x m / 2 with hu
    have e1 : V (m + 1) = (l + e ^ 2) * V m + δ * (x m * u) - 2 * μ * δ * x m ^ 2 + δ ^ 2 * x m ^ 2 := by
      have hxx : x (m + 1 + 1) = x (m + 1) + c m * x m := hx m
      have hcm : c m = δ - l - e ^ 2 := by rw [hδd]; ring
      simp only [hV]
      rw [hxx, hcm, hu, hμ]
      ring
    have b1 : 2 * e * (x m * u) ≤ V m := by
      have : 0 ≤ (e * x m - u) ^ 2 := sq_nonneg _
      have h2 : e ^ 2 * x m ^ 2 ≤ μ * x m ^ 2 := mul_le_mul_of_nonneg_right hμ1 (sq_nonneg _)
      show 2 * e * (x m * u) ≤ u ^ 2 + μ * x m ^ 2
      nlinarith
    have b2 : e ^ 2 * x m ^ 2 ≤ V m := by
      have h2 : e ^ 2 * x m ^ 2 ≤ μ * x m ^ 2 := mul_le_mul_of_nonneg_right hμ1 (sq_nonneg _)
      show e ^ 2 * x m ^ 2 ≤ u ^ 2 + μ * x m ^ 2
      nlinarith [sq_nonneg u]
    have t1 : δ * (x m * u) ≤ e * V m := by
      by_cases hxu : 0 ≤ x m * u
      · calc δ * (x m * u) ≤ 2 * e ^ 2 * (x m * u) := mul_le_mul_of_nonneg_right d1 hxu
          _ = e * (2 * e * (x m * u)) := by ring
          _ ≤ e * V m := mul_le_mul_of_nonneg_left b1 he0.le
      · have : δ * (x m * u) ≤ 0 := mul_nonpos_of_nonneg_of_nonpos d0 (not_le.1 hxu).le
        exact this.trans (mul_nonneg he0.le (hV0 m))
    have t2 : δ ^ 2 * x m ^ 2 ≤ 4 * e ^ 2 * V m := by
      have : δ ^ 2 ≤ (2 * e ^ 2) ^ 2 := pow_le_pow_left₀ d0 d1 2
      calc δ ^ 2 * x m ^ 2 ≤ (2 * e ^ 2) ^ 2 * x m ^ 2 := mul_le_mul_of_nonneg_right this (sq_nonneg _)
        _ = 4 * e ^ 2 * (e ^ 2 * x m ^ 2) := by ring
        _ ≤ _ := mul_le_mul_of_nonneg_left b2 (by positivity)
    have t3 : 0 ≤ 2 * μ * δ * x m ^ 2 := by positivity
    have t4 : (l + e + 5 * e ^ 2) * V m ≤ l * θ * V m := mul_le_mul_of_nonneg_right he1 (hV0 m)
    rw [e1]
    linarith
  have hlθ : 0 < l * θ := by positivity
  have hgeo : ∀ k, V (N + k) ≤ V N * (l * θ) ^ k := by
    intro k
    induction k with
    | zero => simp
    | succ k ih =>
      calc V (N + (k + 1)) ≤ l * θ * V (N + k) := hstep (N + k) (by omega)
        _ ≤ l * θ * (V N * (l * θ) ^ k) := mul_le_mul_of_nonneg_left ih hlθ.le
        _ = _ := by ring
  refine ⟨V N / μ / (l * θ) ^ N, N, by have := hV0 N; positivity, fun m hm => ?_⟩
  have h2 := hgeo (m - N)
  rw [show N + (m - N) = m by omega] at h2
  have h3 : μ * x m ^ 2 ≤ V m := by simp only [hV]; nlinarith [sq_nonneg (x (m + 1) - x m / 2)]
  have h5 : (l * θ) ^ m = (l * θ) ^ (m - N) * (l * θ) ^ N := by rw [← pow_add]; congr 1; omega
  have h6 : (l * θ) ^ N ≠ 0 := (pow_pos hlθ _).ne'
  have h7 : V N / μ / (l * θ) ^ N * (l * θ) ^ m = V N * (l * θ) ^ (m - N) / μ := by
    rw [h5]; field_simp
  rw [h7, le_div_iff₀ hμ0]
  linarith

/-! ### Two solutions -/

/-- The Wronskian. -/
theorem wronskian {c P Q : ℕ → ℝ} (hP : Rec c P) (hQ : Rec c Q) (m : ℕ) :
    P (m + 2) * Q (m + 1) - P (m + 1) * Q (m + 2) = -c m * (P (m + 1) * Q m - P m * Q (m + 1)) := by
  rw [hP m, hQ m]; ring

/-- The Wronskian grows like `|c|^m`. -/
theorem wronskian_ge {c P Q : ℕ → ℝ} {l : ℝ} (hP : Rec c P) (hQ : Rec c Q) (hc : Tendsto c atTop (𝓝 (-l))) (h0 : ∀ m, c m ≠ 0)
    (hw : P 1 * Q 0 - P 0 * Q 1 ≠ 0) {ρ : ℝ} (hρ0 : 0 < ρ) (hρ : ρ < |l|) :
    ∃ C N, 0 < C ∧ ∀ m, N ≤ m → C * ρ ^ m ≤ |P (m + 1) * Q m - P m * Q (m + 1)| := by
  have hne : ∀ m, P (m + 1) * Q m - P m * Q (m + 1) ≠ 0 := by
    intro m
    induction m with
    | zero => exact hw
    | succ m ih => rw [wronskian hP hQ m]; exact mul_ne_zero (neg_ne_zero.2 (h0 m)) ih
  have hca := hc.abs
  rw [abs_neg] at hca
  obtain ⟨N, hN⟩ := eventually_atTop.1 (hca.eventually (lt_mem_nhds hρ))
  set W : ℕ → ℝ := fun m => |P (m + 1) * Q m - P m * Q (m + 1)| with hW
  have hgeo : ∀ k, W N * ρ ^ k ≤ W (N + k) := by
    intro k
    induction k with
    | zero => simp
    | succ k ih =>
      have e : W (N + (k + 1)) = |c (N + k)| * W (N + k) := by
        have := wronskian hP hQ (N + k)
        show |P (N + k + 2) * Q (N + k + 1) - P (N + k + 1) * Q (N + k + 2)| = _
        rw [this, abs_mul, abs_neg]
      rw [e]
      calc W N * ρ ^ (k + 1) = ρ * (W N * ρ ^ k) := by ring
        _ ≤ ρ * W (N + k) := mul_le_mul_of_nonneg_left ih hρ0.le
        _ ≤ _ := mul_le_mul_of_nonneg_right (hN (N + k) (by omega)).le (abs_nonneg _)
  refine ⟨W N / ρ ^ N, N, div_pos (abs_pos.2 (hne N)) (pow_pos hρ0 _), fun m hm => ?_⟩
  have h2 := hgeo (m - N)
  rw [show N + (m - N) = m by omega] at h2
  have h5 : ρ ^ m = ρ ^ (m - N) * ρ ^ N := by rw [← pow_add]; congr 1; omega
  have h6 : ρ ^ N ≠ 0 := (pow_pos hρ0 _).ne'
  refine le_trans (le_of_eq ?_) h2
  rw [h5]; field_simp

/-- With discriminant zero or negative the quotients do not converge exponentially. -/
theorem not_exp_of_disc {c P Q : ℕ → ℝ} {l : ℝ} (hP : Rec c P) (hQ : Rec c Q) (hc : Tendsto c atTop (𝓝 (-l))) (h0 : ∀ m, c m ≠ 0)
    (hw : P 1 * Q 0 - P 0 * Q 1 ≠ 0) (hl : 1 / 4 ≤ l) :
    ¬ ∃ (L C κ : ℝ) (N : ℕ), 0 ≤ κ ∧ κ < 1 ∧ ∀ m, N ≤ m → Q m ≠ 0 ∧ |P m / Q m - L| ≤ C * κ ^ m := by
  rintro ⟨L, C, κ, N, hκ0, hκ1, h⟩
  have hl0 : 0 < l := by linarith
  set θ : ℝ := 2 / (1 + κ) with hθ
  have hθ1 : 1 < θ := by rw [hθ, lt_div_iff₀ (by linarith)]; linarith
  have hκθ : κ * θ < 1 := by rw [hθ, ← mul_div_assoc, div_lt_one (by linarith)]; linarith
  set ρ : ℝ := l * ((κ * θ + 1) / 2) with hρ
  have hρ0 : 0 < ρ := by rw [hρ]; positivity
  have hρ1 : ρ < |l| := by rw [hρ, abs_of_pos hl0]; nlinarith
  obtain ⟨D, N1, hD, hq⟩ := growth_le hQ hc hl hθ1
  obtain ⟨E, N2, hE, hWr⟩ := wronskian_ge hP hQ hc h0 hw hρ0 hρ1
  have hlθ : 0 < l * θ := by positivity
  set K : ℝ := κ * θ / ((κ * θ + 1) / 2) with hK
  have hKθ : 0 ≤ κ * θ := by positivity
  have hK0 : 0 ≤ K := by rw [hK]; positivity
  have hK1 : K < 1 := by rw [hK, div_lt_one (by linarith)]; linarith
  have key : ∀ m, max N (max N1 N2) ≤ m → E ≤ 2 * C * (D * (1 + l * θ)) * K ^ m := by
    intro m hm
    obtain ⟨n0, c0⟩ := h m (by omega)
    obtain ⟨n1, c1⟩ := h (m + 1) (by omega)
    have hCk : 0 ≤ C * κ ^ m := (abs_nonneg _).trans c0
    have hs : C * κ ^ (m + 1) ≤ C * κ ^ m := by rw [pow_succ, ← mul_assoc]; exact mul_le_of_le_one_right hCk hκ1.le
    have hdist : |P (m + 1) / Q (m + 1) - P m / Q m| ≤ 2 * (C * κ ^ m) := by
      have := abs_sub_le (P (m + 1) / Q (m + 1)) L (P m / Q m)
      rw [abs_sub_comm L] at this
      linarith
    rw [div_sub_div _ _ n1 n0, abs_div, div_le_iff₀ (abs_pos.2 (mul_ne_zero n1 n0)), mul_comm (Q (m + 1)) (P m)] at hdist
    have hqq : |Q (m + 1) * Q m| ≤ D * (1 + l * θ) * (l * θ) ^ m := by
      have q1 := hq m (by omega)
      have q2 := hq (m + 1) (by omega)
      rw [abs_mul]
      have h3 : 0 ≤ (|Q (m + 1)| - |Q m|) ^ 2 := sq_nonneg _
      have h4 : |Q (m + 1)| ^ 2 = Q (m + 1) ^ 2 := sq_abs _
      have h5 : |Q m| ^ 2 = Q m ^ 2 := sq_abs _
      have h6 : (l * θ) ^ (m + 1) = l * θ * (l * θ) ^ m := by ring
      rw [h6] at q2
      have h7 : 0 ≤ D * (l * θ) ^ m := by positivity
      have h8 : 0 ≤ D * (l * θ * (l * θ) ^ m) := by positivity
      nlinarith
    have hw2 := hWr m (by omega)
    have h9 : E * ρ ^ m ≤ 2 * (C * κ ^ m) * (D * (1 + l * θ) * (l * θ) ^ m) :=
      hw2.trans (hdist.trans (mul_le_mul_of_nonneg_left hqq (by linarith)))
    have hρm : 0 < ρ ^ m := pow_pos hρ0 m
    have h10 : 2 * (C * κ ^ m) * (D * (1 + l * θ) * (l * θ) ^ m) = 2 * C * (D * (1 + l * θ)) * K ^ m * ρ ^ m := by
      have : κ ^ m * (l * θ) ^ m = K ^ m * ρ ^ m := by
        rw [← mul_pow, ← mul_pow]
        congr 1
        rw [hK, hρ]
        have : (κ * θ + 1) / 2 ≠ 0 := by positivity
        field_simp
      calc _ = 2 * C * (D * (1 + l * θ)) * (κ ^ m * (l * θ) ^ m) := by ring
        _ = _ := by rw [this]; ring
    rw [h10] at h9
    exact le_of_mul_le_mul_right h9 hρm
  have hlim := (tendsto_pow_atTop_nhds_zero_of_lt_one hK0 hK1).const_mul (2 * C * (D * (1 + l * θ)))
  rw [mul_zero] at hlim
  obtain ⟨m, hm, hm'⟩ := ((hlim.eventually (gt_mem_nhds hE)).and (eventually_ge_atTop (max N (max N1 N2)))).exists
  exact absurd (key m hm') (not_le.2 hm)

/-- With positive discriminant one of two independent solutions is dominant. -/
theorem one_dominant {c P Q : ℕ → ℝ} {r t : ℝ} (hP : Rec c P) (hQ : Rec c Q) (hc : Tendsto c atTop (𝓝 (-(r * t)))) (h0 : ∀ m, c m ≠ 0)
    (hw : P 1 * Q 0 - P 0 * Q 1 ≠ 0) (ht : |t| < r) (ht0 : t ≠ 0)
    (bP : ∀ κ, |t| < κ → ∃ C, 0 ≤ C ∧ ∀ m, |P m| ≤ C * κ ^ m) (bQ : ∀ κ, |t| < κ → ∃ C, 0 ≤ C ∧ ∀ m, |Q m| ≤ C * κ ^ m) : False := by
  have hr : 0 < r := (abs_nonneg t).trans_lt ht
  have hta : 0 < |t| := abs_pos.2 ht0
  -- `κ² < ρ < r |t|`
  obtain ⟨κ, hκ, hκ2⟩ : ∃ κ, |t| < κ ∧ κ ^ 2 < |r * t| := by
    have hlt : |t| < r * |t| / |t| := by rwa [mul_div_assoc, div_self hta.ne', mul_one]
    refine ⟨√(|t| * ((|t| + r) / 2)), ?_, ?_⟩
    · rw [Real.lt_sqrt (abs_nonneg _)]
      nlinarith
    · rw [Real.sq_sqrt (by positivity), abs_mul, abs_of_pos hr]
      nlinarith
  have hκ0 : 0 < κ := hta.trans hκ
  set ρ := (κ ^ 2 + |r * t|) / 2 with hρ
  have hρ0 : 0 < ρ := by rw [hρ]; positivity
  obtain ⟨C1, c1, b1⟩ := bP κ hκ
  obtain ⟨C2, c2, b2⟩ := bQ κ hκ
  obtain ⟨E, N, hE, hW⟩ := wronskian_ge hP hQ hc h0 hw hρ0 (by rw [hρ]; linarith)
  set K := κ ^ 2 / ρ with hK
  have hK0 : 0 ≤ K := by rw [hK]; positivity
  have hK1 : K < 1 := by rw [hK, div_lt_one hρ0, hρ]; linarith
  have key : ∀ m, N ≤ m → E ≤ 2 * C1 * C2 * κ * K ^ m := by
    intro m hm
    have h1 := hW m hm
    have h2 : |P (m + 1) * Q m - P m * Q (m + 1)| ≤ 2 * C1 * C2 * κ * (κ ^ 2) ^ m := by
      have h3 := abs_sub (P (m + 1) * Q m) (P m * Q (m + 1))
      rw [abs_mul, abs_mul] at h3
      have h4 : |P (m + 1)| * |Q m| ≤ (C1 * κ ^ (m + 1)) * (C2 * κ ^ m) := mul_le_mul (b1 _) (b2 _) (abs_nonneg _) (by positivity)
      have h5 : |P m| * |Q (m + 1)| ≤ (C1 * κ ^ m) * (C2 * κ ^ (m + 1)) := mul_le_mul (b1 _) (b2 _) (abs_nonneg _) (by positivity)
      have h6 : (C1 * κ ^ (m + 1)) * (C2 * κ ^ m) + (C1 * κ ^ m) * (C2 * κ ^ (m + 1)) = 2 * C1 * C2 * κ * (κ ^ 2) ^ m := by ring
      linarith
    have hρm : 0 < ρ ^ m := pow_pos hρ0 m
    refine le_of_mul_le_mul_right ?_ hρm
    calc E * ρ ^ m ≤ 2 * C1 * C2 * κ * (κ ^ 2) ^ m := h1.trans h2
      _ = 2 * C1 * C2 * κ * K ^ m * ρ ^ m := by rw [hK, div_pow]; field_simp
  have hlim := (tendsto_pow_atTop_nhds_zero_of_lt_one hK0 hK1).const_mul (2 * C1 * C2 * κ)
  rw [mul_zero] at hlim
  obtain ⟨m, hm, hm'⟩ := ((hlim.eventually (gt_mem_nhds hE)).and (eventually_ge_atTop N)).exists
  exact absurd (key m hm') (not_le.2 hm)

/-- A sequence whose quotients tend to `r` grows at least like `ρ^m` for every `ρ < r`. -/
theorem growth_ge {x : ℕ → ℝ} {r : ℝ} {M : ℕ} (hne : ∀ m, M ≤ m → x m ≠ 0) (hlim : Tendsto (fun m => x (m + 1) / x m) atTop (𝓝 r))
    {ρ : ℝ} (hρ0 : 0 < ρ) (hρ : ρ < r) : ∃ C N, 0 < C ∧ ∀ m, N ≤ m → C * ρ ^ m ≤ |x m| := by
  obtain ⟨N, hN⟩ := eventually_atTop.1 (hlim.eventually (lt_mem_nhds hρ))
  set N0 := max M N with hN0
  have hgeo : ∀ k, |x N0| * ρ ^ k ≤ |x (N0 + k)| := by
    intro k
    induction k with
    | zero => simp
    | succ k ih =>
      have h1 := hN (N0 + k) (by omega)
      have h2 : 0 < |x (N0 + k)| := abs_pos.2 (hne _ (by omega))
      have h3 : ρ * |x (N0 + k)| ≤ |x (N0 + k + 1)| := by
        have := h1.le.trans (le_abs_self _)
        rwa [abs_div, le_div_iff₀ h2] at this
      calc |x N0| * ρ ^ (k + 1) = ρ * (|x N0| * ρ ^ k) := by ring
        _ ≤ ρ * |x (N0 + k)| := mul_le_mul_of_nonneg_left ih hρ0.le
        _ ≤ _ := h3
  refine ⟨|x N0| / ρ ^ N0, N0, div_pos (abs_pos.2 (hne _ (by omega))) (pow_pos hρ0 _), fun m hm => ?_⟩
  have h2 := hgeo (m - N0)
  rw [show N0 + (m - N0) = m by omega] at h2
  have h5 : ρ ^ m = ρ ^ (m - N0) * ρ ^ N0 := by rw [← pow_add]; congr 1; omega
  have h6 : ρ ^ N0 ≠ 0 := (pow_pos hρ0 _).ne'
  refine le_trans (le_of_eq ?_) h2
  rw [h5]; field_simp

/-! ### Continued fractions -/

/-- `a_N ⋯ a_{N+m-1}` -/
def prodA (a : ℕ → ℤ) (N : ℕ) : ℕ → ℝ
  | 0 => 1
  | m + 1 => prodA a N m * a (N + m)

theorem prodA_ne {a : ℕ → ℤ} {N : ℕ} (h : ∀ m, N ≤ m → a m ≠ 0) : ∀ m, prodA a N m ≠ 0
  | 0 => by simp [prodA]
  | m + 1 => by rw [prodA]; exact mul_ne_zero (prodA_ne h m) (Int.cast_ne_zero.2 (h _ (by omega)))

/-- The normalised solution. -/
noncomputable def normed (a y : ℕ → ℤ) (N m : ℕ) : ℝ := y (N + m) / prodA a N m

/-- The normalised coefficients. -/
noncomputable def coeffC (a b : ℕ → ℤ) (m : ℕ) : ℝ := b (m + 1) / (a (m + 1) * a m)

theorem normed_rec {a b y : ℕ → ℤ} (hy : Solves a b y) {N : ℕ} (h : ∀ m, N ≤ m → a m ≠ 0) :
    Rec (fun m => coeffC a b (N + m)) (normed a y N) := by
  intro m
  have p0 := prodA_ne h m
  have a0 : (a (N + m) : ℝ) ≠ 0 := Int.cast_ne_zero.2 (h _ (by omega))
  have a1 : (a (N + m + 1) : ℝ) ≠ 0 := Int.cast_ne_zero.2 (h _ (by omega))
  have e : (y (N + m + 2) : ℝ) = a (N + m + 1) * y (N + m + 1) + b (N + m + 1) * y (N + m) := by rw [hy]; push_cast; rfl
  unfold normed coeffC
  rw [show N + (m + 2) = N + m + 2 from rfl, show N + (m + 1) = N + m + 1 from rfl, e]
  simp only [prodA]
  rw [show N + (m + 1) = N + m + 1 from rfl]
  field_simp

theorem normed_div {a y z : ℕ → ℤ} {N : ℕ} (h : ∀ m, N ≤ m → a m ≠ 0) (m : ℕ) :
    normed a y N m / normed a z N m = (y (N + m) : ℝ) / z (N + m) := by
  unfold normed
  exact div_div_div_cancel_right₀ (prodA_ne h m) _ _

theorem normed_eq_zero {a y : ℕ → ℤ} {N : ℕ} (h : ∀ m, N ≤ m → a m ≠ 0) (m : ℕ) : normed a y N m = 0 ↔ y (N + m) = 0 := by
  unfold normed
  rw [div_eq_zero_iff]
  simp [prodA_ne h m]

/-- What is used of the terms: `b_n ≠ 0`, and `b_{m+1} / (a_{m+1} a_m)` has the limit `-l ≠ 0`. -/
structure Balanced (a b : ℕ → ℤ) (l : ℝ) : Prop where
  bne : ∀ n, 1 ≤ n → b n ≠ 0
  lim : Tendsto (coeffC a b) atTop (𝓝 (-l))
  lne : l ≠ 0

theorem Balanced.normal {a b : ℕ → ℤ} {l : ℝ} (h : Balanced a b l) :
    ∃ N, (∀ m, N ≤ m → a m ≠ 0) ∧ Rec (fun m => coeffC a b (N + m)) (normed a (contP a b) N) ∧
      Rec (fun m => coeffC a b (N + m)) (normed a (contQ a b) N) ∧ Tendsto (fun m => coeffC a b (N + m)) atTop (𝓝 (-l)) ∧
      (∀ m, coeffC a b (N + m) ≠ 0) ∧
      normed a (contP a b) N 1 * normed a (contQ a b) N 0 - normed a (contP a b) N 0 * normed a (contQ a b) N 1 ≠ 0 := by
  obtain ⟨N, hN⟩ := eventually_atTop.1 (h.lim.eventually_ne (neg_ne_zero.2 h.lne))
  have ha : ∀ m, N ≤ m → a m ≠ 0 := by
    intro m hm h0
    refine hN m hm ?_
    unfold coeffC
    rw [h0]; simp
  refine ⟨N, ha, normed_rec (contP_solves a b) ha, normed_rec (contQ_solves a b) ha, ?_, fun m => hN _ (by omega), ?_⟩
  · have := (tendsto_add_atTop_iff_nat N).2 h.lim
    refine this.congr fun m => ?_
    rw [add_comm]
  · have hdet : (contP a b (N + 1) : ℝ) * contQ a b N - contP a b N * contQ a b (N + 1) = (-1) ^ (N + 1) * prodB b N := by
      exact_mod_cast determinant a b N
    have h1 := prodA_ne ha 1
    unfold normed
    simp only [prodA, Nat.add_zero] at h1 ⊢
    rw [div_mul_div_comm, div_mul_div_comm, mul_comm (1 : ℝ) (1 * (a N : ℝ)), ← sub_div, hdet]
    refine div_ne_zero (mul_ne_zero (pow_ne_zero _ (by norm_num)) (Int.cast_ne_zero.2 (prodB_ne h.bne N))) ?_
    simpa using h1

/-- Discriminant zero or negative: no exponential convergence. -/
theorem Balanced.not_exp {a b : ℕ → ℤ} {l : ℝ} (h : Balanced a b l) (hl : 1 / 4 ≤ l) : ¬ ConvergesExp a b := by
  obtain ⟨N, ha, hP, hQ, hc, h0, hw⟩ := h.normal
  rintro ⟨L, C, κ, M, hκ0, hκ1, hM⟩
  set κ' : ℝ := (κ + 1) / 2 with hκ'
  have k0 : 0 < κ' := by rw [hκ']; linarith
  have k1 : κ ≤ κ' := by rw [hκ']; linarith
  refine not_exp_of_disc hP hQ hc h0 hw hl ⟨L, |C| * κ' ^ N / κ', κ', M + 1, k0.le, by rw [hκ']; linarith, fun m hm => ?_⟩
  obtain ⟨n, hn⟩ : ∃ n, N + m = n + 1 := ⟨N + m - 1, by omega⟩
  obtain ⟨h1, h2⟩ := hM n (by omega)
  rw [Ne, normed_eq_zero ha, normed_div ha, hn]
  refine ⟨h1, h2.trans ?_⟩
  have e : κ' ^ N * κ' ^ m = κ' ^ n * κ' := by rw [← pow_add, hn, pow_succ]
  calc C * κ ^ n ≤ |C| * κ' ^ n := mul_le_mul (le_abs_self _) (pow_le_pow_left₀ hκ0 k1 n) (by positivity) (abs_nonneg _)
    _ = |C| * (κ' ^ n * κ') / κ' := by field_simp
    _ = |C| * κ' ^ N / κ' * κ' ^ m := by rw [← e]; ring

/-- Nor do the inverses of the convergents, so the convergents do not tend to infinity exponentially. -/
theorem Balanced.not_div {a b : ℕ → ℤ} {l : ℝ} (h : Balanced a b l) (hl : 1 / 4 ≤ l) : ¬ DivergesExp a b := by
  obtain ⟨N, ha, hP, hQ, hc, h0, hw⟩ := h.normal
  rintro ⟨C, κ, M, hκ0, hκ1, hM⟩
  have hw' : normed a (contQ a b) N 1 * normed a (contP a b) N 0 - normed a (contQ a b) N 0 * normed a (contP a b) N 1 ≠ 0 := fun h => hw (by linarith)
  set κ' : ℝ := (κ + 1) / 2 with hκ'
  have k0 : 0 < κ' := by rw [hκ']; linarith
  have k1 : κ ≤ κ' := by rw [hκ']; linarith
  refine not_exp_of_disc hQ hP hc h0 hw' hl ⟨0, |C| * κ' ^ N / κ', κ', M + 1, k0.le, by rw [hκ']; linarith, fun m hm => ?_⟩
  obtain ⟨n, hn⟩ : ∃ n, N + m = n + 1 := ⟨N + m - 1, by omega⟩
  obtain ⟨h1, h2⟩ := hM n (by omega)
  rw [Ne, normed_eq_zero ha, normed_div ha, hn, sub_zero]
  refine ⟨h1, h2.trans ?_⟩
  have e : κ' ^ N * κ' ^ m = κ' ^ n * κ' := by rw [← pow_add, hn, pow_succ]
  calc C * κ ^ n ≤ |C| * κ' ^ n := mul_le_mul (le_abs_self _) (pow_le_pow_left₀ hκ0 k1 n) (by positivity) (abs_nonneg _)
    _ = |C| * (κ' ^ n * κ') / κ' := by field_simp
    _ = |C| * κ' ^ N / κ' * κ' ^ m := by rw [← e]; ring

/-- The two solutions of `z² = z - l`. -/
theorem roots_exist {l : ℝ} (hl : l < 1 / 4) (h0 : l ≠ 0) : ∃ r t : ℝ, r + t = 1 ∧ r * t = l ∧ |t| < r ∧ t ≠ 0 := by
  have hs : 0 < √(1 - 4 * l) := Real.sqrt_pos.2 (by linarith)
  have hs2 : √(1 - 4 * l) ^ 2 = 1 - 4 * l := Real.sq_sqrt (by linarith)
  refine ⟨(1 + √(1 - 4 * l)) / 2, (1 - √(1 - 4 * l)) / 2, by ring, by nlinarith, ?_, ?_⟩
  · rw [abs_lt]; constructor <;> linarith
  · intro h
    have : √(1 - 4 * l) = 1 := by linarith
    rw [this] at hs2
    exact h0 (by linarith)

/-- Positive discriminant: if the denominators are not the dominant solution, the convergents tend to infinity. -/
theorem Balanced.div_of_minor {a b : ℕ → ℤ} {r t : ℝ} (h : Balanced a b (r * t)) (h1 : r + t = 1) (ht : |t| < r) (ht0 : t ≠ 0) {N : ℕ}
    (ha : ∀ m, N ≤ m → a m ≠ 0) (hP : Rec (fun m => coeffC a b (N + m)) (normed a (contP a b) N))
    (hQ : Rec (fun m => coeffC a b (N + m)) (normed a (contQ a b) N))
    (hc : Tendsto (fun m => coeffC a b (N + m)) atTop (𝓝 (-(r * t)))) (h0 : ∀ m, coeffC a b (N + m) ≠ 0)
    (hw : normed a (contP a b) N 1 * normed a (contQ a b) N 0 - normed a (contP a b) N 0 * normed a (contQ a b) N 1 ≠ 0)
    (bQ : ∀ κ, |t| < κ → ∃ C, 0 ≤ C ∧ ∀ m, |normed a (contQ a b) N m| ≤ C * κ ^ m) : DivergesExp a b := by
  have hr : 0 < r := (abs_nonneg t).trans_lt ht
  have zP : ∀ m, ¬ (normed a (contP a b) N m = 0 ∧ normed a (contP a b) N (m + 1) = 0) := by
    intro m
    rw [normed_eq_zero ha, normed_eq_zero ha]
    exact (not_both_zero h.bne (N + m)).1
  rcases perron hP hc h1 ht zP with ⟨⟨M, hM⟩, hlim⟩ | bP
  · set κ := |t| + (r - |t|) / 3 with hκ
    set ρ := |t| + 2 * (r - |t|) / 3 with hρ
    have ht' := abs_nonneg t
    have hκ0 : 0 < κ := by rw [hκ]; linarith
    have hρ0 : 0 < ρ := by rw [hρ]; linarith
    have hκρ : κ < ρ := by rw [hκ, hρ]; linarith
    obtain ⟨C1, c1, hQb⟩ := bQ κ (by rw [hκ]; linarith)
    obtain ⟨C2, M', c2, hPb⟩ := growth_ge hM hlim hρ0 (by rw [hρ]; linarith)
    set K := κ / ρ with hK
    have hK0 : 0 < K := by rw [hK]; positivity
    have hK1 : K < 1 := by rw [hK, div_lt_one hρ0]; exact hκρ
    refine ⟨C1 / C2 * K / K ^ N, K, N + max M M', hK0.le, hK1, fun n hn => ?_⟩
    obtain ⟨m, hm⟩ : ∃ m, n + 1 = N + m := ⟨n + 1 - N, by omega⟩
    have pne := hM m (by omega)
    have hb1 := hQb m
    have hb2 := hPb m (by omega)
    refine ⟨?_, ?_⟩
    · rw [Ne, normed_eq_zero ha] at pne
      rw [hm]; exact pne
    · rw [hm, ← normed_div ha, abs_div]
      have hpos : 0 < C2 * ρ ^ m := by positivity
      have e : K ^ n * K = K ^ N * K ^ m := by rw [← pow_succ, hm, pow_add]
      have hKN : K ^ N ≠ 0 := (pow_pos hK0 N).ne'
      calc _ ≤ C1 * κ ^ m / (C2 * ρ ^ m) := div_le_div₀ (by positivity) hb1 hpos hb2
        _ = C1 / C2 * K ^ m := by rw [hK, div_pow]; field_simp
        _ = C1 / C2 * (K ^ N * K ^ m) / K ^ N := by field_simp
        _ = C1 / C2 * K / K ^ N * K ^ n := by rw [← e]; ring
  · exact (one_dominant hP hQ hc h0 hw ht ht0 bP bQ).elim

/-- Positive discriminant: exponential convergence, to a limit or to infinity. -/
theorem Balanced.exp {a b : ℕ → ℤ} {l : ℝ} (h : Balanced a b l) (hl : l < 1 / 4) : ConvergesExp a b ∨ DivergesExp a b := by
  obtain ⟨N, ha, hP, hQ, hc, h0, hw⟩ := h.normal
  obtain ⟨r, t, h1, rfl, ht, ht0⟩ := roots_exist hl h.lne
  have hr : 0 < r := (abs_nonneg t).trans_lt ht
  have zQ : ∀ m, ¬ (normed a (contQ a b) N m = 0 ∧ normed a (contQ a b) N (m + 1) = 0) := by
    intro m
    rw [normed_eq_zero ha, normed_eq_zero ha]
    exact (not_both_zero h.bne (N + m)).2
  rcases perron hQ hc h1 ht zQ with ⟨⟨M, hM⟩, hlim⟩ | bQ
  · left
    set x := normed a (contQ a b) N with hx
    have hf : Tendsto (fun m => coeffC a b (N + m) * ((x (m + 1) / x m)⁻¹ * (x (m + 1 + 1) / x (m + 1))⁻¹)) atTop
        (𝓝 (-(r * t) * (r⁻¹ * r⁻¹))) :=
      hc.mul ((hlim.inv₀ hr.ne').mul (((tendsto_add_atTop_iff_nat 1).2 hlim).inv₀ hr.ne'))
    have hfa := hf.abs
    have hval : |(-(r * t) * (r⁻¹ * r⁻¹))| = |t| / r := by
      rw [abs_mul, abs_neg, abs_mul, abs_mul, abs_inv, abs_of_pos hr]
      field_simp
    rw [hval] at hfa
    have hq1 : |t| / r < 1 := (div_lt_one hr).2 ht
    set ρ := (1 + |t| / r) / 2 with hρ
    have hq0 : 0 ≤ |t| / r := by positivity
    obtain ⟨M', hM'⟩ := eventually_atTop.1 (hfa.eventually (gt_mem_nhds (show |t| / r < ρ by rw [hρ]; linarith)))
    obtain ⟨L, C, -, -, hconv⟩ := conv_of_ratio (a := a) (b := b) (ρ := ρ) (by rw [hρ]; linarith) (by rw [hρ]; linarith)
      (N := N + max M M') (fun n hn => by
        have := hM (n + 1 - N) (by omega)
        rw [hx, Ne, normed_eq_zero ha, show N + (n + 1 - N) = n + 1 by omega] at this
        exact this) (fun n hn => by
        obtain ⟨m, hm⟩ : ∃ m, n + 1 = N + m := ⟨n + 1 - N, by omega⟩
        have g := (hM' m (by omega)).le
        have x0 := hM m (by omega)
        have x1 := hM (m + 1) (by omega)
        have x2 := hM (m + 1 + 1) (by omega)
        have a0 : (a (N + m) : ℝ) ≠ 0 := Int.cast_ne_zero.2 (ha _ (by omega))
        have a1 : (a (N + m + 1) : ℝ) ≠ 0 := Int.cast_ne_zero.2 (ha _ (by omega))
        have p0 := prodA_ne ha m
        rw [hx, Ne, normed_eq_zero ha] at x0 x1 x2
        have y0 : (contQ a b (N + m) : ℝ) ≠ 0 := Int.cast_ne_zero.2 x0
        have y1 : (contQ a b (N + m + 1) : ℝ) ≠ 0 := Int.cast_ne_zero.2 x1
        have y2 : (contQ a b (N + m + 1 + 1) : ℝ) ≠ 0 := Int.cast_ne_zero.2 x2
        have e : coeffC a b (N + m) * ((x (m + 1) / x m)⁻¹ * (x (m + 1 + 1) / x (m + 1))⁻¹) =
            b (n + 2) * contQ a b (n + 1) / contQ a b (n + 3) := by
          rw [show n + 2 = N + m + 1 by omega, show n + 3 = N + m + 1 + 1 by omega, hm, hx]
          unfold normed coeffC
          simp only [prodA]
          rw [show N + (m + 1 + 1) = N + m + 1 + 1 from rfl, show N + (m + 1) = N + m + 1 from rfl]
          field_simp
        rw [e, abs_div, abs_mul] at g
        have y3 : 0 < |(contQ a b (n + 3) : ℝ)| := by rw [show n + 3 = N + m + 1 + 1 by omega]; exact abs_pos.2 y2
        rwa [div_le_iff₀ y3] at g)
    refine ⟨L, C, ρ, N + max M M', by rw [hρ]; linarith, by rw [hρ]; linarith, fun n hn => ⟨?_, hconv n hn⟩⟩
    have := hM (n + 1 - N) (by omega)
    rw [hx, Ne, normed_eq_zero ha, show N + (n + 1 - N) = n + 1 by omega] at this
    exact this
  · exact .inr (h.div_of_minor h1 ht ht0 ha hP hQ hc h0 hw bQ)

/-- Solutions grow at most exponentially. -/
theorem growth_crude {c x : ℕ → ℝ} {l : ℝ} (hx : Rec c x) (hc : Tendsto c atTop (𝓝 l)) : ∃ D R : ℝ, 0 < D ∧ 1 ≤ R ∧ ∀ m, |x m| ≤ D * R ^ m := by
  obtain ⟨M, hM⟩ := hc.abs.bddAbove_range
  have hM' : ∀ m, |c m| ≤ M := fun m => hM ⟨m, rfl⟩
  have hM0 : 0 ≤ M := (abs_nonneg _).trans (hM' 0)
  refine ⟨|x 0| + |x 1| + 1, 2 + M, by positivity, by linarith, fun m => ?_⟩
  have hV : ∀ m, |x m| + |x (m + 1)| ≤ (|x 0| + |x 1|) * (2 + M) ^ m := by
    intro m
    induction m with
    | zero => simp
    | succ m ih =>
      have h1 : |x (m + 2)| ≤ |x (m + 1)| + M * |x m| := by
        rw [hx m]
        refine (abs_add_le _ _).trans ?_
        rw [abs_mul]
        have := mul_le_mul_of_nonneg_right (hM' m) (abs_nonneg (x m))
        linarith
      have h2 := mul_le_mul_of_nonneg_left ih (by linarith : 0 ≤ 2 + M)
      have h3 := mul_nonneg hM0 (abs_nonneg (x (m + 1)))
      rw [pow_succ]
      rw [show m + 1 + 1 = m + 2 from rfl]
      nlinarith [abs_nonneg (x m)]
  have h1 := hV m
  have h2 : (0 : ℝ) ≤ (2 + M) ^ m := by positivity
  nlinarith [abs_nonneg (x (m + 1))]

/-- The convergence is not faster than exponential. -/
theorem Balanced.not_fast {a b : ℕ → ℤ} {l : ℝ} (h : Balanced a b l) (L : ℝ) : ¬ ConvergesFast a b L := by
  obtain ⟨N, ha, hP, hQ, hc, h0, hw⟩ := h.normal
  intro hf
  obtain ⟨D, R, hD, hR, hg⟩ := growth_crude hQ hc
  have hl : 0 < |l| := abs_pos.2 h.lne
  obtain ⟨E, N1, hE, hW⟩ := wronskian_ge hP hQ hc h0 hw (ρ := |l| / 2) (by positivity) (by linarith)
  set ρ := |l| / 2 with hρ
  have hρ0 : 0 < ρ := by positivity
  set κ := min 1 (ρ / (2 * R ^ 2)) with hκ
  have hR0 : 0 < R := by linarith
  have hκ0 : 0 < κ := lt_min one_pos (by positivity)
  have hκ1 : κ ≤ 1 := min_le_left _ _
  have hκρ : κ * R ^ 2 ≤ ρ / 2 := by
    have : κ ≤ ρ / (2 * R ^ 2) := min_le_right _ _
    calc κ * R ^ 2 ≤ ρ / (2 * R ^ 2) * R ^ 2 := mul_le_mul_of_nonneg_right this (by positivity)
      _ = ρ / 2 := by field_simp
  obtain ⟨C, M, hM⟩ := hf κ hκ0
  set P := normed a (contP a b) N with hPd
  set Q := normed a (contQ a b) N with hQd
  have hconv : ∀ m, M + 1 ≤ m → Q m ≠ 0 ∧ |P m / Q m - L| ≤ |C| * κ ^ m / κ := by
    intro m hm
    obtain ⟨n, hn⟩ : ∃ n, N + m = n + 1 := ⟨N + m - 1, by omega⟩
    obtain ⟨h1, h2⟩ := hM n (by omega)
    rw [Ne, normed_eq_zero ha, normed_div ha, hn]
    refine ⟨h1, h2.trans ?_⟩
    have h3 : κ ^ (n + 1) ≤ κ ^ m := pow_le_pow_of_le_one hκ0.le hκ1 (by omega)
    rw [le_div_iff₀ hκ0]
    calc C * κ ^ n * κ = C * κ ^ (n + 1) := by ring
      _ ≤ |C| * κ ^ m := mul_le_mul (le_abs_self _) h3 (by positivity) (abs_nonneg _)
  have key : ∀ m, M + 1 + N1 ≤ m → E ≤ 2 * (|C| / κ) * (D ^ 2 * R) * (1 / 2) ^ m := by
    intro m hm
    obtain ⟨n0, c0⟩ := hconv m (by omega)
    obtain ⟨n1, c1⟩ := hconv (m + 1) (by omega)
    have hCk : 0 ≤ |C| * κ ^ m / κ := by positivity
    have hs : |C| * κ ^ (m + 1) / κ ≤ |C| * κ ^ m / κ := by
      have := pow_le_pow_of_le_one hκ0.le hκ1 (show m ≤ m + 1 by omega)
      gcongr
    have hdist : |P (m + 1) / Q (m + 1) - P m / Q m| ≤ 2 * (|C| * κ ^ m / κ) := by
      have := abs_sub_le (P (m + 1) / Q (m + 1)) L (P m / Q m)
      rw [abs_sub_comm L] at this
      linarith
    rw [div_sub_div _ _ n1 n0, abs_div, div_le_iff₀ (abs_pos.2 (mul_ne_zero n1 n0)), mul_comm (Q (m + 1)) (P m)] at hdist
    have hqq : |Q (m + 1) * Q m| ≤ D ^ 2 * R * (R ^ 2) ^ m := by
      rw [abs_mul]
      calc |Q (m + 1)| * |Q m| ≤ (D * R ^ (m + 1)) * (D * R ^ m) := mul_le_mul (hg _) (hg _) (abs_nonneg _) (by positivity)
        _ = _ := by rw [← pow_mul]; ring
    have hρm : 0 < ρ ^ m := pow_pos hρ0 m
    have h9 : E * ρ ^ m ≤ 2 * (|C| / κ) * (D ^ 2 * R) * (1 / 2) ^ m * ρ ^ m :=
      calc E * ρ ^ m ≤ _ := hW m (by omega)
        _ ≤ _ := hdist
        _ ≤ 2 * (|C| * κ ^ m / κ) * (D ^ 2 * R * (R ^ 2) ^ m) := mul_le_mul_of_nonneg_left hqq (by positivity)
        _ = 2 * (|C| / κ) * (D ^ 2 * R) * (κ * R ^ 2) ^ m := by rw [mul_pow]; ring
        _ ≤ 2 * (|C| / κ) * (D ^ 2 * R) * (ρ / 2) ^ m :=
          mul_le_mul_of_nonneg_left (pow_le_pow_left₀ (by positivity) hκρ m) (by positivity)
        _ = _ := by rw [div_pow, one_div_pow]; ring
    exact le_of_mul_le_mul_right h9 hρm
  have hlim := (tendsto_pow_atTop_nhds_zero_of_lt_one (by norm_num : (0 : ℝ) ≤ 1 / 2) (by norm_num)).const_mul
    (2 * (|C| / κ) * (D ^ 2 * R))
  rw [mul_zero] at hlim
  obtain ⟨m, hm, hm'⟩ := ((hlim.eventually (gt_mem_nhds hE)).and (eventually_ge_atTop (M + 1 + N1))).exists
  exact absurd (key m hm') (not_le.2 hm)

/-- `b_{m+1} / (a_{m+1} a_m)` for polynomials with `deg b = 2 deg a`. -/
theorem balanced_of_degree {pa pb : List ℤ} {i : ℕ} (ha : IsDegree pa i) (hb : IsDegree pb (2 * i))
    (h0 : ∀ n, 1 ≤ n → seqAt [pb] n ≠ 0) :
    Balanced (seqAt [pa]) (seqAt [pb]) (-((pb.getD (2 * i) 0 : ℤ) : ℝ) / ((pa.getD i 0 : ℤ) : ℝ) ^ 2) := by
  have hpb := realPoly_ne (h0 1 le_rfl)
  obtain ⟨j, hj, dj⟩ := (realPoly_degree hb).resolve_left (by omega)
  obtain rfl : j = 2 * i := by omega
  obtain ⟨i', hi', di⟩ := (realPoly_degree ha).resolve_left (by omega)
  obtain rfl : i' = i := by omega
  have lb : (realPoly pb).leadingCoeff = ((pb.getD (2 * i') 0 : ℤ) : ℝ) := by
    rw [leadingCoeff, natDegree_eq_of_degree_eq_some dj, coeff_realPoly]
  have la : (realPoly pa).leadingCoeff = ((pa.getD i' 0 : ℤ) : ℝ) := by
    rw [leadingCoeff, natDegree_eq_of_degree_eq_some di, coeff_realPoly]
  have hpa : realPoly pa ≠ 0 := by
    intro h; rw [h, degree_zero] at di; exact absurd di.symm (WithBot.coe_ne_bot)
  refine ⟨h0, ?_, ?_⟩
  · have hdeg : (taylor 1 (realPoly pb)).degree = (taylor 1 (realPoly pa) * realPoly pa).degree := by
      rw [degree_mul, degree_taylor, degree_taylor, di, dj]
      norm_cast
      rw [two_mul]
    have := (div_tendsto_atTop_leadingCoeff_div_of_degree_eq _ _ hdeg).comp (tendsto_natCast_atTop_atTop (R := ℝ))
    rw [leadingCoeff_mul, leadingCoeff_taylor, leadingCoeff_taylor, lb, la] at this
    rw [neg_div, neg_neg, sq]
    refine this.congr fun n => ?_
    simp only [Function.comp, eval_mul, eval_taylor_nat, eval_realPoly, coeffC, seqAt_single]
  · rw [← lb, ← la]
    exact div_ne_zero (neg_ne_zero.2 (leadingCoeff_ne_zero.2 hpb)) (pow_ne_zero _ (leadingCoeff_ne_zero.2 hpa))

end PiCF
