import Verif.Props.Estimator
import Verif.Props.FastTest

/-!
# C117: what `estimate_approach_type_and_params` answers for large cutoffs
-/

namespace PiCF
open PiCF.Spec PiCF.EnumPoly PiCF.ContFrac Filter Topology Polynomial

/-- With a large enough `initial_cutoff`, at least six sampled indices and a step of at least 5, and whatever happened to the object before,
`estimate_approach_type_and_params()` ends in an outcome and a state related by `φ`. -/
def Estimates (A : Analysis) (a b : Coeffs) (φ : Except PyErr Unit → CF → Prop) : Prop :=
  ∃ N : ℕ, ∀ (a₀ b₀ : Coeffs) (z lg : Bool) (s₀ : CF) (ops : List CFOp) (iters cutoff step : ℕ), init a₀ b₀ z none lg = .ok s₀ →
    (runOps ops s₀).params.a = a → (runOps ops s₀).params.b = b → N ≤ cutoff → 5 ≤ step → cutoff + 5 * step ≤ iters →
    ∃ s' r, estimateApproachObj A iters cutoff step (runOps ops s₀) = (s', r) ∧ φ r s'

/-- The method succeeds and stores a type among `ts` with a base between `lo` and `hi` and a positive coefficient. -/
def StoresExp (ts : List ApproachType) (lo hi : ℚ) (r : Except PyErr Unit) (s : CF) : Prop :=
  r = .ok () ∧ s.approachType ∈ ts ∧ ∃ base coeff, s.approachParams = some (base, coeff) ∧ lo ≤ base ∧ base ≤ hi ∧ 0 < coeff

/-- The convergents. -/
def convSeq (a b : ℕ → ℤ) (i : ℕ) : ℚ := (contP a b (i + 1) : ℚ) / contQ a b (i + 1)

theorem convSeq_sub (a b : ℕ → ℤ) (i : ℕ) : ((|convSeq a b (i + 2) - convSeq a b i| : ℚ) : ℝ) =
    |(contP a b (i + 1 + 2) : ℝ) / contQ a b (i + 1 + 2) - contP a b (i + 1) / contQ a b (i + 1)| := by
  unfold convSeq
  push_cast
  rfl

theorem RatioLimit.step {a b : ℕ → ℤ} {ρ : ℝ} (h : RatioLimit a b ρ) (hb : ∀ n, 1 ≤ n → b n ≠ 0) (h0 : 0 ≤ ρ) {c₁ c₂ : ℝ} (h1 : c₁ < ρ)
    (h2 : ρ < c₂) :
    ∃ N, ∀ i, N ≤ i → contQ a b (i + 1) ≠ 0 ∧ 0 < |convSeq a b (i + 2) - convSeq a b i| ∧
      ∃ d : ℝ, c₁ < d ∧ d < c₂ ∧ 0 ≤ d ∧
        ((|convSeq a b (i + 4) - convSeq a b (i + 2)| : ℚ) : ℝ) = d * ((|convSeq a b (i + 2) - convSeq a b i| : ℚ) : ℝ) := by
  obtain ⟨N₁, h₁⟩ := h.ane
  obtain ⟨N₂, h₂⟩ := h.qne
  have hlim := h.lim.abs
  rw [abs_of_nonneg h0] at hlim
  obtain ⟨N₃, h₃⟩ := eventually_atTop.1 ((hlim.eventually (lt_mem_nhds h1)).and (hlim.eventually (gt_mem_nhds h2)))
  refine ⟨N₁ + N₂ + N₃, fun i hi => ⟨h₂ _ (by omega), ?_, |diffRatio a b (i + 1)|, (h₃ _ (by omega)).1, (h₃ _ (by omega)).2,
    abs_nonneg _, ?_⟩⟩
  · have := diff_ne hb (h₁ (i + 1 + 1) (by omega)) (h₂ (i + 1) (by omega)) (h₂ (i + 1 + 2) (by omega))
    have h5 : (0 : ℝ) < ((|convSeq a b (i + 2) - convSeq a b i| : ℚ) : ℝ) := by rw [convSeq_sub]; exact abs_pos.2 this
    exact_mod_cast h5
  · have := diff_step (h₁ (i + 1 + 1) (by omega)) (h₂ (i + 1) (by omega)) (h₂ (i + 1 + 2) (by omega)) (h₂ (i + 1 + 4) (by omega))
    rw [convSeq_sub a b i, show i + 4 = i + 2 + 2 from rfl, convSeq_sub a b (i + 2), ← abs_mul, ← this,
      show i + 2 + 1 + 2 = i + 1 + 4 by ring, show i + 2 + 1 = i + 1 + 2 by ring]

/-- From some index on, the distances shrink by a factor in every band around `1 / ρ`. -/
theorem RatioLimit.band {a b : ℕ → ℤ} {ρ : ℝ} (h : RatioLimit a b ρ) (hb : ∀ n, 1 ≤ n → b n ≠ 0) (h0 : 0 < ρ) {lo hi : ℚ} (hl0 : 0 < lo)
    (h1 : (lo : ℝ) < 1 / ρ) (h2 : 1 / ρ < hi) :
    ∃ N, ∀ i, N ≤ i → contQ a b (i + 1) ≠ 0 ∧ Band (convSeq a b) lo hi i := by
  have l0 : (0 : ℝ) < lo := by exact_mod_cast hl0
  have hi0 : (0 : ℝ) < hi := (one_div_pos.2 h0).trans h2
  obtain ⟨N, hN⟩ := h.step hb h0.le (c₁ := 1 / hi) (c₂ := 1 / lo) ((one_div_lt h0 hi0).1 h2) ((lt_one_div l0 h0).1 h1)
  refine ⟨N, fun i hi' => ⟨(hN i hi').1, ?_, ?_, ?_⟩⟩
  · have := (hN (i + 2) (by omega)).2.1
    exact sub_ne_zero.1 (abs_pos.1 this)
  all_goals
    obtain ⟨-, e0, d, d1, d2, d0, e⟩ := hN i hi'
    have e0' : (0 : ℝ) < ((|convSeq a b (i + 2) - convSeq a b i| : ℚ) : ℝ) := by exact_mod_cast e0
    rw [lt_div_iff₀ l0] at d2
    rw [div_lt_iff₀ hi0] at d1
    rw [← Rat.cast_le (K := ℝ), Rat.cast_mul, e]
    nlinarith

/-- For `ρ = 0`, by a factor above any bound. -/
theorem RatioLimit.fast {a b : ℕ → ℤ} (h : RatioLimit a b 0) (hb : ∀ n, 1 ≤ n → b n ≠ 0) {lo : ℚ} (hl0 : 0 < lo) :
    ∃ N, ∀ i, N ≤ i → contQ a b (i + 1) ≠ 0 ∧ ∃ hi, Band (convSeq a b) lo hi i := by
  have l0 : (0 : ℝ) < lo := by exact_mod_cast hl0
  obtain ⟨N, hN⟩ := h.step hb le_rfl (c₁ := -1) (c₂ := 1 / lo) (by norm_num) (by positivity)
  refine ⟨N, fun i hi' => ⟨(hN i hi').1, |convSeq a b (i + 2) - convSeq a b i| / |convSeq a b (i + 4) - convSeq a b (i + 2)|, ?_, ?_, ?_⟩⟩
  · have := (hN (i + 2) (by omega)).2.1
    exact sub_ne_zero.1 (abs_pos.1 this)
  · obtain ⟨-, e0, d, d1, d2, d0, e⟩ := hN i hi'
    have e0' : (0 : ℝ) < ((|convSeq a b (i + 2) - convSeq a b i| : ℚ) : ℝ) := by exact_mod_cast e0
    rw [lt_div_iff₀ l0] at d2
    rw [← Rat.cast_le (K := ℝ), Rat.cast_mul, e]
    nlinarith
  · rw [div_mul_cancel₀]
    exact ((hN (i + 2) (by omega)).2.1).ne'

/-! ### The inner estimator on fast convergence -/

theorem le_mean {rs : List ℚ} (hne : rs ≠ []) {lo : ℚ} (h : ∀ r ∈ rs, lo ≤ r) : lo ≤ mean rs := by
  have hn : (0 : ℚ) < rs.length := by exact_mod_cast List.length_pos_iff.2 hne
  rw [mean, le_div_iff₀ hn, mul_comm]
  clear hne hn
  induction rs with
  | nil => simp
  | cons r rs ih =>
    have := ih fun x hx => h x (List.mem_cons_of_mem _ hx)
    have := h r List.mem_cons_self
    simp only [List.length_cons, List.sum_cons]
    push_cast
    linarith

/-- If all distances shrink by factors above 2, the type is `'exp'` or `'super_exp'`. -/
theorem estimate_large {a₀ b₀ : Coeffs} {z l : Bool} {s₀ : CF} (hinit : init a₀ b₀ z none l = .ok s₀)
    (ops : List CFOp) (A : Analysis) (hroot : RootOk A) (iters cutoff step : ℕ) (hstep : 5 ≤ step)
    (hc : 0 < cutoff) (h6 : cutoff + 5 * step ≤ iters)
    (hz : z = true → ∀ j, 1 ≤ j → j ≤ iters + 5 → seqAt (runOps ops s₀).params.b j ≠ 0)
    (lo : ℚ) (hlo : 2 < lo) (x : ℕ → ℚ) :
    let s := runOps ops s₀
    (∀ j, cutoff + j * step ≤ iters → ∀ t < 6, contQ (seqAt s.params.a) (seqAt s.params.b) (cutoff + j * step + t + 1) ≠ 0 ∧
      x (cutoff + j * step + t) = (contP (seqAt s.params.a) (seqAt s.params.b) (cutoff + j * step + t + 1) : ℚ) /
        contQ (seqAt s.params.a) (seqAt s.params.b) (cutoff + j * step + t + 1)) →
    (∀ j, cutoff + j * step ≤ iters → ∀ t < 2, ∃ hi, Band x lo hi (cutoff + j * step + t)) →
    ∃ s' base coeff, estimateApproachObj A iters cutoff step s = (s', .ok ()) ∧ s'.approachType ∈ [.exp, .superExp] ∧
      s'.approachParams = some (base, coeff) ∧ A.root lo ≤ base ∧ 0 < coeff := by
  intro s hx hb
  have hg : Good s z l := reachable_good hinit ops
  have hz' : NoZero z s.params.b 0 (max cutoff iters + 5) := fun j h1 h2 h3 => hz h3.1 j (by omega) (by omega) h3.2
  have hmem : ∀ {i}, i ∈ sampleIdx iters cutoff step → ∃ j, i = cutoff + j * step ∧ i ≤ iters :=
    fun h => (mem_sampleIdx (by omega) (by omega)).1 h
  obtain ⟨s1, e⟩ := inner_finite hg A iters cutoff step hstep (Or.inl hc) hz' x (by
    intro i hi t ht
    obtain ⟨j, rfl, hj⟩ := hmem hi
    exact hx j hj t ht)
  obtain ⟨hr1, hr2⟩ := ratios_band (x := x) (is := sampleIdx iters cutoff step) (by
    intro i hi t ht
    obtain ⟨j, rfl, hj⟩ := hmem hi
    obtain ⟨hi', hb'⟩ := hb j hj t ht
    exact hb'.ne (by linarith))
  have hlen := sampleIdx_len (iters := iters) (cutoff := cutoff) (step := step) (by omega) h6
  set dp := deltaPair ((sampleIdx iters cutoff step).map (sixOf x)) with hdp
  set dodd := deltaOdd ((sampleIdx iters cutoff step).map (sixOf x)) with hdodd
  have hbp : ∀ r ∈ ratios dp, lo ≤ r := by
    rw [hr1]
    intro r hr
    obtain ⟨i, hi', rfl⟩ := List.mem_map.1 hr
    obtain ⟨j, rfl, hj⟩ := hmem hi'
    obtain ⟨hi', hb'⟩ := hb j hj 0 (by decide)
    exact hb'.ratio.1
  have hbo : ∀ r ∈ ratios dodd, lo ≤ r := by
    rw [hr2]
    intro r hr
    obtain ⟨i, hi', rfl⟩ := List.mem_map.1 hr
    obtain ⟨j, rfl, hj⟩ := hmem hi'
    obtain ⟨hi', hb'⟩ := hb j hj 1 (by decide)
    exact hb'.ratio.1
  have hlp : 6 ≤ (ratios dp).length := by rw [hr1, List.length_map]; exact hlen
  have hlo' : 6 ≤ (ratios dodd).length := by rw [hr2, List.length_map]; exact hlen
  have hnp : ratios dp ≠ [] := by intro h; rw [h] at hlp; simp at hlp
  have hno : ratios dodd ≠ [] := by intro h; rw [h] at hlo'; simp at hlo'
  have m1 := le_mean hnp hbp
  have m3 := le_mean hno hbo
  obtain ⟨coeff, he, hcoeff, -⟩ := expParams_ok hroot.gt_one hnp hno (by linarith : 11 / 10 < mean (ratios dp))
    (by linarith : 11 / 10 < mean (ratios dodd))
  have hcm : ∀ sup, classifyMeans A sup dp dodd (mean (ratios dp)) (mean (ratios dodd)) =
      .ok (if sup then .superExp else .exp, some (min (A.root (mean (ratios dp))) (A.root (mean (ratios dodd))), coeff)) := by
    intro sup
    rw [classifyMeans, decide_eq_true (show mean (ratios dp) > expThreshold by unfold expThreshold; linarith),
      decide_eq_true (show mean (ratios dodd) > expThreshold by unfold expThreshold; linarith)]
    simp only [he]
  have hcl : ∃ sup : Bool, classify A dp dodd = .ok (if sup then .superExp else .exp,
      some (min (A.root (mean (ratios dp))) (A.root (mean (ratios dodd))), coeff)) := by
    rw [classify]
    rw [if_neg (by omega), if_neg hno, if_neg (by rintro (h | h) <;> linarith)]
    split
    · rw [if_pos (by
        rw [List.all_eq_true]
        intro r hr
        rw [decide_eq_true_eq]
        rcases List.mem_append.1 hr with hr | hr
        · exact lt_of_lt_of_le hlo (hbp r (List.mem_of_mem_drop hr))
        · exact lt_of_lt_of_le hlo (hbo r (List.mem_of_mem_drop hr))), hcm]
      exact ⟨true, rfl⟩
    · rw [hcm]
      exact ⟨false, rfl⟩
  obtain ⟨sup, hcl⟩ := hcl
  rw [hcl] at e
  obtain ⟨s2, g1, g2, g3⟩ := estimate_first e (by cases sup <;> simp) (by exact_mod_cast hc.ne')
  exact ⟨s2, _, coeff, g1, by rw [g2]; cases sup <;> simp, g3, le_min (hroot.mono m1) (hroot.mono m3), hcoeff⟩

/-! ### Large cutoffs -/

theorem estimates_exp {pa pb : List ℤ} {ρ : ℝ} (hR : RatioLimit (seqAt [pa]) (seqAt [pb]) ρ) (h0 : ∀ n, 1 ≤ n → seqAt [pb] n ≠ 0)
    (hρ0 : 0 < ρ) (hρ : ρ < 10 / 11) {A : Analysis} (hsqrt : SqrtOk A) (hroot : RootOk A) {lo hi : ℚ} (hlo : (lo : ℝ) < 1 / ρ)
    (hhi : 1 / ρ < hi) : Estimates A [pa] [pb] (StoresExp [.exp] (A.root lo) (A.root hi)) := by
  have hi0 : 0 < 1 / ρ := one_div_pos.2 hρ0
  have h11 : (11 / 10 : ℝ) < 1 / ρ := by rw [lt_div_iff₀ hρ0]; linarith
  obtain ⟨lo', l1, l2⟩ := exists_rat_btwn (max_lt hlo (max_lt h11 (show 9 / 10 * (1 / ρ) < 1 / ρ by linarith)))
  obtain ⟨hi', u1, u2⟩ := exists_rat_btwn (lt_min hhi (show 1 / ρ < 6 / 5 * (1 / ρ) by linarith))
  obtain ⟨l3, l4⟩ := max_lt_iff.1 l1
  obtain ⟨l4, l5⟩ := max_lt_iff.1 l4
  obtain ⟨u3, u4⟩ := lt_min_iff.1 u2
  have e1 : lo ≤ lo' := by exact_mod_cast l3.le
  have e2 : 11 / 10 < lo' := by
    rw [← Rat.cast_lt (K := ℝ)]; push_cast; exact l4
  have e3 : hi' ≤ hi := by exact_mod_cast u3.le
  have e4 : hi' ≤ 3 / 2 * lo' := by
    rw [← Rat.cast_le (K := ℝ)]; push_cast; linarith
  obtain ⟨N, hN⟩ := hR.band h0 hρ0 (by linarith : (0 : ℚ) < lo') l2 u1
  refine ⟨N + 1, fun a₀ b₀ z lg s₀ ops iters cutoff step hinit ea eb hc hs hi => ?_⟩
  obtain ⟨s', base, coeff, g1, g2, g3, g4, g5, g6⟩ := C87_geometric_recognised hinit ops A hsqrt hroot iters cutoff step hs (by omega) hi
    (fun _ j hj _ => by rw [eb]; exact h0 j hj) lo' hi' e2 e4 (convSeq (seqAt [pa]) (seqAt [pb]))
    (fun j _ t _ => by rw [ea, eb]; exact ⟨(hN _ (by omega)).1, rfl⟩)
    (fun j _ => ⟨(hN _ (by omega)).2, (hN _ (by omega)).2⟩)
  exact ⟨s', _, g1, rfl, by simp [g2], base, coeff, g3, (hroot.mono e1).trans g4, g5.trans (hroot.mono e3), g6⟩

theorem slow_band {ρ : ℝ} (hρ0 : 0 < ρ) (hρ : 10 / 11 < ρ) :
    ∃ lo hi : ℚ, 0 < lo ∧ (lo : ℝ) < 1 / ρ ∧ 1 / ρ < hi ∧ hi ≤ 11 / 10 ∧ hi ≤ 3 / 2 * lo := by
  have hi0 : 0 < 1 / ρ := one_div_pos.2 hρ0
  have h11 : 1 / ρ < (11 / 10 : ℝ) := by rw [div_lt_iff₀ hρ0]; linarith
  obtain ⟨lo', l1, l2⟩ := exists_rat_btwn (show 9 / 10 * (1 / ρ) < 1 / ρ by linarith)
  obtain ⟨hi', u1, u2⟩ := exists_rat_btwn (lt_min h11 (show 1 / ρ < 6 / 5 * (1 / ρ) by linarith))
  obtain ⟨u3, u4⟩ := lt_min_iff.1 u2
  refine ⟨lo', hi', ?_, l2, u1, ?_, ?_⟩
  · rw [← Rat.cast_lt (K := ℝ)]; push_cast; linarith
  · rw [← Rat.cast_le (K := ℝ)]; push_cast; exact u3.le
  · rw [← Rat.cast_le (K := ℝ)]; push_cast; linarith

theorem estimates_poly {pa pb : List ℤ} {ρ : ℝ} (hR : RatioLimit (seqAt [pa]) (seqAt [pb]) ρ) (h0 : ∀ n, 1 ≤ n → seqAt [pb] n ≠ 0)
    (hρ : 10 / 11 < ρ) {A : Analysis} (hsqrt : SqrtOk A) (hfloat : ∀ x, 0 < x → 0 < A.toFloat x) :
    Estimates A [pa] [pb] (fun r s => r = .ok () ∧ s.approachType = .poly) := by
  have hρ0 : 0 < ρ := by linarith
  obtain ⟨lo', hi', e2, l2, u1, e3, e4⟩ := slow_band hρ0 hρ
  obtain ⟨N, hN⟩ := hR.band h0 hρ0 e2 l2 u1
  refine ⟨N + 1, fun a₀ b₀ z lg s₀ ops iters cutoff step hinit ea eb hc hs hi => ?_⟩
  obtain ⟨s', g1, g2⟩ := C87_slow_recognised hinit ops A hsqrt hfloat iters cutoff step hs (by omega) hi
    (fun _ j hj _ => by rw [eb]; exact h0 j hj) lo' hi' e2 e4 e3 (convSeq (seqAt [pa]) (seqAt [pb]))
    (fun j _ t _ => by rw [ea, eb]; exact ⟨(hN _ (by omega)).1, rfl⟩)
    (fun j _ => ⟨(hN _ (by omega)).2, (hN _ (by omega)).2⟩)
  exact ⟨s', _, g1, rfl, g2⟩

theorem estimates_fast {pa pb : List ℤ} (hR : RatioLimit (seqAt [pa]) (seqAt [pb]) 0) (h0 : ∀ n, 1 ≤ n → seqAt [pb] n ≠ 0)
    {A : Analysis} (hroot : RootOk A) (lo : ℚ) :
    Estimates A [pa] [pb] (fun r s => ∃ hi, StoresExp [.exp, .superExp] (A.root lo) hi r s) := by
  obtain ⟨N, hN⟩ := hR.fast h0 (lo := max 3 lo) (by positivity)
  refine ⟨N + 1, fun a₀ b₀ z lg s₀ ops iters cutoff step hinit ea eb hc hs hi => ?_⟩
  obtain ⟨s', base, coeff, g1, g2, g3, g4, g5⟩ := estimate_large hinit ops A hroot iters cutoff step hs (by omega) hi
    (fun _ j hj _ => by rw [eb]; exact h0 j hj) (max 3 lo) (lt_max_of_lt_left (by norm_num)) (convSeq (seqAt [pa]) (seqAt [pb]))
    (fun j _ t _ => by rw [ea, eb]; exact ⟨(hN _ (by omega)).1, rfl⟩)
    (fun j _ t _ => (hN _ (by omega)).2)
  exact ⟨s', _, g1, base, rfl, g2, base, coeff, g3, (hroot.mono (le_max_right _ _)).trans g4, le_rfl, g5⟩

/-- Positive numbers below some bound become zero as floats. -/
def Underflows (A : Analysis) : Prop := ∃ ε : ℚ, 0 < ε ∧ ∀ x, 0 ≤ x → x < ε → A.toFloat x = 0

theorem estimates_underflow {pa pb : List ℤ} {ρ : ℝ} (hR : RatioLimit (seqAt [pa]) (seqAt [pb]) ρ) (h0 : ∀ n, 1 ≤ n → seqAt [pb] n ≠ 0)
    (hρ : 10 / 11 < ρ) {A : Analysis} (hsqrt : SqrtOk A) (hfloat : Underflows A) {l : ℝ}
    (hl : Tendsto (fun n => (contP (seqAt [pa]) (seqAt [pb]) (n + 1) : ℝ) / contQ (seqAt [pa]) (seqAt [pb]) (n + 1)) atTop (𝓝 l)) :
    Estimates A [pa] [pb] (fun r _ => r = .error .valueError) := by
  obtain ⟨ε, hε, hfl⟩ := hfloat
  have hε' : (0 : ℝ) < ε := by exact_mod_cast hε
  obtain ⟨M, hM⟩ : ∃ M, ∀ i, M ≤ i → |convSeq (seqAt [pa]) (seqAt [pb]) (i + 2) - convSeq (seqAt [pa]) (seqAt [pb]) i| < ε := by
    have h1 := (((tendsto_add_atTop_iff_nat 2).2 hl).sub hl).abs
    rw [sub_self, abs_zero] at h1
    obtain ⟨M, hM⟩ := eventually_atTop.1 (h1.eventually (gt_mem_nhds hε'))
    refine ⟨M, fun i hi => ?_⟩
    have := hM i hi
    rw [← Rat.cast_lt (K := ℝ), convSeq_sub, show i + 1 + 2 = i + 2 + 1 from rfl]
    exact this
  have hρ0 : 0 < ρ := by linarith
  obtain ⟨lo', hi', e2, l2, u1, e3, e4⟩ := slow_band hρ0 hρ
  obtain ⟨N, hN⟩ := hR.band h0 hρ0 e2 l2 u1
  refine ⟨N + M + 1, fun a₀ b₀ z lg s₀ ops iters cutoff step hinit ea eb hc hs hi => ?_⟩
  obtain ⟨hne, s1, e⟩ := inner_slow hinit ops A hsqrt iters cutoff step hs (by omega) hi
    (fun _ j hj _ => by rw [eb]; exact h0 j hj) lo' hi' e2 e4 e3 (convSeq (seqAt [pa]) (seqAt [pb]))
    (fun j _ t _ => by rw [ea, eb]; exact ⟨(hN _ (by omega)).1, rfl⟩)
    (fun j _ => ⟨(hN _ (by omega)).2, (hN _ (by omega)).2⟩)
  have hmem : cutoff ∈ sampleIdx iters cutoff step := (mem_sampleIdx (by omega) (by omega)).2 ⟨0, by simp, by omega⟩
  have hall : ((deltaPair ((sampleIdx iters cutoff step).map (sixOf (convSeq (seqAt [pa]) (seqAt [pb]))))).all (logOk A)) = false := by
    rw [List.all_eq_false]
    refine ⟨((cutoff : ℤ), some |convSeq (seqAt [pa]) (seqAt [pb]) (cutoff + 2) - convSeq (seqAt [pa]) (seqAt [pb]) cutoff|), ?_, ?_⟩
    · rw [deltaPair_sixOf, List.mem_flatMap]
      exact ⟨cutoff, hmem, List.mem_cons_self⟩
    · simp only [logOk]
      rw [hfl _ (abs_nonneg _) (hM cutoff (by omega))]
      simp
  rw [polyParams, hall] at e
  simp only [Bool.false_and, Bool.false_eq_true, if_false] at e
  obtain ⟨s2, g, -⟩ := estimate_first_error e
  exact ⟨s2, _, g, rfl⟩

/-! ### C117 -/

/-- **C117.** Let `b_n ≠ 0` and let the continued fraction of two polynomials converge exponentially to `l`, with limiting ratio `ρ` of the
distances to `l` two steps apart.  With a large enough cutoff and exact results `estimate_approach_type_and_params()` stores, whatever happened
to the object before: for `0 < ρ < 10/11` the type `'exp'` with a base as close to the square root of `1/ρ` as wanted; for `10/11 < ρ` the
type `'poly2sympoly'` unless a logarithm is undefined (`ρ = 10/11` does not occur); for `ρ = 0` the type `'exp'` or `'super_exp'` with a base above any bound. -/
theorem C117_exponential (pa pb : List ℤ) (h0 : ∀ n, 1 ≤ n → seqAt [pb] n ≠ 0) (l : ℝ)
    (hc : ConvergesExpTo (seqAt [pa]) (seqAt [pb]) l) :
    ∃ ρ : ℝ, 0 ≤ ρ ∧ ρ < 1 ∧ ρ ≠ 10 / 11 ∧ (∃ N, ∀ n, N ≤ n → convError (seqAt [pa]) (seqAt [pb]) l n ≠ 0) ∧
      Tendsto (fun n => convError (seqAt [pa]) (seqAt [pb]) l (n + 2) / convError (seqAt [pa]) (seqAt [pb]) l n) atTop (𝓝 ρ) ∧
      (∀ A : Analysis, SqrtOk A → RootOk A → 0 < ρ → ρ < 10 / 11 → ∀ lo hi : ℚ, (lo : ℝ) < 1 / ρ → 1 / ρ < hi →
        Estimates A [pa] [pb] (StoresExp [.exp] (A.root lo) (A.root hi))) ∧
      (∀ A : Analysis, SqrtOk A → (∀ x, 0 < x → 0 < A.toFloat x) → 10 / 11 < ρ →
        Estimates A [pa] [pb] (fun r s => r = .ok () ∧ s.approachType = .poly)) ∧
      (∀ A : Analysis, RootOk A → ρ = 0 → ∀ lo : ℚ,
        Estimates A [pa] [pb] (fun r s => ∃ hi, StoresExp [.exp, .superExp] (A.root lo) hi r s)) := by
  obtain ⟨ρ, hρ0, hρ1, hR, hk, -⟩ := exp_ratio pa pb h0 l hc
  obtain ⟨e1, e2⟩ := hR.errors h0 hρ0 hρ1 (expTo_tendsto hc).1
  have := hk 10 (not_square_of_between (m := 10) (by norm_num) (by norm_num))
  norm_num at this
  exact ⟨ρ, hρ0, hρ1, this, e1, e2, fun A hs hr p1 p2 lo hi l1 l2 => estimates_exp hR h0 p1 p2 hs hr l1 l2,
    fun A hs hf p => estimates_poly hR h0 p hs hf, fun A hr p lo => estimates_fast (p ▸ hR) h0 hr lo⟩

/-- **C117.** Positive terms without exponential convergence get the type `'poly2sympoly'` (unless a logarithm is undefined). -/
theorem C117_positive (pa pb : List ℤ) (hp : ∀ n, 1 ≤ n → 0 < seqAt [pa] n ∧ 0 < seqAt [pb] n)
    (hc : ¬ ConvergesExp (seqAt [pa]) (seqAt [pb])) (A : Analysis) (hsqrt : SqrtOk A) (hfloat : ∀ x, 0 < x → 0 < A.toFloat x) :
    Estimates A [pa] [pb] (fun r s => r = .ok () ∧ s.approachType = .poly) :=
  estimates_poly (pos_ratio pa pb hp hc) (fun n hn => (hp n hn).2.ne') (by norm_num) hsqrt hfloat

/-- The ratio of `1 + B/(1 + B/(1 + ...))`. -/
theorem const_ratio {B : ℤ} (hB : 1 ≤ B) : ∃ l, ConvergesExpTo (seqAt [[1]]) (seqAt [[B]]) l ∧
    RatioLimit (seqAt [[1]]) (seqAt [[B]]) (((1 - √(1 + 4 * (B : ℝ))) / (1 + √(1 + 4 * (B : ℝ)))) ^ 2) := by
  obtain ⟨l, hl⟩ := exp_to (exp_const (A := 1) (B := B) le_rfl hB)
  obtain ⟨ρ, -, -, hR, -, da, db, hda, hdb, -, -, hρ⟩ :=
    exp_ratio [1] [B] (fun n _ => by rw [seqAt_const]; exact (by omega : B ≠ 0)) l hl
  obtain rfl := degree_const hda
  obtain rfl := degree_const hdb
  have := hρ rfl
  simp only [List.getD_cons_zero, Int.cast_one, abs_one, one_pow] at this
  exact ⟨l, hl, this ▸ hR⟩

/-- **C117 (violated).** With floats that underflow, slow exponential convergence makes the method raise instead: for
`1 + 2000/(1 + 2000/(1 + ...))` and every large enough cutoff it raises ValueError. -/
theorem C117_underflow_violated : ConvergesExp (seqAt [[1]]) (seqAt [[2000]]) ∧
    ∀ A : Analysis, SqrtOk A → Underflows A → Estimates A [[1]] [[2000]] (fun r _ => r = .error .valueError) := by
  refine ⟨exp_const (A := 1) (B := 2000) (by norm_num) (by norm_num), fun A hs hf => ?_⟩
  obtain ⟨l, hl, hR⟩ := const_ratio (B := 2000) (by norm_num)
  refine estimates_underflow hR (fun n _ => by rw [seqAt_const]; norm_num) ?_ hs hf (expTo_tendsto hl).1
  have h89 : 89 ≤ √(1 + 4 * ((2000 : ℤ) : ℝ)) := Real.le_sqrt_of_sq_le (by norm_num)
  rw [div_pow, div_lt_div_iff₀ (by norm_num) (by positivity)]
  nlinarith

/-! ### Examples -/

-- 1 + 2/(1 + 2/(1 + ...)) has the ratio 1/4: the base is between the roots of 3.9 and 4.1
example : Estimates roughAnalysis [[1]] [[2]] (StoresExp [.exp] (roughAnalysis.root (39 / 10)) (roughAnalysis.root (41 / 10))) := by
  obtain ⟨l, hl, hR⟩ := const_ratio (B := 2) (by norm_num)
  have h3 : √(1 + 4 * ((2 : ℤ) : ℝ)) = 3 := by
    rw [show 1 + 4 * ((2 : ℤ) : ℝ) = 3 ^ 2 by norm_num]; exact Real.sqrt_sq (by norm_num)
  rw [h3] at hR
  exact estimates_exp hR (fun n _ => by rw [seqAt_const]; norm_num) (by norm_num) (by norm_num) rough_ok.1 rough_ok.2
    (by norm_num) (by norm_num)

-- floats that underflow
example : ∃ A : Analysis, SqrtOk A ∧ RootOk A ∧ Underflows A :=
  ⟨{ roughAnalysis with toFloat := fun x => if x < 1 / 10 ^ 330 then 0 else x }, rough_ok.1, ⟨rough_ok.2.mono, rough_ok.2.gt_one⟩,
    1 / 10 ^ 330, by positivity, fun x _ h => if_pos h⟩

-- the hypotheses of C117_exponential and C117_positive
example : (∃ l, (∀ n, 1 ≤ n → seqAt [[2]] n ≠ 0) ∧ ConvergesExpTo (seqAt [[1]]) (seqAt [[2]]) l) ∧
    (∀ n, 1 ≤ n → 0 < seqAt [[1]] n ∧ 0 < seqAt [[0, 0, 1]] n) ∧ ¬ ConvergesExp (seqAt [[1]]) (seqAt [[0, 0, 1]]) ∧
    (∀ x, 0 < x → 0 < roughAnalysis.toFloat x) := by
  have hp : ∀ n, 1 ≤ n → 0 < seqAt [[1]] n ∧ 0 < seqAt [[0, 0, 1]] n := fun n hn => by
    rw [seqAt_single, seqAt_single]
    simp only [horner]
    have : (0 : ℤ) < n := by omega
    constructor
    · simp
    · simp; positivity
  refine ⟨?_, hp, not_exp_of_degree (da := 0) (db := 2) ?_ ?_ (by norm_num) fun n hn => (hp n hn).2.ne', fun x hx => hx⟩
  · obtain ⟨l, hl⟩ := exp_to (exp_const (A := 1) (B := 2) (by norm_num) (by norm_num))
    exact ⟨l, fun n _ => by rw [seqAt_const]; norm_num, hl⟩
  · exact .inr ⟨0, rfl, by simp, fun j hj => by rcases j with _ | j <;> simp at hj ⊢⟩
  · exact .inr ⟨2, rfl, by simp, fun j hj => by rcases j with _ | _ | _ | j <;> simp at hj ⊢⟩

-- 1 + 1/(2 + 1/(3 + ...)) has the ratio 0
example : ∃ l, ConvergesExpTo (seqAt [[1, 1]]) (seqAt [[1]]) l ∧
    Estimates roughAnalysis [[1, 1]] [[1]] (fun r s => ∃ hi, StoresExp [.exp, .superExp] (roughAnalysis.root 1000) hi r s) := by
  have hp : ∀ n, 1 ≤ n → 0 < seqAt [[1, 1]] n ∧ 0 < seqAt [[1]] n := fun n hn => by
    rw [seqAt_single, seqAt_single]
    simp only [horner]
    constructor
    · simp; positivity
    · simp
  have h0 : ∀ n, 1 ≤ n → seqAt [[1]] n ≠ 0 := fun n hn => (hp n hn).2.ne'
  obtain ⟨l, hl⟩ := exp_to (exp_of_pos hp (M := 1) (N := 0) one_pos fun n _ => by
    have e : ∀ n, ((seqAt [[1, 1]] n : ℤ) : ℝ) = n + 1 := fun n => by rw [seqAt_single]; simp [horner]; ring
    simp only [seqAt_const, e]
    push_cast
    rw [abs_one, abs_of_pos (by positivity : (0 : ℝ) < (n : ℝ) + 1 + 1), abs_of_pos (by positivity : (0 : ℝ) < (n : ℝ) + 1)]
    nlinarith [(Nat.cast_nonneg n : (0 : ℝ) ≤ n)])
  refine ⟨l, hl, ?_⟩
  obtain ⟨ρ, -, -, hR, -, da, db, hda, hdb, -, hρ, -⟩ := exp_ratio [1, 1] [1] h0 l hl
  obtain rfl := degree_const hdb
  obtain rfl : da = 1 := by
    rcases hda with ⟨h1, -⟩ | ⟨i, h1, h2, h3⟩
    · omega
    · rcases i with _ | _ | i
      · exact absurd (h3 1 (by omega)) (by simp)
      · omega
      · simp at h2
  obtain rfl := hρ (by norm_num)
  exact estimates_fast hR h0 rough_ok.2 1000

end PiCF
