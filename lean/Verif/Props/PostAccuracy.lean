import Verif.Spec.Post
import Verif.Model.RoundedPost
import Verif.Props.RoundedLhs
import Verif.Props.RoundedRf

/-!
# C131: the post-processing functions compute what their names say
-/

namespace PiCF
open PiCF.Spec PiCF.Mitm PiCF.Lhs PiCF.ContFrac PiCF.DecStr PiCF.Rounded PiCF.Postproc Filter Topology

/-- For inputs near `ρ` and a precision that is high enough, `g` returns a number near `F ρ`. -/
def Tracks (g : (ℚ → ℚ) → Postproc.Analysis → Number → Except PyErr Number) (F : ℝ → ℝ) (ρ : ℝ) : Prop :=
  ∀ ε > (0 : ℝ), ∃ η > (0 : ℝ), ∀ (rnd : ℚ → ℚ) (u : ℚ) (M : ℤ) (A : Postproc.Analysis), RoundOk rnd u M → (u : ℝ) < η → AnalysisOk A u →
    ∀ q : ℚ, |(q : ℝ) - ρ| < η → ∃ y : ℚ, g rnd A (.dec (.fin q)) = .ok (.dec (.fin y)) ∧ |(y : ℝ) - F ρ| < ε

/-- A function that is continuous at `ρ` and computed with a relative error of at most `u` near `ρ`. -/
theorem tracks_of_rel {g : (ℚ → ℚ) → Postproc.Analysis → Number → Except PyErr Number} {F : ℝ → ℝ} {ρ : ℝ} (hF : ContinuousAt F ρ) {η₀ : ℝ} (hη₀ : 0 < η₀)
    (h : ∀ (rnd : ℚ → ℚ) (u : ℚ) (M : ℤ) (A : Postproc.Analysis), RoundOk rnd u M → AnalysisOk A u → ∀ q : ℚ, |(q : ℝ) - ρ| < η₀ →
      ∃ y : ℚ, g rnd A (.dec (.fin q)) = .ok (.dec (.fin y)) ∧ |(y : ℝ) - F q| ≤ u * |F q|) : Tracks g F ρ := by
  intro ε hε
  obtain ⟨η₁, h1, hc⟩ := Metric.continuousAt_iff.1 hF (min (ε / 2) 1) (by positivity)
  have hpos : 0 < |F ρ| + 1 := by positivity
  refine ⟨min (min η₀ η₁) (ε / 2 / (|F ρ| + 1)), by positivity, fun rnd u M A hR hu hA q hq => ?_⟩
  obtain ⟨y, e, hy⟩ := h rnd u M A hR hA q (hq.trans_le ((min_le_left _ _).trans (min_le_left _ _)))
  refine ⟨y, e, ?_⟩
  have h2 := hc (x := (q : ℝ)) (by rw [Real.dist_eq]; exact hq.trans_le ((min_le_left _ _).trans (min_le_right _ _)))
  rw [Real.dist_eq] at h2
  have h3 := h2.trans_le (min_le_left _ _)
  have h4 := h2.trans_le (min_le_right _ _)
  have h5 : |F q| ≤ |F ρ| + 1 := by
    have := abs_sub_abs_le_abs_sub (F q) (F ρ)
    linarith
  have hu' : (u : ℝ) < ε / 2 / (|F ρ| + 1) := hu.trans_le (min_le_right _ _)
  rw [lt_div_iff₀ hpos] at hu'
  have hu0 : (0 : ℝ) ≤ u := by exact_mod_cast hR.u0
  calc |(y : ℝ) - F ρ| ≤ |(y : ℝ) - F q| + |F q - F ρ| := abs_sub_le _ _ _
    _ < u * (|F ρ| + 1) + ε / 2 := by
      have := mul_le_mul_of_nonneg_left h5 hu0
      linarith
    _ < ε := by linarith

theorem round_real {rnd : ℚ → ℚ} {u : ℚ} {M : ℤ} (h : RoundOk rnd u M) (x : ℚ) : |(rnd x : ℝ) - x| ≤ u * |(x : ℝ)| := by
  exact_mod_cast h.err x

theorem Tracks.inverse {g : (ℚ → ℚ) → Postproc.Analysis → Number → Except PyErr Number} {F : ℝ → ℝ} {ρ : ℝ} (h : Tracks g F ρ) (h0 : F ρ ≠ 0) :
    Tracks (fun rnd A => inverseOfR rnd (g rnd A)) (fun x => (F x)⁻¹) ρ := by
  intro ε hε
  have hinv : ContinuousAt (fun x : ℝ => x⁻¹) (F ρ) := continuousAt_inv₀ h0
  obtain ⟨η₁, h1, hc⟩ := Metric.continuousAt_iff.1 hinv (min (ε / 2) 1) (by positivity)
  obtain ⟨η₂, h2, hg⟩ := h (min η₁ |F ρ|) (by positivity)
  have hpos : 0 < |(F ρ)⁻¹| + 1 := by positivity
  refine ⟨min η₂ (ε / 2 / (|(F ρ)⁻¹| + 1)), by positivity, fun rnd u M A hR hu hA q hq => ?_⟩
  obtain ⟨y, e, hy⟩ := hg rnd u M A hR (hu.trans_le (min_le_left _ _)) hA q (hq.trans_le (min_le_left _ _))
  have hy0 : y ≠ 0 := by
    rintro rfl
    have := hy.trans_le (min_le_right _ _)
    simp at this
  refine ⟨rnd (1 / y), by simp [inverseOfR, e, safeInverseR, hy0, recipR], ?_⟩
  have h3 := hc (x := (y : ℝ)) (by rw [Real.dist_eq]; exact hy.trans_le (min_le_left _ _))
  rw [Real.dist_eq] at h3
  have h4 := h3.trans_le (min_le_left _ _)
  have h5 := h3.trans_le (min_le_right _ _)
  have h6 := round_real hR (1 / y)
  rw [show ((1 / y : ℚ) : ℝ) = (y : ℝ)⁻¹ by push_cast; rw [one_div]] at h6
  have h7 : |(y : ℝ)⁻¹| ≤ |(F ρ)⁻¹| + 1 := by
    have := abs_sub_abs_le_abs_sub (y : ℝ)⁻¹ (F ρ)⁻¹
    linarith
  have hu' : (u : ℝ) < ε / 2 / (|(F ρ)⁻¹| + 1) := hu.trans_le (min_le_right _ _)
  rw [lt_div_iff₀ hpos] at hu'
  have hu0 : (0 : ℝ) ≤ u := by exact_mod_cast hR.u0
  calc |(rnd (1 / y) : ℝ) - (F ρ)⁻¹| ≤ |(rnd (1 / y) : ℝ) - (y : ℝ)⁻¹| + |(y : ℝ)⁻¹ - (F ρ)⁻¹| := abs_sub_le _ _ _
    _ < u * (|(F ρ)⁻¹| + 1) + ε / 2 := by
      have := mul_le_mul_of_nonneg_left h7 hu0
      linarith
    _ < ε := by linarith

theorem tracks_id (ρ : ℝ) : Tracks (fun _ _ => .ok) id ρ :=
  tracks_of_rel continuousAt_id one_pos fun rnd u M A hR _ q _ => ⟨q, rfl, by
    have hu0 : (0 : ℝ) ≤ u := by exact_mod_cast hR.u0
    simp only [id, sub_self, abs_zero]
    positivity⟩

theorem tracks_pow (n : ℕ) (ρ : ℝ) : Tracks (fun rnd _ => powerR rnd n) (fun x => x ^ n) ρ :=
  tracks_of_rel (continuousAt_id.pow n) one_pos fun rnd u M A hR _ q _ => ⟨rnd (q ^ n), rfl, by
    have := round_real hR (q ^ n)
    push_cast at this
    exact this⟩

theorem tracks_sqrt {ρ : ℝ} (h : 0 < ρ) : Tracks (fun _ A => safeSqrt A) Real.sqrt ρ :=
  tracks_of_rel Real.continuous_sqrt.continuousAt h fun rnd u M A hR hA q hq => by
    have hq0 : (0 : ℝ) < q := by linarith [(abs_lt.1 hq).1]
    have hq' : 0 < q := by exact_mod_cast hq0
    refine ⟨A.sqrt q, by simp [safeSqrt, not_lt.2 hq'.le], ?_⟩
    rw [abs_of_nonneg (Real.sqrt_nonneg _)]
    exact hA.sqrt q hq'.le

theorem tracks_exp (ρ : ℝ) : Tracks (fun _ A => expMethod A) Real.exp ρ :=
  tracks_of_rel Real.continuous_exp.continuousAt one_pos fun rnd u M A hR hA q hq => ⟨A.exp q, rfl, by
    rw [abs_of_pos (Real.exp_pos _)]
    exact hA.exp q⟩

theorem tracks_ln {ρ : ℝ} (h : 0 < ρ) : Tracks (fun _ A => lnMethod A) Real.log ρ :=
  tracks_of_rel (Real.continuousAt_log h.ne') h fun rnd u M A hR hA q hq => by
    have hq0 : (0 : ℝ) < q := by linarith [(abs_lt.1 hq).1]
    have hq' : 0 < q := by exact_mod_cast hq0
    exact ⟨A.ln q, by simp [lnMethod, not_lt.2 hq'.le, hq'.ne'], hA.ln q hq'⟩

/-- **C131 (values).** Every post-processing function that can be evaluated tracks the mathematical function its name stands for: for inputs near `ρ`, with enough
digits, it returns a number near the value at `ρ`. -/
theorem C131_tracks {i : ℕ} {ρ : ℝ} (h : PostDomain i ρ) : ∃ g : (ℚ → ℚ) → Postproc.Analysis → Number → Except PyErr Number,
    (∀ rnd A, (evaluatedFuncsR rnd A)[i]? = some (g rnd A)) ∧ Tracks g (mathFunc i) ρ := by
  obtain ⟨h1, h2, h3, h4⟩ := h
  have hm : i < 12 ∨ i = 20 ∨ i = 21 ∨ i = 22 ∨ i = 23 := by omega
  rcases hm with hm | rfl | rfl | rfl | rfl
  · interval_cases i
    · exact ⟨_, fun _ _ => rfl, tracks_id ρ⟩
    · exact ⟨_, fun _ _ => rfl, (tracks_id ρ).inverse (h4 rfl)⟩
    · exact ⟨_, fun _ _ => rfl, tracks_pow 2 ρ⟩
    · exact ⟨_, fun _ _ => rfl, (tracks_pow 2 ρ).inverse (h4 rfl)⟩
    · exact ⟨_, fun _ _ => rfl, tracks_pow 3 ρ⟩
    · exact ⟨_, fun _ _ => rfl, (tracks_pow 3 ρ).inverse (h4 rfl)⟩
    · exact ⟨_, fun _ _ => rfl, tracks_pow 4 ρ⟩
    · exact ⟨_, fun _ _ => rfl, (tracks_pow 4 ρ).inverse (h4 rfl)⟩
    · exact ⟨_, fun _ _ => rfl, tracks_pow 5 ρ⟩
    · exact ⟨_, fun _ _ => rfl, (tracks_pow 5 ρ).inverse (h4 rfl)⟩
    · exact ⟨_, fun _ _ => rfl, tracks_sqrt (h3 (.inl rfl))⟩
    · exact ⟨_, fun _ _ => rfl, (tracks_sqrt (h3 (.inl rfl))).inverse (h4 rfl)⟩
  · exact ⟨_, fun _ _ => rfl, tracks_exp ρ⟩
  · exact ⟨_, fun _ _ => rfl, (tracks_exp ρ).inverse (h4 rfl)⟩
  · exact ⟨_, fun _ _ => rfl, tracks_ln (h3 (.inr rfl))⟩
  · exact ⟨_, fun _ _ => rfl, (tracks_ln (h3 (.inr rfl))).inverse (h4 rfl)⟩

/-- **C131 (search).** The functions of a search with `p` digits map the numbers near `r` to numbers near the value of the named function at `r`: what the theorems about
the refinement (C120, C125) assume about the list of functions. -/
theorem C131_funcs {i : ℕ} {r : ℝ} (h : PostDomain i r) {rnd : ℕ → ℚ → ℚ} {u : ℕ → ℚ} {M : ℕ → ℤ} {A : ℕ → Postproc.Analysis}
    (hR : ∀ᶠ p in atTop, RoundOk (rnd p) (u p) (M p)) (hu : Tendsto (fun p => (u p : ℝ)) atTop (𝓝 0)) (hA : ∀ᶠ p in atTop, AnalysisOk (A p) (u p)) :
    ∀ ε > 0, ∃ η > 0, ∀ᶠ p in atTop, ∃ f, (decFuncs (rnd p) (A p))[i]? = some f ∧
      ∀ x : ℚ, |(x : ℝ) - r| < η → ∃ y : ℚ, f (.fin x) = .ok (.fin y) ∧ |(y : ℝ) - mathFunc i r| < ε := by
  intro ε hε
  obtain ⟨g, hg, ht⟩ := C131_tracks h
  obtain ⟨η, hη, hq⟩ := ht ε hε
  refine ⟨η, hη, ?_⟩
  filter_upwards [hR, hA, hu.eventually (gt_mem_nhds hη)] with p h1 h2 h3
  refine ⟨decFun (g (rnd p) (A p)), by rw [decFuncs, List.getElem?_map, hg]; rfl, fun x hx => ?_⟩
  obtain ⟨y, e, hy⟩ := hq _ _ _ _ h1 h3 h2 x hx
  exact ⟨y, by rw [decFun, e]; rfl, hy⟩

theorem bits_tendsto : Tendsto (fun p : ℕ => ((1 / 2 ^ p : ℚ) : ℝ)) atTop (𝓝 0) := by
  have h : Tendsto (fun p : ℕ => (1 / 2 : ℝ) ^ p) atTop (𝓝 0) := tendsto_pow_atTop_nhds_zero_of_lt_one (by norm_num) (by norm_num)
  refine h.congr fun p => ?_
  push_cast
  rw [div_pow, one_pow]

/-- **C131 (right hand sides).** The hypothesis of C125 about the right hand sides holds for every convergent continued fraction and every function that can be evaluated
near its limit, with `limit = F(r)`. -/
theorem C131_rhs {rnd : ℕ → ℚ → ℚ} (hR : Bits rnd) {A : ℕ → Postproc.Analysis} (hA : ∀ p, 1 ≤ p → AnalysisOk (A p) (1 / 2 ^ p)) {a b : EnumPoly.Polys}
    (ha : a ≠ []) (hb : b ≠ []) {post : ℕ} {r : ℝ} (hd : PostDomain post r) {v : ℕ → ℚ}
    (hv : ∀ᶠ m in atTop, nested (fun i => (seqAt a i : ℚ)) (fun i => (seqAt b i : ℚ)) 0 m = some (v m)) (hlim : Tendsto (fun m => (v m : ℝ)) atTop (𝓝 r)) :
    RhsConverges (fun p => decFuncs (rnd p) (A p)) a b post (mathFunc post r) := by
  refine ⟨ha, hb, v, r, hv, hlim, C131_funcs hd (M := fun p => 2 ^ p) (u := fun p => 1 / 2 ^ p) ?_ bits_tendsto ?_⟩
  · filter_upwards [eventually_ge_atTop 1] with p hp
    exact hR p hp
  · filter_upwards [eventually_ge_atTop 1] with p hp
    exact hA p hp

/-- A continued fraction with limit `r`, a function and the parameters of an LHS. -/
structure LimitCandidate where
  a : EnumPoly.Polys
  b : EnumPoly.Polys
  post : ℕ
  conv : Option Conv
  params : ℤ × ℤ × ℤ × ℤ
  r : ℝ

/-- The limit of the right hand side is the value of the function at the limit of the continued fraction. -/
noncomputable def LimitCandidate.cand (k : LimitCandidate) : Candidate := ⟨k.a, k.b, k.post, k.conv, k.params, mathFunc k.post k.r⟩

/-- The continued fraction can be evaluated from some depth on, its values tend to `r`, and the function can be evaluated near `r`. -/
structure LimitCandidate.Converges (k : LimitCandidate) : Prop where
  legal : UlcdLegal k.params
  a : k.a ≠ []
  b : k.b ≠ []
  dom : PostDomain k.post k.r
  lim : ∃ v : ℕ → ℚ, (∀ᶠ m in atTop, nested (fun i => (seqAt k.a i : ℚ)) (fun i => (seqAt k.b i : ℚ)) 0 m = some (v m)) ∧
    Tendsto (fun m => (v m : ℝ)) atTop (𝓝 k.r)

open Classical in
/-- **C131 (refinement).** The whole refinement with the functions of postprocfuncs.py.  Clicks whose continued fractions tend to `r`, with functions `F` of the list and left hand
sides `(u/ξ + ξ/l + c)/d`: with enough iterations, and then enough digits, exactly those are kept for which `F(r)` and the left hand side have the same first `n` digits
(irrational values with fractional parts above `10^-6`). -/
theorem C131_refine {ξ : ℝ} (hξ : ξ ≠ 0) {A : ℕ → Postproc.Analysis} (hA : ∀ p, 1 ≤ p → AnalysisOk (A p) (1 / 2 ^ p)) (ks : List LimitCandidate)
    (hks : ∀ k ∈ ks, k.Converges) (hdec : ∀ k ∈ ks, Decidable10 (mathFunc k.post k.r, ulcdReal k.params ξ)) (n : ℕ) :
    ∃ ε > 0, ∃ δ > 0, ∃ N, ∀ m, N ≤ m → ∃ p₀, ∀ p, p₀ ≤ p → ∀ (x : ℚ) (eng : EngN) (cs : List (Click Ulcd)), |(x : ℝ) - ξ| < δ → Prints eng ε →
      List.Forall₂ (fun k => IsClick (roundBin p) x k.cand) ks cs →
        ∃ kept, refineClicks (ulcdClassR (roundBin p)) ⟨decFuncs (roundBin p) (A p), true, n, eng, evalConstR (roundBin p) m⟩ (none, cs) = ((none, kept), .ok ()) ∧
          List.Forall₂ SameClick
            (((ks.zip cs).filter fun q => decide (DigitsAgree n (mathFunc q.1.post q.1.r) (ulcdReal q.1.params ξ))).map Prod.snd) kept := by
  have hconv : ∀ k ∈ ks.map LimitCandidate.cand, k.Converges (fun p => decFuncs (roundBin p) (A p)) := by
    intro k hk
    obtain ⟨k, hk', rfl⟩ := List.mem_map.1 hk
    obtain ⟨h1, h2, h3, h4, v, h5, h6⟩ := hks k hk'
    refine ⟨h1, h2, h3, v, k.r, h5, h6, C131_funcs h4 (M := fun p => 2 ^ p) ?_ bits_tendsto ?_⟩
    · filter_upwards [eventually_ge_atTop 1] with p hp
      exact roundBin_ok p hp
    · filter_upwards [eventually_ge_atTop 1] with p hp
      exact hA p hp
  obtain ⟨ε, he, δ, hδ, N, hN⟩ := C120_refine hξ (fun p => decFuncs (roundBin p) (A p)) (ks.map LimitCandidate.cand) hconv (by simpa [LimitCandidate.cand] using hdec) n
  refine ⟨ε, he, δ, hδ, N, fun m hm => ?_⟩
  obtain ⟨p₀, hp⟩ := hN m hm
  refine ⟨p₀, fun p hpp x eng cs hx hE hcs => ?_⟩
  obtain ⟨kept, k1, k2⟩ := hp p hpp x eng cs hx hE (List.forall₂_map_left_iff.2 hcs)
  refine ⟨kept, k1, ?_⟩
  convert k2 using 1
  rw [List.zip_map_left, List.filter_map, List.map_map]
  rfl

/-! ### Examples -/

theorem rel_approx {u : ℚ} (hu : 0 < u) (t : ℝ) : ∃ q : ℚ, |(q : ℝ) - t| ≤ u * |t| := by
  rcases eq_or_ne t 0 with rfl | ht
  · exact ⟨0, by simp⟩
  · have h : 0 < (u : ℝ) * |t| := mul_pos (by exact_mod_cast hu) (abs_pos.2 ht)
    obtain ⟨q, h1, h2⟩ := exists_rat_btwn (show t < t + u * |t| by linarith)
    exact ⟨q, abs_le.2 ⟨by linarith, by linarith⟩⟩

/-- There are functions of every precision. -/
theorem analysis_exists {u : ℚ} (hu : 0 < u) : ∃ A, AnalysisOk A u := by
  choose a ha using fun q : ℚ => rel_approx hu (Real.sqrt q)
  choose b hb using fun q : ℚ => rel_approx hu (Real.exp q)
  choose c hc using fun q : ℚ => rel_approx hu (Real.log q)
  refine ⟨⟨a, b, c⟩, fun q _ => ?_, fun q => ?_, fun q _ => hc q⟩
  · have := ha q
    rwa [abs_of_nonneg (Real.sqrt_nonneg _)] at this
  · have := hb q
    rwa [abs_of_pos (Real.exp_pos _)] at this

/-- `1/ln x` near `x = e` is near 1. -/
example : PostDomain 23 (Real.exp 1) ∧ mathFunc 23 (Real.exp 1) = 1 := by
  have e : mathFuncs.getD (23 / 2) id (Real.exp 1) = 1 := Real.log_exp 1
  refine ⟨⟨by omega, by omega, fun _ => Real.exp_pos 1, fun _ => by rw [e]; norm_num⟩, ?_⟩
  rw [mathFunc, e]
  norm_num

/-- `1/(1 + 1/(3 + 4/(5 + 9/(7 + ...)))) = π/4` (function 1, `safe_inverse`), with the LHS `π/4`: kept, for every number of digits. -/
example (n : ℕ) : ∃ A : ℕ → Postproc.Analysis, ∃ ε > (0 : ℝ), ∃ δ > 0, ∃ N, ∀ m, N ≤ m → ∃ p₀, ∀ p, p₀ ≤ p →
    ∀ (x : ℚ) (P : ℕ) (s : Ulcd), |(x : ℝ) - Real.pi| < δ → 1 / 10 ^ P ≤ ε → ulcdInitR (roundBin p) (0, 1, 0, 4) x = .ok s →
      ∃ c', refineClicks (ulcdClassR (roundBin p)) ⟨decFuncs (roundBin p) (A p), true, n, cutEng P, evalConstR (roundBin p) m⟩
        (none, [⟨[[1, 2]], [[0, 0, 1]], s, 1, none⟩]) = ((none, [c']), .ok ()) := by
  choose A hA using fun p : ℕ => analysis_exists (u := 1 / 2 ^ p) (by positivity)
  have hpi := Real.pi_gt_three
  have hpi' := Real.pi_lt_d2
  have r0 : mathFunc 1 (4 / Real.pi) = Real.pi / 4 := by simp [mathFunc, mathFuncs]
  have r1 : ulcdReal (0, 1, 0, 4) Real.pi = Real.pi / 4 := by simp [ulcdReal]
  have hfr : Int.fract |Real.pi / 4| = Real.pi / 4 := by
    rw [abs_of_pos (by positivity)]
    refine Int.fract_eq_self.2 ⟨by positivity, ?_⟩
    norm_num at hpi' ⊢
    linarith
  have hirr : Irrational (Real.pi / 4) := irrational_pi.div_natCast (by norm_num : (4 : ℕ) ≠ 0)
  have hk : 1 / 10 ^ 6 < Int.fract |Real.pi / 4| := by rw [hfr]; norm_num; linarith
  obtain ⟨ε, he, δ, hd, N, hN⟩ := C131_refine Real.pi_ne_zero (A := A) (fun p _ => hA p)
    [⟨[[1, 2]], [[0, 0, 1]], 1, none, (0, 1, 0, 4), 4 / Real.pi⟩]
    (List.forall_mem_singleton.2 ⟨⟨by norm_num, by norm_num⟩, by simp, by simp,
      ⟨by norm_num, by norm_num, by norm_num, fun _ => by simp [mathFuncs, Real.pi_ne_zero]⟩,
      fun m => (contP (seqAt [[1, 2]]) (seqAt [[0, 0, 1]]) (m + 1) : ℚ) / contQ (seqAt [[1, 2]]) (seqAt [[0, 0, 1]]) (m + 1), .of_forall fun m => by
        obtain ⟨v, hv, -⟩ := nested_positive cf3_pos m 0
        show nested (fun i => (seqAt [[1, 2]] i : ℚ)) (fun i => (seqAt [[0, 0, 1]] i : ℚ)) 0 m = _
        rw [hv, (nested_eq_cont _ _ _ _ hv).2], by
        have := cf3_tendsto
        push_cast
        exact this⟩)
    (List.forall_mem_singleton.2 (by
      show Decidable10 (mathFunc 1 (4 / Real.pi), ulcdReal (0, 1, 0, 4) Real.pi)
      rw [r0, r1]
      exact ⟨hirr, hirr, hk, hk⟩)) n
  refine ⟨A, ε, he, δ, hd, N, fun m hm => ?_⟩
  obtain ⟨p₀, hp⟩ := hN m hm
  refine ⟨p₀, fun p hpp x P s hx hP hs => ?_⟩
  obtain ⟨kept, k1, k2⟩ := hp p hpp x (cutEng P) [⟨[[1, 2]], [[0, 0, 1]], s, 1, none⟩] hx (Prints.mono (cutEng_prints P) hP)
    (.cons ⟨rfl, rfl, rfl, rfl, (ulcdInitR_ok hs).2, _, _, [], hs, rfl⟩ .nil)
  have d1 : DigitsAgree n (mathFunc 1 (4 / Real.pi)) (ulcdReal (0, 1, 0, 4) Real.pi) := by rw [r0, r1]; rfl
  simp only [List.zip_cons_cons, List.zip_nil_right, List.filter_cons, d1, decide_true, if_true, List.filter_nil, List.map_cons, List.map_nil] at k2
  cases k2 with
  | cons h h' =>
    cases h'
    exact ⟨_, k1⟩

end PiCF
