import Mathlib.Algebra.BigOperators.Field
import Mathlib.Analysis.Real.Sqrt
import Verif.Props.Estimator
import Verif.Spec.Estimator

/-!
# C119: the rule by which the estimator classifies a convergence
-/

namespace PiCF.ContFrac
open PiCF.Spec

/-- What is assumed of `mpf.sqrt`: the relative error is at most `ε`. -/
structure SqrtNear (A : Analysis) (ε : ℚ) : Prop where
  nonneg : 0 ≤ ε
  le : ∀ x y, 0 ≤ y → x ≤ y ^ 2 → A.sqrt x ≤ (1 + ε) * y
  ge : ∀ x y, 0 ≤ y → y ^ 2 < x → y < (1 + ε) * A.sqrt x

theorem sum_range_list (n : ℕ) (f : ℕ → ℚ) : ((List.range n).map f).sum = ∑ j ∈ Finset.range n, f j := by
  induction n with
  | zero => rfl
  | succ n ih => rw [List.range_succ, List.map_append, List.sum_append, ih, Finset.sum_range_succ]; simp

theorem mean_avg (n : ℕ) (f : ℕ → ℚ) : mean ((List.range n).map f) = avg n f := by
  rw [mean, avg, sum_range_list, List.length_map, List.length_range]

theorem relErr_eq (A : Analysis) (n : ℕ) (f : ℕ → ℚ) : relErr A ((List.range n).map f) = A.sqrt (sqDev n f) / n / avg n f := by
  rw [relErr, mean_avg, List.map_map, sqDev, ← sum_range_list, List.length_map, List.length_range]
  rfl

theorem scattered_relErr {A : Analysis} {ε : ℚ} (hA : SqrtNear A ε) {n : ℕ} {f : ℕ → ℚ} (hn : 0 < n) (hm : 0 < avg n f)
    (h : Scattered ε n f) : 1 / 2 < relErr A ((List.range n).map f) := by
  have he := hA.nonneg
  have hn' : (0 : ℚ) < n := by exact_mod_cast hn
  rw [relErr_eq, lt_div_iff₀ hm, lt_div_iff₀ hn']
  by_contra hle
  push Not at hle
  rw [Scattered] at h
  have h1 := hA.ge (sqDev n f) ((1 + ε) * n * avg n f / 2) (by positivity) (by nlinarith)
  have h2 : (1 + ε) * n * avg n f / 2 = (1 + ε) * (1 / 2 * avg n f * n) := by ring
  rw [h2] at h1
  have h3 := lt_of_mul_lt_mul_left h1 (by linarith)
  linarith

theorem calm_relErr {A : Analysis} {ε : ℚ} (hA : SqrtNear A ε) {n : ℕ} {f : ℕ → ℚ} (hn : 0 < n) (hm : 0 < avg n f)
    (h : Calm ε n f) : relErr A ((List.range n).map f) ≤ 1 / 2 := by
  have he := hA.nonneg
  have hn' : (0 : ℚ) < n := by exact_mod_cast hn
  rw [relErr_eq, div_le_iff₀ hm, div_le_iff₀ hn']
  rw [Calm] at h
  have h1 := hA.le (sqDev n f) (n * avg n f / (2 * (1 + ε))) (by positivity) (by
    rw [div_pow, le_div_iff₀ (by positivity)]
    linarith)
  refine h1.trans (le_of_eq ?_)
  field_simp

theorem lastQuarter_range (n : ℕ) (f : ℕ → ℚ) : (lastQuarter ((List.range n).map f)).all (fun r => decide (r > 2)) = true ↔ EndsFast n f := by
  rw [lastQuarter, List.length_map, List.length_range, List.all_eq_true, EndsFast]
  constructor
  · intro h j hj hq
    have : f j ∈ ((List.range n).map f).drop (3 * (n / 4)) := by
      rw [List.mem_drop_iff_getElem]
      exact ⟨j - 3 * (n / 4), by simp; omega, by simp; congr 1; omega⟩
    simpa using h _ this
  · intro h r hr
    rw [List.mem_drop_iff_getElem] at hr
    obtain ⟨k, hk, rfl⟩ := hr
    simp only [List.length_map, List.length_range] at hk
    simp only [List.getElem_map, List.getElem_range, gt_iff_lt, decide_eq_true_eq]
    exact h _ (by omega) (by omega)

theorem coeffList_flatMap {p : ℚ} (is : List ℕ) (u v : ℕ → ℤ) (f g : ℕ → ℚ) (h : ∀ i ∈ is, f i ≠ 0 ∧ g i ≠ 0) :
    coeffList p (is.flatMap fun i => [(u i, some (f i)), (v i, some (g i))]) =
      is.flatMap fun i => [|f i * p ^ u i / (1 - p ^ (-2 : ℤ))|, |g i * p ^ v i / (1 - p ^ (-2 : ℤ))|] := by
  induction is with
  | nil => rfl
  | cons i is ih =>
    obtain ⟨h1, h2⟩ := h i List.mem_cons_self
    rw [List.flatMap_cons, List.flatMap_cons, List.cons_append, List.cons_append, List.nil_append, coeffList, if_pos h1, coeffList, if_pos h2,
      ih fun i hi => h i (List.mem_cons_of_mem _ hi)]
    rfl

theorem mean_pairs (n : ℕ) (f g : ℕ → ℚ) : mean ((List.range n).flatMap fun j => [f j, g j]) = avg n fun j => (f j + g j) / 2 := by
  have h1 : ((List.range n).flatMap fun j => [f j, g j]).sum = ∑ j ∈ Finset.range n, (f j + g j) := by
    induction n with
    | zero => rfl
    | succ n ih => rw [List.range_succ, List.flatMap_append, List.sum_append, ih, Finset.sum_range_succ]; simp
  have h2 : ((List.range n).flatMap fun j => [f j, g j]).length = 2 * n := by simp [List.length_flatMap, Nat.mul_comm]
  rw [mean, h1, h2, avg, ← Finset.sum_div]
  push_cast
  rw [div_div]

theorem mean_coeff {p : ℚ} (hp : 1 < p) (n : ℕ) (idx : ℕ → ℕ) (x : ℕ → ℚ) (t : Fin 2) (u v : ℕ → ℤ) (hu : ∀ i, u i = (i + t : ℕ))
    (hv : ∀ i, v i = (i + t + 2 : ℕ))
    (hne : ∀ i ∈ (List.range n).map idx, ∀ t < 2, |x (i + t + 2) - x (i + t)| ≠ 0 ∧ |x (i + t + 4) - x (i + t + 2)| ≠ 0) :
    mean (coeffList p (((List.range n).map idx).flatMap fun i =>
      [(u i, some |x (i + t + 2) - x (i + t)|), (v i, some |x (i + t + 4) - x (i + t + 2)|)])) = fitCoeff n (fun j => idx j + t) x p := by
  rw [coeffList_flatMap _ _ _ (fun i => |x (i + t + 2) - x (i + t)|) (fun i => |x (i + t + 4) - x (i + t + 2)|) fun i hi => hne i hi t t.2,
    List.flatMap_map, mean_pairs, fitCoeff]
  congr 1
  funext j
  have hlt : p ^ (-2 : ℤ) < 1 := zpow_lt_one_of_neg₀ hp (by decide)
  have hinv : p ^ (-2 : ℤ) = (p ^ 2)⁻¹ := by rw [zpow_neg]; rfl
  have key : ∀ (d : ℚ) (k : ℕ), abs (|d| * p ^ (k : ℤ) / (1 - p ^ (-2 : ℤ))) = |d| * p ^ k / (1 - (p ^ 2)⁻¹) := by
    intro d k
    rw [abs_of_nonneg (div_nonneg (mul_nonneg (abs_nonneg _) (zpow_nonneg (by linarith) _)) (by linarith)), hinv, zpow_natCast]
  rw [hu, hv, key, key]
  ring

/-- **C119.** The classification rule.  Let at least six indices `i_j = cutoff + j * step` be sampled (step at least 5, positive cutoff),
let all sampled convergents `x` exist and those two apart differ.  With `f t j` the factor by which the distance at `i_j + t` shrinks:
* if the factors are scattered (of one parity at least) and not all of the last quarters are above 2, `'undefined'` is stored;
* else if both averages are above 1.1: `'exp'` if they are not scattered, `'super_exp'` if they are; the base is the smaller one of the
  roots of the averages, the coefficient the smaller one of the averages for the two parities;
* else if one of them is, `'mixed'`;
* else `'poly2sympoly'`. -/
theorem C119_rule {a₀ b₀ : Coeffs} {z l : Bool} {s₀ : CF} (hinit : init a₀ b₀ z none l = .ok s₀)
    (ops : List CFOp) (A : Analysis) {ε : ℚ} (hsqrt : SqrtNear A ε) (hroot : ∀ x, 11 / 10 < x → 1 < A.root x)
    (hfloat : ∀ x, 0 < x → 0 < A.toFloat x) (iters cutoff step : ℕ) (hstep : 5 ≤ step) (hc : 0 < cutoff) (h6 : cutoff + 5 * step ≤ iters)
    (hz : z = true → ∀ j, 1 ≤ j → j ≤ iters + 5 → seqAt (runOps ops s₀).params.b j ≠ 0) (x : ℕ → ℚ)
    (hx : ∀ j, cutoff + j * step ≤ iters → ∀ t < 6,
      contQ (seqAt (runOps ops s₀).params.a) (seqAt (runOps ops s₀).params.b) (cutoff + j * step + t + 1) ≠ 0 ∧
      x (cutoff + j * step + t) = (contP (seqAt (runOps ops s₀).params.a) (seqAt (runOps ops s₀).params.b) (cutoff + j * step + t + 1) : ℚ) /
        contQ (seqAt (runOps ops s₀).params.a) (seqAt (runOps ops s₀).params.b) (cutoff + j * step + t + 1))
    (hne : ∀ j, cutoff + j * step ≤ iters → ∀ t < 4, x (cutoff + j * step + t + 2) ≠ x (cutoff + j * step + t)) :
    let n := (iters - cutoff) / step + 1
    let f : ℕ → ℕ → ℚ := fun t j => shrink x (cutoff + j * step + t)
    let m : ℕ → ℚ := fun t => avg n (f t)
    let base := min (A.root (m 0)) (A.root (m 1))
    let coeff := min (fitCoeff n (fun j => cutoff + j * step) x base) (fitCoeff n (fun j => cutoff + j * step + 1) x base)
    let stores (t : ApproachType) (ps : Option (ℚ × ℚ)) : Prop := ∃ s', estimateApproachObj A iters cutoff step (runOps ops s₀) = (s', .ok ()) ∧
      s'.approachType = t ∧ s'.approachParams = ps
    let scattered := Scattered ε n (f 0) ∨ Scattered ε n (f 1)
    let calm := Calm ε n (f 0) ∧ Calm ε n (f 1)
    let ends := EndsFast n (f 0) ∧ EndsFast n (f 1)
    (scattered → ¬ ends → stores .undefined none) ∧
    (11 / 10 < m 0 → 11 / 10 < m 1 → calm → stores .exp (some (base, coeff))) ∧
    (11 / 10 < m 0 → 11 / 10 < m 1 → scattered → ends → stores .superExp (some (base, coeff))) ∧
    ((calm ∨ scattered ∧ ends) → ¬ (11 / 10 < m 0 ↔ 11 / 10 < m 1) → stores .mixed none) ∧
    ((calm ∨ scattered ∧ ends) → m 0 ≤ 11 / 10 → m 1 ≤ 11 / 10 → stores .poly none) := by
  classical
  intro n f m base coeff stores scattered calm ends
  have hg : Good (runOps ops s₀) z l := reachable_good hinit ops
  have hz' : NoZero z (runOps ops s₀).params.b 0 (max cutoff iters + 5) := fun j h1 h2 h3 => hz h3.1 j (by omega) (by omega) h3.2
  have hmem : ∀ {i}, i ∈ sampleIdx iters cutoff step → ∃ j, i = cutoff + j * step ∧ i ≤ iters :=
    fun h => (mem_sampleIdx (by omega) (by omega)).1 h
  obtain ⟨s1, e⟩ := inner_finite hg A iters cutoff step hstep (Or.inl hc) hz' x (by
    intro i hi t ht
    obtain ⟨j, rfl, hj⟩ := hmem hi
    exact hx j hj t ht)
  have hne' : ∀ i ∈ sampleIdx iters cutoff step, ∀ t < 2,
      |x (i + t + 2) - x (i + t)| ≠ 0 ∧ |x (i + t + 4) - x (i + t + 2)| ≠ 0 := by
    intro i hi t ht
    obtain ⟨j, rfl, hj⟩ := hmem hi
    exact ⟨abs_ne_zero.2 (sub_ne_zero.2 (hne j hj t (by omega))), abs_ne_zero.2 (sub_ne_zero.2 (hne j hj (t + 2) (by omega)))⟩
  obtain ⟨hr1, hr2⟩ := ratios_band hne'
  obtain ⟨hlogp, hlogo⟩ := logOk_samples hfloat (fun i hi => by
    obtain ⟨j, rfl, hj⟩ := hmem hi
    omega) hne'
  have hn6 : 6 ≤ n := by
    have := sampleIdx_len (iters := iters) (cutoff := cutoff) (step := step) (by omega) h6
    rwa [sampleIdx, List.length_map, List.length_range] at this
  have er1 : ratios (deltaPair ((sampleIdx iters cutoff step).map (sixOf x))) = (List.range n).map (f 0) := by
    rw [hr1, sampleIdx, List.map_map]
    rfl
  have er2 : ratios (deltaOdd ((sampleIdx iters cutoff step).map (sixOf x))) = (List.range n).map (f 1) := by
    rw [hr2, sampleIdx, List.map_map]
    rfl
  have hpos : ∀ t < 2, 0 < m t := by
    intro t ht
    have hnl : (List.range n).map (f t) ≠ [] := by
      intro h0
      have := congrArg List.length h0
      rw [List.length_map, List.length_range, List.length_nil] at this
      omega
    have := mean_pos hnl (by
      intro r hr
      obtain ⟨j, hj, rfl⟩ := List.mem_map.1 hr
      have hi : cutoff + j * step ∈ sampleIdx iters cutoff step := List.mem_map.2 ⟨j, hj, rfl⟩
      obtain ⟨h1, h2⟩ := hne' _ hi t ht
      exact div_pos (lt_of_le_of_ne (abs_nonneg _) h1.symm) (lt_of_le_of_ne (abs_nonneg _) h2.symm))
    rwa [mean_avg] at this
  set dp := deltaPair ((sampleIdx iters cutoff step).map (sixOf x)) with hdp
  set dodd := deltaOdd ((sampleIdx iters cutoff step).map (sixOf x)) with hdodd
  have hm0 := hpos 0 (by decide)
  have hm1 := hpos 1 (by decide)
  have hcl : classify A dp dodd = if relErr A ((List.range n).map (f 0)) > 1 / 2 ∨ relErr A ((List.range n).map (f 1)) > 1 / 2 then
      if ends then classifyMeans A true dp dodd (m 0) (m 1) else .ok (.undefined, none)
      else classifyMeans A false dp dodd (m 0) (m 1) := by
    rw [classify, er1, er2, if_neg (by simp; omega), if_neg (by
      intro h0
      have := congrArg List.length h0
      rw [List.length_map, List.length_range, List.length_nil] at this
      omega), mean_avg, mean_avg, if_neg (by rintro (h | h); exacts [hm0.ne' h, hm1.ne' h]), List.all_append]
    congr 1
    by_cases hE : ends
    · rw [if_pos hE, if_pos (by rw [(lastQuarter_range _ _).2 hE.1, (lastQuarter_range _ _).2 hE.2]; rfl)]
    · rw [if_neg hE, if_neg (by
        rw [Bool.and_eq_true, lastQuarter_range, lastQuarter_range]
        exact hE)]
  have hsc : scattered → relErr A ((List.range n).map (f 0)) > 1 / 2 ∨ relErr A ((List.range n).map (f 1)) > 1 / 2 := by
    rintro (h | h)
    · exact .inl (scattered_relErr hsqrt (by omega) hm0 h)
    · exact .inr (scattered_relErr hsqrt (by omega) hm1 h)
  have hca : calm → ¬ (relErr A ((List.range n).map (f 0)) > 1 / 2 ∨ relErr A ((List.range n).map (f 1)) > 1 / 2) := by
    rintro ⟨h1, h2⟩ (h | h)
    · exact absurd (calm_relErr hsqrt (by omega) hm0 h1) (not_le.2 h)
    · exact absurd (calm_relErr hsqrt (by omega) hm1 h2) (not_le.2 h)
  have hstore : ∀ t ps, t ≠ .fast → classify A dp dodd = .ok (t, ps) → stores t ps := by
    intro t ps ht h
    rw [h] at e
    exact estimate_first e ht (by exact_mod_cast hc.ne')
  have hexp : 11 / 10 < m 0 → 11 / 10 < m 1 → expParams A dp dodd (m 0) (m 1) = .ok (base, coeff) := by
    intro h1 h2
    have hb : 1 < base := lt_min (hroot _ h1) (hroot _ h2)
    have hlt : base ^ (-2 : ℤ) < 1 := zpow_lt_one_of_neg₀ hb (by decide)
    have hinv : base ^ (-2 : ℤ) = (base ^ 2)⁻¹ := by rw [zpow_neg]; rfl
    have hcp : mean (coeffList base dp) = fitCoeff n (fun j => cutoff + j * step) x base := by
      rw [hdp, deltaPair_sixOf]
      exact mean_coeff hb n (fun j => cutoff + j * step) x 0 (fun i => (i : ℤ)) (fun i => (i : ℤ) + 2) (fun i => by simp) (fun i => by simp) hne'
    have hco : mean (coeffList base dodd) = fitCoeff n (fun j => cutoff + j * step + 1) x base := by
      rw [hdodd, deltaOdd_sixOf]
      exact mean_coeff hb n (fun j => cutoff + j * step) x 1 (fun i => (i : ℤ) + 1) (fun i => (i : ℤ) + 3) (fun i => by simp only [Fin.val_one]; push_cast; ring)
        (fun i => by simp only [Fin.val_one]; push_cast; ring) hne'
    rw [expParams]
    change (if base = 0 ∨ 1 - base ^ (-2 : ℤ) = 0 then _ else if coeffList base dp = [] ∨ coeffList base dodd = [] then _ else _) = _
    rw [if_neg (by rintro (h | h) <;> linarith), if_neg (by
      rintro (h | h)
      · exact coeffList_ne_nil base dp (by
          rw [er1]
          intro h0
          have := congrArg List.length h0
          rw [List.length_map, List.length_range, List.length_nil] at this
          omega) h
      · exact coeffList_ne_nil base dodd (by
          rw [er2]
          intro h0
          have := congrArg List.length h0
          rw [List.length_map, List.length_range, List.length_nil] at this
          omega) h), hcp, hco]
  refine ⟨fun hS hE => ?_, fun h0 h1 hC => ?_, fun h0 h1 hS hE => ?_, fun hCE hiff => ?_, fun hCE h0 h1 => ?_⟩
  · apply hstore _ _ (by simp)
    rw [hcl, if_pos (hsc hS), if_neg hE]
  · apply hstore _ _ (by simp)
    rw [hcl, if_neg (hca hC), classifyMeans, decide_eq_true (show m 0 > expThreshold from h0), decide_eq_true (show m 1 > expThreshold from h1)]
    simp only [hexp h0 h1]
    rfl
  · apply hstore _ _ (by simp)
    rw [hcl, if_pos (hsc hS), if_pos hE, classifyMeans, decide_eq_true (show m 0 > expThreshold from h0),
      decide_eq_true (show m 1 > expThreshold from h1)]
    simp only [hexp h0 h1]
    rfl
  · apply hstore _ _ (by simp)
    have key : ∀ sup, classifyMeans A sup dp dodd (m 0) (m 1) = .ok (.mixed, none) := by
      intro sup
      rw [classifyMeans]
      by_cases h0 : 11 / 10 < m 0
      · rw [decide_eq_true (show m 0 > expThreshold from h0), decide_eq_false (show ¬ m 1 > expThreshold from fun h1 => hiff ⟨fun _ => h1, fun _ => h0⟩)]
      · rw [decide_eq_false (show ¬ m 0 > expThreshold from h0), decide_eq_true (show m 1 > expThreshold by
          by_contra h1
          exact hiff ⟨fun h => absurd h h0, fun h => absurd h h1⟩)]
    rw [hcl]
    rcases hCE with hC | ⟨hS, hE⟩
    · rw [if_neg (hca hC), key]
    · rw [if_pos (hsc hS), if_pos hE, key]
  · apply hstore _ _ (by simp)
    have key : ∀ sup, classifyMeans A sup dp dodd (m 0) (m 1) = .ok (.poly, none) := by
      intro sup
      rw [classifyMeans, decide_eq_false (show ¬ m 0 > expThreshold from not_lt.2 h0), decide_eq_false (show ¬ m 1 > expThreshold from not_lt.2 h1)]
      simp only
      rw [polyParams, hlogp, hlogo]
      rfl
    rw [hcl]
    rcases hCE with hC | ⟨hS, hE⟩
    · rw [if_neg (hca hC), key]
    · rw [if_pos (hsc hS), if_pos hE, key]

/-! ### An example -/

/-- A rational number near the square root. -/
theorem exists_sqrt (x : ℚ) : ∃ r : ℚ, (∀ y : ℚ, 0 ≤ y → x ≤ y ^ 2 → r ≤ (1 + 1 / 1000) * y) ∧ ∀ y : ℚ, 0 ≤ y → y ^ 2 < x → y < (1 + 1 / 1000) * r := by
  by_cases hx : 0 < x
  · have hx' : (0 : ℝ) < x := by exact_mod_cast hx
    have hs := Real.sqrt_pos.2 hx'
    obtain ⟨r, h1, h2⟩ := exists_rat_btwn (show √(x : ℝ) < (1 + 1 / 1000) * √(x : ℝ) by linarith)
    refine ⟨r, fun y hy h => ?_, fun y hy h => ?_⟩
    · have : √(x : ℝ) ≤ y := Real.sqrt_le_iff.2 ⟨by exact_mod_cast hy, by exact_mod_cast h⟩
      have : (r : ℝ) ≤ ((1 + 1 / 1000) * y : ℚ) := by push_cast; linarith
      exact_mod_cast this
    · have : (y : ℝ) < √(x : ℝ) := Real.lt_sqrt_of_sq_lt (by exact_mod_cast h)
      have : (y : ℝ) < ((1 + 1 / 1000) * r : ℚ) := by push_cast; linarith
      exact_mod_cast this
  · exact ⟨0, fun y hy _ => by positivity, fun y hy h => absurd (lt_of_le_of_lt (sq_nonneg y) h) hx⟩

/-- Numerical functions meeting the assumptions. -/
noncomputable def nearAnalysis : Analysis where
  sqrt := fun x => (exists_sqrt x).choose
  root := fun x => max 1 x
  toFloat := fun x => x
  effZero := 1 / 10 ^ 50

theorem near_ok : SqrtNear nearAnalysis (1 / 1000) :=
  ⟨by norm_num, fun x => (exists_sqrt x).choose_spec.1, fun x => (exists_sqrt x).choose_spec.2⟩

/-- The convergents of `0 + 1/(1 + 1/(4 + 1/(9 + ...)))`. -/
def squares (n : ℕ) : ℚ := (contP (seqAt [[0, 0, 1]]) (seqAt [[1]]) (n + 1) : ℚ) / contQ (seqAt [[0, 0, 1]]) (seqAt [[1]]) (n + 1)

/-- `0 + 1/(1 + 1/(4 + 1/(9 + ...)))`, sampled at 1, 6, ..., 26: super-exponential. -/
example : ∃ s₀ s', init [[0, 0, 1]] [[1]] true none false = .ok s₀ ∧ estimateApproachObj nearAnalysis (26 : ℕ) (1 : ℕ) (5 : ℕ) s₀ = (s', .ok ()) ∧
    s'.approachType = .superExp := by
  have h := C119_rule (a₀ := [[0, 0, 1]]) (b₀ := [[1]]) (z := true) (l := false) rfl [] nearAnalysis near_ok
    (fun x hx => lt_max_of_lt_right (by linarith)) (fun x hx => hx) 26 1 5 (by decide) (by decide) (by decide)
    (fun _ j _ _ => by rw [show (runOps [] _).params.b = [[1]] from rfl, seqAt_const]; decide) squares
    (fun j hj t ht => ⟨?_, rfl⟩) ?_
  · obtain ⟨s', h1, h2, -⟩ := h.2.2.1 (by decide +kernel) (by decide +kernel) (.inl (by rw [Scattered]; decide +kernel)) (by
      constructor
      · rw [EndsFast]; decide +kernel
      · rw [EndsFast]; decide +kernel)
    exact ⟨_, s', rfl, h1, h2⟩
  · have : ∀ n < 60, contQ (seqAt [[0, 0, 1]]) (seqAt [[1]]) (n + 1) ≠ 0 := by decide +kernel
    exact this _ (by omega)
  · intro j hj t ht
    have : ∀ n < 60, squares (n + 2) ≠ squares n := by decide +kernel
    exact this _ (by omega)

end PiCF.ContFrac
