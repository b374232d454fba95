import Verif.Lemmas.Estimator
import Verif.Props.ContFracConv
import Verif.Props.ContFracEval

/-!
# Properties C87–C90 (`cont_fracs.py`: what the convergence estimator answers)
-/

namespace PiCF.ContFrac
open PiCF.Spec

/-! ## Specification -/

/-- The distance of terms `i`, `i + 2` is between `lo` and `hi` times that of terms `i + 2`, `i + 4`. -/
def Band (x : ℕ → ℚ) (lo hi : ℚ) (i : ℕ) : Prop :=
  x (i + 4) ≠ x (i + 2) ∧ lo * |x (i + 4) - x (i + 2)| ≤ |x (i + 2) - x i| ∧ |x (i + 2) - x i| ≤ hi * |x (i + 4) - x (i + 2)|

theorem Band.ratio {x : ℕ → ℚ} {lo hi : ℚ} {i : ℕ} (h : Band x lo hi i) :
    lo ≤ |x (i + 2) - x i| / |x (i + 4) - x (i + 2)| ∧ |x (i + 2) - x i| / |x (i + 4) - x (i + 2)| ≤ hi := by
  have hpos : 0 < |x (i + 4) - x (i + 2)| := abs_pos.2 (sub_ne_zero.2 h.1)
  rw [le_div_iff₀ hpos, div_le_iff₀ hpos]
  exact h.2

theorem Band.ne {x : ℕ → ℚ} {lo hi : ℚ} {i : ℕ} (h : Band x lo hi i) (hlo : 0 < lo) :
    |x (i + 2) - x i| ≠ 0 ∧ |x (i + 4) - x (i + 2)| ≠ 0 := by
  have hpos : 0 < |x (i + 4) - x (i + 2)| := abs_pos.2 (sub_ne_zero.2 h.1)
  refine ⟨?_, hpos.ne'⟩
  have := h.2.1
  have : 0 < lo * |x (i + 4) - x (i + 2)| := mul_pos hlo hpos
  linarith

/-- The indices the estimator samples. -/
def sampleIdx (iters cutoff step : ℕ) : List ℕ := (List.range ((iters - cutoff) / step + 1)).map fun j => cutoff + j * step

theorem sampleIdx_len {iters cutoff step : ℕ} (hs : 0 < step) (h : cutoff + 5 * step ≤ iters) :
    6 ≤ (sampleIdx iters cutoff step).length := by
  have : 5 ≤ (iters - cutoff) / step := (Nat.le_div_iff_mul_le hs).2 (by omega)
  simp only [sampleIdx, List.length_map, List.length_range]
  omega

theorem mem_sampleIdx {iters cutoff step i : ℕ} (hs : 0 < step) (hc : cutoff ≤ iters) :
    i ∈ sampleIdx iters cutoff step ↔ ∃ j, i = cutoff + j * step ∧ i ≤ iters := by
  simp only [sampleIdx, List.mem_map, List.mem_range]
  constructor
  · rintro ⟨j, hj, rfl⟩
    have := (Nat.le_div_iff_mul_le hs).1 (show j ≤ (iters - cutoff) / step by omega)
    exact ⟨j, rfl, by omega⟩
  · rintro ⟨j, rfl, h⟩
    exact ⟨j, by have := (Nat.le_div_iff_mul_le hs).2 (show j * step ≤ iters - cutoff by omega); omega, rfl⟩

/-- The inner estimator on an object whose sampled convergents all exist. -/
theorem inner_finite {s : CF} {z l : Bool} (hg : Good s z l) (A : Analysis) (iters cutoff step : ℕ) (hstep : 5 ≤ step)
    (hc : 0 < cutoff ∨ l = false) (hz : NoZero z s.params.b 0 (max cutoff iters + 5)) (x : ℕ → ℚ)
    (hx : ∀ i ∈ sampleIdx iters cutoff step, ∀ t < 6, contQ (seqAt s.params.a) (seqAt s.params.b) (i + t + 1) ≠ 0 ∧
      x (i + t) = (contP (seqAt s.params.a) (seqAt s.params.b) (i + t + 1) : ℚ) /
        contQ (seqAt s.params.a) (seqAt s.params.b) (i + t + 1)) :
    ∃ s', innerAlg A iters cutoff step s =
      (s', classify A (deltaPair ((sampleIdx iters cutoff step).map (sixOf x)))
        (deltaOdd ((sampleIdx iters cutoff step).map (sixOf x)))) := by
  obtain ⟨s', e⟩ := estimateSamples_closed hg iters cutoff step hstep hc hz
  refine ⟨s', ?_⟩
  rw [innerAlg, PyM.bind_ok e]
  have : ((List.range ((iters - cutoff) / step + 1)).map fun (j : ℕ) => (((cutoff + j * step : ℕ) : ℤ),
      (List.range 6).map fun t => convVal s.params.a s.params.b (cutoff + j * step + t))) =
      (sampleIdx iters cutoff step).map (sixOf x) := by
    rw [sampleIdx, List.map_map]
    apply List.map_congr_left
    intro j hj
    simp only [Function.comp, sixOf]
    congr 1
    apply List.map_congr_left
    intro t ht
    have hmem : cutoff + j * step ∈ sampleIdx iters cutoff step := List.mem_map.2 ⟨j, hj, rfl⟩
    obtain ⟨h1, h2⟩ := hx _ hmem t (List.mem_range.1 ht)
    rw [convVal, quotient, if_neg h1, h2]
  rw [this, liftE]

/-- If the first answer is not `'fast'` and the cutoff is positive, it is stored. -/
theorem estimate_first {A : Analysis} {iters cutoff step : ℤ} {s s' : CF} {ans : ApproachType × Option (ℚ × ℚ)}
    (h : innerAlg A iters cutoff step s = (s', .ok ans)) (hf : ans.1 ≠ .fast) (hc : cutoff ≠ 0) :
    ∃ s'', estimateApproachObj A iters cutoff step s = (s'', .ok ()) ∧ s''.approachType = ans.1 ∧
      s''.approachParams = ans.2 := by
  have hs := estimateApproachObj_spec A iters cutoff step s
  have h0 : innerOf A s 0 (iters, cutoff, step) = .ok ans := by rw [innerOf, h]
  have : estimateApproach (innerOf A s) iters cutoff step = .ok (ans, 1) := by
    rw [estimateApproach, h0]
    simp only
    rw [estLoop1, dif_neg (by rintro ⟨h1, -⟩; exact hf h1)]
    simp only
    rw [if_neg hc]
  rw [this] at hs
  obtain ⟨lg, ms, n, hs⟩ := hs
  exact ⟨_, hs, rfl, rfl⟩

/-- If the first inner estimation raises, so does the method, and the stored approach stays as it was. -/
theorem estimate_first_error {A : Analysis} {iters cutoff step : ℤ} {s s' : CF} {e : PyErr}
    (h : innerAlg A iters cutoff step s = (s', .error e)) :
    ∃ s'', estimateApproachObj A iters cutoff step s = (s'', .error e) ∧ s''.approachType = s.approachType ∧
      s''.approachParams = s.approachParams := by
  have hs := estimateApproachObj_spec A iters cutoff step s
  have h0 : innerOf A s 0 (iters, cutoff, step) = .error e := by rw [innerOf, h]
  have : estimateApproach (innerOf A s) iters cutoff step = .error e := by
    rw [estimateApproach, h0]
  rw [this] at hs
  obtain ⟨lg, ms, n, hs⟩ := hs
  exact ⟨_, hs, rfl, rfl⟩

/-- Ratios of the sampled sequence. -/
theorem ratios_band {x : ℕ → ℚ} {is : List ℕ} (h : ∀ i ∈ is, ∀ t < 2,
      |x (i + t + 2) - x (i + t)| ≠ 0 ∧ |x (i + t + 4) - x (i + t + 2)| ≠ 0) :
    ratios (deltaPair (is.map (sixOf x))) = is.map (fun i => |x (i + 2) - x i| / |x (i + 4) - x (i + 2)|) ∧
    ratios (deltaOdd (is.map (sixOf x))) = is.map (fun i => |x (i + 1 + 2) - x (i + 1)| / |x (i + 1 + 4) - x (i + 1 + 2)|) := by
  rw [deltaPair_sixOf, deltaOdd_sixOf]
  exact ⟨ratios_flatMap is _ _ _ _ fun i hi => h i hi 0 (by decide), ratios_flatMap is _ _ _ _ fun i hi => h i hi 1 (by decide)⟩

/-- The logarithms of the linear fit exist. -/
theorem logOk_samples {A : Analysis} (hfloat : ∀ x, 0 < x → 0 < A.toFloat x) {x : ℕ → ℚ} {is : List ℕ} (hpos : ∀ i ∈ is, 0 < i)
    (hne : ∀ i ∈ is, ∀ t < 2, |x (i + t + 2) - x (i + t)| ≠ 0 ∧ |x (i + t + 4) - x (i + t + 2)| ≠ 0) :
    (deltaPair (is.map (sixOf x))).all (logOk A) = true ∧ (deltaOdd (is.map (sixOf x))).all (logOk A) = true := by
  constructor
  · rw [deltaPair_sixOf, List.all_eq_true]
    intro d hd
    obtain ⟨i, hi, hd⟩ := List.mem_flatMap.1 hd
    have h0 := hpos i hi
    obtain ⟨n1, n2⟩ := hne i hi 0 (by decide)
    simp only [List.mem_cons, List.not_mem_nil, or_false] at hd
    rcases hd with rfl | rfl
    · simp only [logOk, Bool.and_eq_true, decide_eq_true_eq]
      exact ⟨by omega, hfloat _ (lt_of_le_of_ne (abs_nonneg _) (Ne.symm n1))⟩
    · simp only [logOk, Bool.and_eq_true, decide_eq_true_eq]
      exact ⟨by omega, hfloat _ (lt_of_le_of_ne (abs_nonneg _) (Ne.symm n2))⟩
  · rw [deltaOdd_sixOf, List.all_eq_true]
    intro d hd
    obtain ⟨i, hi, hd⟩ := List.mem_flatMap.1 hd
    have h0 := hpos i hi
    obtain ⟨n1, n2⟩ := hne i hi 1 (by decide)
    simp only [List.mem_cons, List.not_mem_nil, or_false] at hd
    rcases hd with rfl | rfl
    · simp only [logOk, Bool.and_eq_true, decide_eq_true_eq]
      exact ⟨by omega, hfloat _ (lt_of_le_of_ne (abs_nonneg _) (Ne.symm n1))⟩
    · simp only [logOk, Bool.and_eq_true, decide_eq_true_eq]
      exact ⟨by omega, hfloat _ (lt_of_le_of_ne (abs_nonneg _) (Ne.symm n2))⟩

/-! ## C87 -/

/-- The inner estimator on geometric convergence. -/
theorem inner_geometric {a₀ b₀ : Coeffs} {z l : Bool} {s₀ : CF} (hinit : init a₀ b₀ z none l = .ok s₀)
    (ops : List CFOp) (A : Analysis) (hsqrt : SqrtOk A) (hroot : RootOk A) (iters cutoff step : ℕ) (hstep : 5 ≤ step)
    (hc : 0 < cutoff) (h6 : cutoff + 5 * step ≤ iters)
    (hz : z = true → ∀ j, 1 ≤ j → j ≤ iters + 5 → seqAt (runOps ops s₀).params.b j ≠ 0)
    (lo hi : ℚ) (hlo : 11 / 10 < lo) (hhi : hi ≤ 3 / 2 * lo) (x : ℕ → ℚ) :
    let s := runOps ops s₀
    (∀ j, cutoff + j * step ≤ iters → ∀ t < 6, contQ (seqAt s.params.a) (seqAt s.params.b) (cutoff + j * step + t + 1) ≠ 0 ∧
      x (cutoff + j * step + t) = (contP (seqAt s.params.a) (seqAt s.params.b) (cutoff + j * step + t + 1) : ℚ) /
        contQ (seqAt s.params.a) (seqAt s.params.b) (cutoff + j * step + t + 1)) →
    (∀ j, cutoff + j * step ≤ iters → Band x lo hi (cutoff + j * step) ∧ Band x lo hi (cutoff + j * step + 1)) →
    ∃ s' base coeff, innerAlg A iters cutoff step s = (s', .ok (.exp, some (base, coeff))) ∧ A.root lo ≤ base ∧ base ≤ A.root hi ∧ 0 < coeff := by
  intro s hx hb
  have hg : Good s z l := reachable_good hinit ops
  have hz' : NoZero z s.params.b 0 (max cutoff iters + 5) := fun j h1 h2 h3 => hz h3.1 j (by omega) (by omega) h3.2
  have hmem : ∀ {i}, i ∈ sampleIdx iters cutoff step → ∃ j, i = cutoff + j * step ∧ i ≤ iters :=
    fun h => (mem_sampleIdx (by omega) (by omega)).1 h
  obtain ⟨s1, e⟩ := inner_finite hg A iters cutoff step hstep (Or.inl hc) hz' x (by
    intro i hi t ht
    obtain ⟨j, rfl, hj⟩ := hmem hi
    exact hx j hj t ht)
  obtain ⟨hr1, hr2⟩ := ratios_band (x := x) (is := sampleIdx iters cutoff step) (by
    intro i hi t ht
    obtain ⟨j, rfl, hj⟩ := hmem hi
    have h0 : 0 < lo := by linarith
    rcases (by omega : t = 0 ∨ t = 1) with rfl | rfl
    · exact (hb j hj).1.ne h0
    · exact (hb j hj).2.ne h0)
  have hlen := sampleIdx_len (iters := iters) (cutoff := cutoff) (step := step) (by omega) h6
  set dp := deltaPair ((sampleIdx iters cutoff step).map (sixOf x)) with hdp
  set dodd := deltaOdd ((sampleIdx iters cutoff step).map (sixOf x)) with hdodd
  have hbp : ∀ r ∈ ratios dp, lo ≤ r ∧ r ≤ hi := by
    rw [hr1]
    intro r hr
    obtain ⟨i, hi', rfl⟩ := List.mem_map.1 hr
    obtain ⟨j, rfl, hj⟩ := hmem hi'
    exact (hb j hj).1.ratio
  have hbo : ∀ r ∈ ratios dodd, lo ≤ r ∧ r ≤ hi := by
    rw [hr2]
    intro r hr
    obtain ⟨i, hi', rfl⟩ := List.mem_map.1 hr
    obtain ⟨j, rfl, hj⟩ := hmem hi'
    exact (hb j hj).2.ratio
  have hlp : 6 ≤ (ratios dp).length := by rw [hr1, List.length_map]; exact hlen
  have hlo' : 6 ≤ (ratios dodd).length := by rw [hr2, List.length_map]; exact hlen
  have hnp : ratios dp ≠ [] := by intro h; rw [h] at hlp; simp at hlp
  have hno : ratios dodd ≠ [] := by intro h; rw [h] at hlo'; simp at hlo'
  obtain ⟨m1, m2⟩ := mean_bounds hnp hbp
  obtain ⟨m3, m4⟩ := mean_bounds hno hbo
  obtain ⟨coeff, he, hcoeff, -⟩ := expParams_ok hroot.gt_one hnp hno (lt_of_lt_of_le hlo m1) (lt_of_lt_of_le hlo m3)
  have hcl : classify A dp dodd = .ok (.exp, some (min (A.root (mean (ratios dp))) (A.root (mean (ratios dodd))), coeff)) := by
    rw [classify]
    rw [if_neg (by omega), if_neg hno, if_neg (by rintro (h | h) <;> linarith), if_neg (by
      have e1 := relErr_le hsqrt hlp (by linarith) hhi hbp
      have e2 := relErr_le hsqrt hlo' (by linarith) hhi hbo
      rintro (h | h) <;> linarith)]
    rw [classifyMeans, decide_eq_true (show mean (ratios dp) > expThreshold by unfold expThreshold; linarith),
      decide_eq_true (show mean (ratios dodd) > expThreshold by unfold expThreshold; linarith)]
    simp only [he]
    rfl
  rw [hcl] at e
  exact ⟨s1, _, coeff, e, le_min (hroot.mono m1) (hroot.mono m3), (min_le_left _ _).trans (hroot.mono m2), hcoeff⟩

/-- **C87.** Geometric convergence is recognised: take any continued fraction object after any history, at least six
sampling indices (step at least 5), and a band `[lo, hi]` with `1.1 < lo`, `hi ≤ 1.5 lo`.  If at every sampled index the
distances of convergents of equal parity shrink by a factor inside the band, then `estimate_approach_type_and_params`
stores the type `'exp'`, a base between the square roots of `lo` and `hi`, and a positive coefficient. -/
theorem C87_geometric_recognised {a₀ b₀ : Coeffs} {z l : Bool} {s₀ : CF} (hinit : init a₀ b₀ z none l = .ok s₀)
    (ops : List CFOp) (A : Analysis) (hsqrt : SqrtOk A) (hroot : RootOk A) (iters cutoff step : ℕ) (hstep : 5 ≤ step)
    (hc : 0 < cutoff) (h6 : cutoff + 5 * step ≤ iters)
    (hz : z = true → ∀ j, 1 ≤ j → j ≤ iters + 5 → seqAt (runOps ops s₀).params.b j ≠ 0)
    (lo hi : ℚ) (hlo : 11 / 10 < lo) (hhi : hi ≤ 3 / 2 * lo) (x : ℕ → ℚ) :
    let s := runOps ops s₀
    (∀ j, cutoff + j * step ≤ iters → ∀ t < 6, contQ (seqAt s.params.a) (seqAt s.params.b) (cutoff + j * step + t + 1) ≠ 0 ∧
      x (cutoff + j * step + t) = (contP (seqAt s.params.a) (seqAt s.params.b) (cutoff + j * step + t + 1) : ℚ) /
        contQ (seqAt s.params.a) (seqAt s.params.b) (cutoff + j * step + t + 1)) →
    (∀ j, cutoff + j * step ≤ iters → Band x lo hi (cutoff + j * step) ∧ Band x lo hi (cutoff + j * step + 1)) →
    ∃ s' base coeff, estimateApproachObj A iters cutoff step s = (s', .ok ()) ∧ s'.approachType = .exp ∧
      s'.approachParams = some (base, coeff) ∧ A.root lo ≤ base ∧ base ≤ A.root hi ∧ 0 < coeff := by
  intro s hx hb
  obtain ⟨s1, base, coeff, e, h1, h2, h3⟩ := inner_geometric hinit ops A hsqrt hroot iters cutoff step hstep hc h6 hz lo hi hlo
    hhi x hx hb
  obtain ⟨s2, g1, g2, g3⟩ := estimate_first e (by simp) (by exact_mod_cast hc.ne')
  exact ⟨s2, base, coeff, g1, g2, g3, h1, h2, h3⟩

/-- Numerical functions meeting the assumptions: a square root rounded down to an integer (`max` keeps it above 1). -/
def roughAnalysis : Analysis where
  sqrt := fun _ => 0
  root := fun x => max 1 x
  toFloat := fun x => x
  effZero := 1 / 10 ^ 50

theorem rough_ok : SqrtOk roughAnalysis ∧ RootOk roughAnalysis := by
  refine ⟨fun x y hy _ => ?_, ⟨fun x y h => max_le_max le_rfl h, fun x h => ?_⟩⟩
  · show (0 : ℚ) ≤ 2 * y
    linarith
  · exact lt_max_of_lt_right (by linarith)

/-- The inner estimator on slow convergence: the answer is the one of the linear fit. -/
theorem inner_slow {a₀ b₀ : Coeffs} {z l : Bool} {s₀ : CF} (hinit : init a₀ b₀ z none l = .ok s₀)
    (ops : List CFOp) (A : Analysis) (hsqrt : SqrtOk A)
    (iters cutoff step : ℕ) (hstep : 5 ≤ step) (hc : 0 < cutoff) (h6 : cutoff + 5 * step ≤ iters)
    (hz : z = true → ∀ j, 1 ≤ j → j ≤ iters + 5 → seqAt (runOps ops s₀).params.b j ≠ 0)
    (lo hi : ℚ) (hlo : 0 < lo) (hhi : hi ≤ 3 / 2 * lo) (hhi' : hi ≤ 11 / 10) (x : ℕ → ℚ) :
    let s := runOps ops s₀
    (∀ j, cutoff + j * step ≤ iters → ∀ t < 6, contQ (seqAt s.params.a) (seqAt s.params.b) (cutoff + j * step + t + 1) ≠ 0 ∧
      x (cutoff + j * step + t) = (contP (seqAt s.params.a) (seqAt s.params.b) (cutoff + j * step + t + 1) : ℚ) /
        contQ (seqAt s.params.a) (seqAt s.params.b) (cutoff + j * step + t + 1)) →
    (∀ j, cutoff + j * step ≤ iters → Band x lo hi (cutoff + j * step) ∧ Band x lo hi (cutoff + j * step + 1)) →
    (∀ i ∈ sampleIdx iters cutoff step, ∀ t < 2, |x (i + t + 2) - x (i + t)| ≠ 0 ∧ |x (i + t + 4) - x (i + t + 2)| ≠ 0) ∧
    ∃ s', innerAlg A iters cutoff step s = (s', polyParams A (deltaPair ((sampleIdx iters cutoff step).map (sixOf x)))
      (deltaOdd ((sampleIdx iters cutoff step).map (sixOf x)))) := by
  intro s hx hb
  have hg : Good s z l := reachable_good hinit ops
  have hz' : NoZero z s.params.b 0 (max cutoff iters + 5) := fun j h1 h2 h3 => hz h3.1 j (by omega) (by omega) h3.2
  have hmem : ∀ {i}, i ∈ sampleIdx iters cutoff step → ∃ j, i = cutoff + j * step ∧ i ≤ iters :=
    fun h => (mem_sampleIdx (by omega) (by omega)).1 h
  obtain ⟨s1, e⟩ := inner_finite hg A iters cutoff step hstep (Or.inl hc) hz' x (by
    intro i hi t ht
    obtain ⟨j, rfl, hj⟩ := hmem hi
    exact hx j hj t ht)
  have hne : ∀ i ∈ sampleIdx iters cutoff step, ∀ t < 2,
      |x (i + t + 2) - x (i + t)| ≠ 0 ∧ |x (i + t + 4) - x (i + t + 2)| ≠ 0 := by
    intro i hi t ht
    obtain ⟨j, rfl, hj⟩ := hmem hi
    rcases (by omega : t = 0 ∨ t = 1) with rfl | rfl
    · exact (hb j hj).1.ne hlo
    · exact (hb j hj).2.ne hlo
  obtain ⟨hr1, hr2⟩ := ratios_band hne
  have hlen := sampleIdx_len (iters := iters) (cutoff := cutoff) (step := step) (by omega) h6
  set dp := deltaPair ((sampleIdx iters cutoff step).map (sixOf x)) with hdp
  set dodd := deltaOdd ((sampleIdx iters cutoff step).map (sixOf x)) with hdodd
  have hbp : ∀ r ∈ ratios dp, lo ≤ r ∧ r ≤ hi := by
    rw [hr1]
    intro r hr
    obtain ⟨i, hi', rfl⟩ := List.mem_map.1 hr
    obtain ⟨j, rfl, hj⟩ := hmem hi'
    exact (hb j hj).1.ratio
  have hbo : ∀ r ∈ ratios dodd, lo ≤ r ∧ r ≤ hi := by
    rw [hr2]
    intro r hr
    obtain ⟨i, hi', rfl⟩ := List.mem_map.1 hr
    obtain ⟨j, rfl, hj⟩ := hmem hi'
    exact (hb j hj).2.ratio
  have hlp : 6 ≤ (ratios dp).length := by rw [hr1, List.length_map]; exact hlen
  have hlo' : 6 ≤ (ratios dodd).length := by rw [hr2, List.length_map]; exact hlen
  have hnp : ratios dp ≠ [] := by intro h; rw [h] at hlp; simp at hlp
  have hno : ratios dodd ≠ [] := by intro h; rw [h] at hlo'; simp at hlo'
  obtain ⟨m1, m2⟩ := mean_bounds hnp hbp
  obtain ⟨m3, m4⟩ := mean_bounds hno hbo
  have hcl : classify A dp dodd = polyParams A dp dodd := by
    rw [classify]
    rw [if_neg (by omega), if_neg hno, if_neg (by rintro (h | h) <;> linarith), if_neg (by
      have e1 := relErr_le hsqrt hlp hlo hhi hbp
      have e2 := relErr_le hsqrt hlo' hlo hhi hbo
      rintro (h | h) <;> linarith)]
    rw [classifyMeans, decide_eq_false (show ¬ mean (ratios dp) > expThreshold by unfold expThreshold; linarith),
      decide_eq_false (show ¬ mean (ratios dodd) > expThreshold by unfold expThreshold; linarith)]
  rw [hcl] at e
  exact ⟨hne, s1, e⟩

/-- **C87, slow convergence.** If the factors are all at most 1.1 (and within a band `hi ≤ 1.5 lo`), the type is
`'poly2sympoly'`, provided the distances do not vanish as floats. -/
theorem C87_slow_recognised {a₀ b₀ : Coeffs} {z l : Bool} {s₀ : CF} (hinit : init a₀ b₀ z none l = .ok s₀)
    (ops : List CFOp) (A : Analysis) (hsqrt : SqrtOk A) (hfloat : ∀ x, 0 < x → 0 < A.toFloat x)
    (iters cutoff step : ℕ) (hstep : 5 ≤ step) (hc : 0 < cutoff) (h6 : cutoff + 5 * step ≤ iters)
    (hz : z = true → ∀ j, 1 ≤ j → j ≤ iters + 5 → seqAt (runOps ops s₀).params.b j ≠ 0)
    (lo hi : ℚ) (hlo : 0 < lo) (hhi : hi ≤ 3 / 2 * lo) (hhi' : hi ≤ 11 / 10) (x : ℕ → ℚ) :
    let s := runOps ops s₀
    (∀ j, cutoff + j * step ≤ iters → ∀ t < 6, contQ (seqAt s.params.a) (seqAt s.params.b) (cutoff + j * step + t + 1) ≠ 0 ∧
      x (cutoff + j * step + t) = (contP (seqAt s.params.a) (seqAt s.params.b) (cutoff + j * step + t + 1) : ℚ) /
        contQ (seqAt s.params.a) (seqAt s.params.b) (cutoff + j * step + t + 1)) →
    (∀ j, cutoff + j * step ≤ iters → Band x lo hi (cutoff + j * step) ∧ Band x lo hi (cutoff + j * step + 1)) →
    ∃ s', estimateApproachObj A iters cutoff step s = (s', .ok ()) ∧ s'.approachType = .poly := by
  intro s hx hb
  obtain ⟨hne, s1, e⟩ := inner_slow hinit ops A hsqrt iters cutoff step hstep hc h6 hz lo hi hlo hhi hhi' x hx hb
  obtain ⟨hlogp, hlogo⟩ := logOk_samples hfloat (fun i hi => by
    obtain ⟨j, rfl, hj⟩ := (mem_sampleIdx (by omega) (by omega)).1 hi
    omega) hne
  rw [polyParams, hlogp, hlogo] at e
  obtain ⟨s2, h1, h2, -⟩ := estimate_first e (by simp) (by exact_mod_cast hc.ne')
  exact ⟨s2, h1, h2⟩

/-! ### Two concrete continued fractions -/

theorem seqAt_const (c : ℤ) (n : ℕ) : seqAt [[c]] n = c := by simp [seqAt, horner, Nat.mod_one]

/-- `3 - 2/(3 - 2/(3 - …))`: the convergents are `(2^(n+2) - 1) / (2^(n+1) - 1)`. -/
theorem three_conv (n : ℕ) : contP (seqAt [[3]]) (seqAt [[-2]]) n = 2 ^ (n + 1) - 1 ∧
    contQ (seqAt [[3]]) (seqAt [[-2]]) n = 2 ^ n - 1 := by
  induction n using Nat.strong_induction_on with
  | _ n ih =>
    match n with
    | 0 => simp [contP, contQ]
    | 1 => simp [contP, contQ, seqAt_const]
    | n + 2 =>
      obtain ⟨h1, h2⟩ := ih n (by omega)
      obtain ⟨h3, h4⟩ := ih (n + 1) (by omega)
      rw [contP, contQ, h1, h2, h3, h4, seqAt_const, seqAt_const]
      constructor <;> ring

theorem three_band (i : ℕ) (hi : 1 ≤ i) : Band (fun n => ((2 : ℚ) ^ (n + 2) - 1) / (2 ^ (n + 1) - 1)) 4 6 i := by
  have hy : (2 : ℚ) ≤ 2 ^ i := by
    calc (2 : ℚ) = 2 ^ 1 := by norm_num
    _ ≤ 2 ^ i := pow_le_pow_right₀ (by norm_num) hi
  generalize hyd : (2 : ℚ) ^ i = y at hy
  have e0 : ((2 : ℚ) ^ (i + 2) - 1) / (2 ^ (i + 1) - 1) = (4 * y - 1) / (2 * y - 1) := by rw [← hyd]; ring_nf
  have e2 : ((2 : ℚ) ^ (i + 2 + 2) - 1) / (2 ^ (i + 2 + 1) - 1) = (16 * y - 1) / (8 * y - 1) := by rw [← hyd]; ring_nf
  have e4 : ((2 : ℚ) ^ (i + 4 + 2) - 1) / (2 ^ (i + 4 + 1) - 1) = (64 * y - 1) / (32 * y - 1) := by rw [← hyd]; ring_nf
  have p1 : 0 < 2 * y - 1 := by linarith
  have p2 : 0 < 8 * y - 1 := by linarith
  have p3 : 0 < 32 * y - 1 := by linarith
  have n1 := p1.ne'
  have n2 := p2.ne'
  have n3 := p3.ne'
  have d1 : (16 * y - 1) / (8 * y - 1) - (4 * y - 1) / (2 * y - 1) = -(6 * y / ((8 * y - 1) * (2 * y - 1))) := by
    rw [div_sub_div _ _ n2 n1, ← neg_div]; congr 1; ring
  have d2 : (64 * y - 1) / (32 * y - 1) - (16 * y - 1) / (8 * y - 1) = -(24 * y / ((32 * y - 1) * (8 * y - 1))) := by
    rw [div_sub_div _ _ n3 n2, ← neg_div]; congr 1; ring
  have q1 : 0 < 6 * y / ((8 * y - 1) * (2 * y - 1)) := by positivity
  have q2 : 0 < 24 * y / ((32 * y - 1) * (8 * y - 1)) := by positivity
  have key : 6 * y / ((8 * y - 1) * (2 * y - 1)) = (32 * y - 1) / (4 * (2 * y - 1)) * (24 * y / ((32 * y - 1) * (8 * y - 1))) := by
    rw [div_mul_div_comm, div_eq_div_iff (by positivity) (by positivity)]; ring
  unfold Band
  simp only
  rw [e0, e2, e4, d1, d2, abs_neg, abs_neg, abs_of_pos q1, abs_of_pos q2]
  refine ⟨?_, ?_, ?_⟩
  · intro h
    rw [h, sub_self] at d2
    linarith
  · rw [key]
    apply mul_le_mul_of_nonneg_right _ q2.le
    rw [le_div_iff₀ (by linarith)]
    linarith
  · rw [key]
    apply mul_le_mul_of_nonneg_right _ q2.le
    rw [div_le_iff₀ (by linarith)]
    linarith

/-- `2 - 1/(2 - 1/(2 - …))`: the convergents are `1 + 1/(n + 1)`. -/
theorem two_conv (n : ℕ) : contP (seqAt [[2]]) (seqAt [[-1]]) n = n + 1 ∧ contQ (seqAt [[2]]) (seqAt [[-1]]) n = n := by
  induction n using Nat.strong_induction_on with
  | _ n ih =>
    match n with
    | 0 => simp [contP, contQ]
    | 1 => simp [contP, contQ, seqAt_const]
    | n + 2 =>
      obtain ⟨h1, h2⟩ := ih n (by omega)
      obtain ⟨h3, h4⟩ := ih (n + 1) (by omega)
      rw [contP, contQ, h1, h2, h3, h4, seqAt_const, seqAt_const]
      push_cast
      constructor <;> ring

theorem two_band (i : ℕ) (hi : 40 ≤ i) : Band (fun n => ((n : ℚ) + 2) / (n + 1)) 1 (11 / 10) i := by
  have hy : (40 : ℚ) ≤ i := by exact_mod_cast hi
  unfold Band
  push_cast
  generalize (i : ℚ) = y at hy
  have d1 : (y + 2 + 2) / (y + 2 + 1) - (y + 2) / (y + 1) = -(2 / ((y + 3) * (y + 1))) := by
    have : y + 2 + 1 = y + 3 := by ring
    rw [this]
    field_simp; ring
  have d2 : (y + 4 + 2) / (y + 4 + 1) - (y + 2 + 2) / (y + 2 + 1) = -(2 / ((y + 5) * (y + 3))) := by
    have : y + 2 + 1 = y + 3 := by ring
    rw [this]
    have : y + 4 + 1 = y + 5 := by ring
    rw [this]
    field_simp; ring
  have q1 : 0 < 2 / ((y + 3) * (y + 1)) := by positivity
  have q2 : 0 < 2 / ((y + 5) * (y + 3)) := by positivity
  have key : 2 / ((y + 3) * (y + 1)) = (y + 5) / (y + 1) * (2 / ((y + 5) * (y + 3))) := by
    field_simp
  rw [d1, d2, abs_neg, abs_neg, abs_of_pos q1, abs_of_pos q2]
  refine ⟨?_, ?_, ?_⟩
  · intro h
    rw [h, sub_self] at d2
    linarith
  · rw [key]
    apply mul_le_mul_of_nonneg_right _ q2.le
    rw [le_div_iff₀ (by linarith)]
    linarith
  · rw [key]
    apply mul_le_mul_of_nonneg_right _ q2.le
    rw [div_le_iff₀ (by linarith)]
    linarith

/-- The theorem applies with the default arguments of the method. -/
theorem three_exp : ∃ s₀ s' base coeff, init [[3]] [[-2]] true none false = .ok s₀ ∧
    innerAlg roughAnalysis 600 200 50 s₀ = (s', .ok (.exp, some (base, coeff))) ∧ 4 ≤ base ∧ base ≤ 6 ∧ 0 < coeff := by
  obtain ⟨s', base, coeff, h1, h4, h5, h6⟩ := inner_geometric (a₀ := [[3]]) (b₀ := [[-2]]) (z := true)
    (l := false) rfl [] roughAnalysis rough_ok.1 rough_ok.2 600 200 50 (by decide) (by decide) (by decide)
    (fun _ j _ _ => by rw [show (runOps [] _).params.b = [[-2]] from rfl, seqAt_const]; decide) 4 6 (by norm_num)
    (by norm_num) (fun n => ((2 : ℚ) ^ (n + 2) - 1) / (2 ^ (n + 1) - 1))
    (fun j _ t _ => by
      rw [show (runOps [] _).params.b = [[-2]] from rfl, show (runOps [] _).params.a = [[3]] from rfl, (three_conv _).1,
        (three_conv _).2]
      refine ⟨?_, by push_cast; rfl⟩
      have : (2 : ℤ) ≤ 2 ^ (200 + j * 50 + t + 1) := by
        calc (2 : ℤ) = 2 ^ 1 := by norm_num
        _ ≤ _ := pow_le_pow_right₀ (by norm_num) (by omega)
      omega)
    (fun j _ => ⟨three_band _ (by omega), three_band _ (by omega)⟩)
  refine ⟨_, s', base, coeff, rfl, h1, ?_, ?_, h6⟩
  · exact le_trans (by show (4:ℚ) ≤ max 1 4; norm_num) h4
  · exact le_trans h5 (by show max 1 (6:ℚ) ≤ 6; norm_num)

example : ∃ s₀ s' base coeff, init [[3]] [[-2]] true none false = .ok s₀ ∧
    estimateApproachObj roughAnalysis 600 200 50 s₀ = (s', .ok ()) ∧ s'.approachType = .exp ∧
      s'.approachParams = some (base, coeff) ∧ 4 ≤ base ∧ base ≤ 6 := by
  obtain ⟨s₀, s', base, coeff, h0, h1, h2, h3, -⟩ := three_exp
  obtain ⟨s2, h4, h5, h6⟩ := estimate_first h1 (by simp) (by decide)
  exact ⟨s₀, s2, base, coeff, h0, h4, h5, h6, h2, h3⟩

example : ∃ s₀ s', init [[2]] [[-1]] true none false = .ok s₀ ∧
    estimateApproachObj roughAnalysis 600 200 50 s₀ = (s', .ok ()) ∧ s'.approachType = .poly := by
  obtain ⟨s', h1, h2⟩ := C87_slow_recognised (a₀ := [[2]]) (b₀ := [[-1]]) (z := true)
    (l := false) rfl [] roughAnalysis rough_ok.1 (fun _ h => h) 600 200 50 (by decide) (by decide) (by decide)
    (fun _ j _ _ => by rw [show (runOps [] _).params.b = [[-1]] from rfl, seqAt_const]; decide) 1 (11 / 10) (by norm_num)
    (by norm_num) le_rfl (fun n => ((n : ℚ) + 2) / (n + 1))
    (fun j _ t _ => by
      rw [show (runOps [] _).params.b = [[-1]] from rfl, show (runOps [] _).params.a = [[2]] from rfl, (two_conv _).1,
        (two_conv _).2]
      refine ⟨by omega, by push_cast; ring_nf⟩)
    (fun j _ => ⟨two_band _ (by omega), two_band _ (by omega)⟩)
  exact ⟨_, s', rfl, h1, h2⟩

theorem mem_ratios_pair : ∀ (ss : List (ℤ × List Num)) (r : ℚ), r ∈ ratios (deltaPair ss) →
    ∃ s ∈ ss, ∃ u v w : ℚ, s.2.getD 0 .nan = .fin u ∧ s.2.getD 2 .nan = .fin v ∧ s.2.getD 4 .nan = .fin w ∧
      w ≠ v ∧ r = |v - u| / |w - v| := by
  intro ss
  induction ss with
  | nil => intro r h; simp [deltaPair, ratios] at h
  | cons s ss ih =>
    intro r h
    have e : deltaPair (s :: ss) = (s.1, absDiff (s.2.getD 2 .nan) (s.2.getD 0 .nan)) ::
      (s.1 + 2, absDiff (s.2.getD 4 .nan) (s.2.getD 2 .nan)) :: deltaPair ss := rfl
    have hrest : r ∈ ratios (deltaPair ss) → ∃ t ∈ s :: ss, ∃ u v w : ℚ, t.2.getD 0 .nan = .fin u ∧ t.2.getD 2 .nan = .fin v ∧
        t.2.getD 4 .nan = .fin w ∧ w ≠ v ∧ r = |v - u| / |w - v| := fun h' => by
      obtain ⟨s', hs', hh⟩ := ih r h'
      exact ⟨s', List.mem_cons_of_mem _ hs', hh⟩
    rw [e, ratios] at h
    rcases h0 : s.2.getD 0 .nan with u | _ | _ <;> rcases h2 : s.2.getD 2 .nan with v | _ | _ <;>
      rcases h4 : s.2.getD 4 .nan with w | _ | _ <;> simp only [h0, h2, h4, absDiff] at h <;> first
      | exact hrest h
      | skip
    split at h
    · rename_i hn
      rcases List.mem_cons.1 h with rfl | h
      · refine ⟨s, List.mem_cons_self, u, v, w, h0, h2, h4, ?_, rfl⟩
        intro hwv
        rw [hwv] at hn
        simp at hn
      · exact hrest h
    · exact hrest h

theorem mem_ratios_odd : ∀ (ss : List (ℤ × List Num)) (r : ℚ), r ∈ ratios (deltaOdd ss) →
    ∃ s ∈ ss, ∃ u v w : ℚ, s.2.getD 1 .nan = .fin u ∧ s.2.getD 3 .nan = .fin v ∧ s.2.getD 5 .nan = .fin w ∧
      w ≠ v ∧ r = |v - u| / |w - v| := by
  intro ss
  induction ss with
  | nil => intro r h; simp [deltaOdd, ratios] at h
  | cons s ss ih =>
    intro r h
    have e : deltaOdd (s :: ss) = (s.1 + 1, absDiff (s.2.getD 3 .nan) (s.2.getD 1 .nan)) ::
      (s.1 + 3, absDiff (s.2.getD 5 .nan) (s.2.getD 3 .nan)) :: deltaOdd ss := rfl
    have hrest : r ∈ ratios (deltaOdd ss) → ∃ t ∈ s :: ss, ∃ u v w : ℚ, t.2.getD 1 .nan = .fin u ∧ t.2.getD 3 .nan = .fin v ∧
        t.2.getD 5 .nan = .fin w ∧ w ≠ v ∧ r = |v - u| / |w - v| := fun h' => by
      obtain ⟨s', hs', hh⟩ := ih r h'
      exact ⟨s', List.mem_cons_of_mem _ hs', hh⟩
    rw [e, ratios] at h
    rcases h0 : s.2.getD 1 .nan with u | _ | _ <;> rcases h2 : s.2.getD 3 .nan with v | _ | _ <;>
      rcases h4 : s.2.getD 5 .nan with w | _ | _ <;> simp only [h0, h2, h4, absDiff] at h <;> first
      | exact hrest h
      | skip
    split at h
    · rename_i hn
      rcases List.mem_cons.1 h with rfl | h
      · refine ⟨s, List.mem_cons_self, u, v, w, h0, h2, h4, ?_, rfl⟩
        intro hwv
        rw [hwv] at hn
        simp at hn
      · exact hrest h
    · exact hrest h

/-- The ways an answer of the classification can come about. -/
theorem classify_exp_inv {A : Analysis} {dp dodd : List Delta} {t : ApproachType} {ps : Option (ℚ × ℚ)}
    (h : classify A dp dodd = .ok (t, ps)) :
    ((t = .exp ∨ t = .superExp) ∧ ratios dp ≠ [] ∧ ratios dodd ≠ [] ∧ 11 / 10 < mean (ratios dp) ∧
      11 / 10 < mean (ratios dodd) ∧ ∃ q, ps = some q ∧ expParams A dp dodd (mean (ratios dp)) (mean (ratios dodd)) = .ok q) ∨
    ((t ≠ .exp ∧ t ≠ .superExp) ∧ ps = none) := by
  have hmeans : ∀ sup, ratios dp ≠ [] → ratios dodd ≠ [] → classifyMeans A sup dp dodd (mean (ratios dp)) (mean (ratios dodd)) = .ok (t, ps) →
      ((t = .exp ∨ t = .superExp) ∧ ratios dp ≠ [] ∧ ratios dodd ≠ [] ∧ 11 / 10 < mean (ratios dp) ∧
      11 / 10 < mean (ratios dodd) ∧ ∃ q, ps = some q ∧ expParams A dp dodd (mean (ratios dp)) (mean (ratios dodd)) = .ok q) ∨
      ((t ≠ .exp ∧ t ≠ .superExp) ∧ ps = none) := by
    intro sup hp ho h
    rw [classifyMeans] at h
    by_cases h1 : mean (ratios dp) > expThreshold <;> by_cases h2 : mean (ratios dodd) > expThreshold
    · rw [decide_eq_true h1, decide_eq_true h2] at h
      simp only at h
      rcases he : expParams A dp dodd (mean (ratios dp)) (mean (ratios dodd)) with e | q
      · rw [he] at h; simp at h
      · rw [he] at h
        simp only [Except.ok.injEq, Prod.mk.injEq] at h
        left
        refine ⟨?_, hp, ho, h1, h2, q, h.2.symm, rfl⟩
        rw [← h.1]
        cases sup <;> simp
    · rw [decide_eq_true h1, decide_eq_false h2] at h
      simp only [Except.ok.injEq, Prod.mk.injEq] at h
      right
      rw [← h.1, ← h.2]
      simp
    · rw [decide_eq_false h1, decide_eq_true h2] at h
      simp only [Except.ok.injEq, Prod.mk.injEq] at h
      right
      rw [← h.1, ← h.2]
      simp
    · rw [decide_eq_false h1, decide_eq_false h2] at h
      simp only at h
      rw [polyParams] at h
      split at h
      · simp only [Except.ok.injEq, Prod.mk.injEq] at h
        right
        rw [← h.1, ← h.2]
        simp
      · simp at h
  rw [classify] at h
  by_cases h6 : (ratios dp).length < 6
  · rw [if_pos h6] at h
    simp only [Except.ok.injEq, Prod.mk.injEq] at h
    right
    refine ⟨?_, h.2.symm⟩
    rw [← h.1, provisional]
    split <;> simp
  · rw [if_neg h6] at h
    have hp : ratios dp ≠ [] := by intro h0; rw [h0] at h6; simp at h6
    by_cases ho : ratios dodd = []
    · rw [if_pos ho] at h; simp at h
    · rw [if_neg ho] at h
      split at h
      · simp at h
      · split at h
        · split at h
          · exact hmeans true hp ho h
          · simp only [Except.ok.injEq, Prod.mk.injEq] at h
            right
            rw [← h.1, ← h.2]
            simp
        · exact hmeans false hp ho h

/-- **C87, no false positives.** With a sampling step of at least 5, `'exp'` and `'super_exp'` are only answered if
somewhere among the sampled indices the distances of convergents of equal parity do shrink by a factor larger than
1.1, for both parities. -/
theorem C87_no_false_exponential_partial {a₀ b₀ : Coeffs} {z l : Bool} {s₀ : CF} (hinit : init a₀ b₀ z none l = .ok s₀)
    (ops : List CFOp) (A : Analysis) (iters cutoff step : ℕ) (hstep : 5 ≤ step) (hc : 0 < cutoff ∨ l = false)
    (hz : z = true → ∀ j, 1 ≤ j → j ≤ max cutoff iters + 5 → seqAt (runOps ops s₀).params.b j ≠ 0)
    (s' : CF) (t : ApproachType) (ps : Option (ℚ × ℚ)) (ht : t = .exp ∨ t = .superExp) :
    let s := runOps ops s₀
    innerAlg A iters cutoff step s = (s', .ok (t, ps)) →
    ∀ par < 2, ∃ j, ∃ u v w : ℚ,
      let i := cutoff + j * step + par
      let Q := contQ (seqAt s.params.a) (seqAt s.params.b)
      let P := contP (seqAt s.params.a) (seqAt s.params.b)
      i ≤ max cutoff iters + par ∧ Q (i + 1) ≠ 0 ∧ Q (i + 3) ≠ 0 ∧ Q (i + 5) ≠ 0 ∧
      u = (P (i + 1) : ℚ) / Q (i + 1) ∧ v = (P (i + 3) : ℚ) / Q (i + 3) ∧ w = (P (i + 5) : ℚ) / Q (i + 5) ∧
      w ≠ v ∧ 11 / 10 * |w - v| < |v - u| := by
  intro s h par hpar
  have hg : Good s z l := reachable_good hinit ops
  have hz' : NoZero z s.params.b 0 (max cutoff iters + 5) := fun j h1 h2 h3 => hz h3.1 j (by omega) h2 h3.2
  obtain ⟨s1, e⟩ := estimateSamples_closed hg iters cutoff step hstep hc hz'
  rw [innerAlg, PyM.bind_ok e, liftE] at h
  simp only [Prod.mk.injEq] at h
  have hq : ∀ (n : ℕ) (y : ℚ), convVal s.params.a s.params.b n = .fin y →
      contQ (seqAt s.params.a) (seqAt s.params.b) (n + 1) ≠ 0 ∧
      y = (contP (seqAt s.params.a) (seqAt s.params.b) (n + 1) : ℚ) / contQ (seqAt s.params.a) (seqAt s.params.b) (n + 1) := by
    intro n y hy
    rw [convVal, quotient] at hy
    split at hy
    · simp at hy
    · rename_i hn
      simp only [Num.fin.injEq] at hy
      exact ⟨hn, hy.symm⟩
  have hidx : ∀ j < (iters - cutoff) / step + 1, cutoff + j * step ≤ max cutoff iters := by
    intro j hj
    have := (Nat.le_div_iff_mul_le (show 0 < step by omega)).1 (show j ≤ (iters - cutoff) / step by omega)
    omega
  rcases classify_exp_inv h.2 with ⟨-, hp, ho, m1, m2, -⟩ | ⟨⟨h1, h2⟩, -⟩
  · rcases (by omega : par = 0 ∨ par = 1) with rfl | rfl
    · obtain ⟨r, hr, hgt⟩ := exists_gt_of_mean hp m1
      obtain ⟨sm, hsm, u, v, w, g0, g2, g4, hwv, rfl⟩ := mem_ratios_pair _ _ hr
      obtain ⟨j, hj, rfl⟩ := List.mem_map.1 hsm
      rw [List.mem_range] at hj
      have k0 := hq (cutoff + j * step + 0) u g0
      have k2 := hq (cutoff + j * step + 2) v g2
      have k4 := hq (cutoff + j * step + 4) w g4
      refine ⟨j, u, v, w, ?_, k0.1, k2.1, k4.1, k0.2, k2.2, k4.2, hwv, ?_⟩
      · have := hidx j hj; omega
      · rwa [lt_div_iff₀ (abs_pos.2 (sub_ne_zero.2 hwv))] at hgt
    · obtain ⟨r, hr, hgt⟩ := exists_gt_of_mean ho m2
      obtain ⟨sm, hsm, u, v, w, g0, g2, g4, hwv, rfl⟩ := mem_ratios_odd _ _ hr
      obtain ⟨j, hj, rfl⟩ := List.mem_map.1 hsm
      rw [List.mem_range] at hj
      have k0 := hq (cutoff + j * step + 1) u g0
      have k2 := hq (cutoff + j * step + 3) v g2
      have k4 := hq (cutoff + j * step + 5) w g4
      refine ⟨j, u, v, w, ?_, k0.1, k2.1, k4.1, k0.2, k2.2, k4.2, hwv, ?_⟩
      · have := hidx j hj; omega
      · rwa [lt_div_iff₀ (abs_pos.2 (sub_ne_zero.2 hwv))] at hgt
  · rcases ht with ht | ht
    · exact absurd ht h1
    · exact absurd ht h2

/-- **C87, the stored type** (partial: only when the first window is not answered `'fast'`).  If the method stores `'exp'` or
`'super_exp'`, for both parities the distance of convergents shrinks by more than 1.1 at some sampled index.  Missing: the
windows looked at after an answer `'fast'`, whose step drops below 5. -/
theorem C87_no_false_stored_partial {a₀ b₀ : Coeffs} {z l : Bool} {s₀ : CF} (hinit : init a₀ b₀ z none l = .ok s₀)
    (ops : List CFOp) (A : Analysis) (iters cutoff step : ℕ) (hstep : 5 ≤ step) (hc : 0 < cutoff)
    (hz : z = true → ∀ j, 1 ≤ j → j ≤ max cutoff iters + 5 → seqAt (runOps ops s₀).params.b j ≠ 0)
    (hfirst : ∀ s' ps, innerAlg A iters cutoff step (runOps ops s₀) ≠ (s', .ok (.fast, ps)))
    (s' : CF) (ht : s'.approachType = .exp ∨ s'.approachType = .superExp) :
    let s := runOps ops s₀
    estimateApproachObj A iters cutoff step s = (s', .ok ()) →
    ∀ par < 2, ∃ j, ∃ u v w : ℚ,
      let i := cutoff + j * step + par
      let Q := contQ (seqAt s.params.a) (seqAt s.params.b)
      let P := contP (seqAt s.params.a) (seqAt s.params.b)
      i ≤ max cutoff iters + par ∧ Q (i + 1) ≠ 0 ∧ Q (i + 3) ≠ 0 ∧ Q (i + 5) ≠ 0 ∧
      u = (P (i + 1) : ℚ) / Q (i + 1) ∧ v = (P (i + 3) : ℚ) / Q (i + 3) ∧ w = (P (i + 5) : ℚ) / Q (i + 5) ∧
      w ≠ v ∧ 11 / 10 * |w - v| < |v - u| := by
  intro s h
  rcases hin : innerAlg A iters cutoff step s with ⟨s1, e | ⟨t, ps⟩⟩
  · obtain ⟨s2, g, -⟩ := estimate_first_error hin
    rw [g] at h
    simp at h
  · have hf : t ≠ .fast := by rintro rfl; exact hfirst s1 ps hin
    obtain ⟨s2, g, g1, -⟩ := estimate_first hin hf (by exact_mod_cast hc.ne')
    rw [g] at h
    simp only [Prod.mk.injEq, and_true] at h
    subst h
    exact C87_no_false_exponential_partial hinit ops A iters cutoff step hstep (.inl hc) hz s1 t ps (by rwa [g1] at ht) hin

/-- `3 - 2/(3 - …)` is answered `'exp'` in the first window, so the hypotheses of both can be met. -/
example : ∃ s₀ s' ps, init [[3]] [[-2]] true none false = .ok s₀ ∧
    innerAlg roughAnalysis 600 200 50 s₀ = (s', .ok (.exp, ps)) := by
  obtain ⟨s₀, s', base, coeff, h0, h1, -⟩ := three_exp
  exact ⟨s₀, s', _, h0, h1⟩

/-! ### A continued fraction without a limit that is answered `'exp'` -/

theorem seqAt_three (x y w : ℤ) (n : ℕ) : seqAt [[x], [y], [w]] (n + 3) = seqAt [[x], [y], [w]] n := by
  have h : n % 3 = 0 ∨ n % 3 = 1 ∨ n % 3 = 2 := by omega
  rcases h with h | h | h <;> simp [seqAt, h, horner]

/-- The convergents of `2 - 3/(2 - 4/(2 + 3/(2 - …)))` repeat with period 6. -/
theorem cycle_conv (n : ℕ) :
    contP (seqAt [[2]]) (seqAt [[3], [-3], [-4]]) (n + 6) = 36 * contP (seqAt [[2]]) (seqAt [[3], [-3], [-4]]) n ∧
    contQ (seqAt [[2]]) (seqAt [[3], [-3], [-4]]) (n + 6) = 36 * contQ (seqAt [[2]]) (seqAt [[3], [-3], [-4]]) n := by
  induction n using Nat.strong_induction_on with
  | _ n ih =>
    match n with
    | 0 => decide +kernel
    | 1 => decide +kernel
    | n + 2 =>
      obtain ⟨h1, h2⟩ := ih n (by omega)
      obtain ⟨h3, h4⟩ := ih (n + 1) (by omega)
      have hb : seqAt [[3], [-3], [-4]] (n + 6 + 1) = seqAt [[3], [-3], [-4]] (n + 1) := by
        rw [show n + 6 + 1 = n + 1 + 3 + 3 from rfl, seqAt_three, seqAt_three]
      have step : ∀ m, contP (seqAt [[2]]) (seqAt [[3], [-3], [-4]]) (m + 2) =
          2 * contP (seqAt [[2]]) (seqAt [[3], [-3], [-4]]) (m + 1) +
            seqAt [[3], [-3], [-4]] (m + 1) * contP (seqAt [[2]]) (seqAt [[3], [-3], [-4]]) m ∧
          contQ (seqAt [[2]]) (seqAt [[3], [-3], [-4]]) (m + 2) = 2 * contQ (seqAt [[2]]) (seqAt [[3], [-3], [-4]]) (m + 1) +
            seqAt [[3], [-3], [-4]] (m + 1) * contQ (seqAt [[2]]) (seqAt [[3], [-3], [-4]]) m := by
        intro m
        rw [contP, contQ, seqAt_const]
        exact ⟨rfl, rfl⟩
      have s1 := step n
      have s2 := step (n + 6)
      rw [hb, h1, h2, show n + 6 + 1 = n + 1 + 6 from rfl, h3, h4] at s2
      rw [show n + 2 + 6 = n + 6 + 2 from rfl, s2.1, s2.2, s1.1, s1.2]
      constructor <;> ring

/-- What the estimator samples of it with `iters_step=1`. -/
def cycleCheck : Bool :=
  match (estimateSamples 20 2 1 (fresh [[2]] [[3], [-3], [-4]] true false)).2 with
  | .ok sm => decide (6 ≤ (ratios (deltaPair sm)).length) && decide (6 ≤ (ratios (deltaOdd sm)).length) &&
      (ratios (deltaPair sm)).all (fun r => decide (r = 4 / 3)) && (ratios (deltaOdd sm)).all fun r => decide (r = 4)
  | .error _ => false

/-- **C87 is false for steps below 5**, which the guard means to reject but does not.  The convergents of the continued
fraction with `a = 2` and interlaced `b = 3, -3, -4` repeat forever (2, 1/2, undefined, -3/2, 0, undefined), so it has no limit and
their distances never shrink; `estimate_approach_type_and_params(20, 2, 1)` stores `'exp'`, for all numerical functions. -/
theorem C87_small_step_violated (A : Analysis) (hsqrt : SqrtOk A) (hroot : RootOk A) :
    let Q := contQ (seqAt [[2]]) (seqAt [[3], [-3], [-4]])
    let P := contP (seqAt [[2]]) (seqAt [[3], [-3], [-4]])
    (∃ s₀ s', init [[2]] [[3], [-3], [-4]] true none false = .ok s₀ ∧ estimateApproachObj A 20 2 1 s₀ = (s', .ok ()) ∧
      s'.approachType = .exp) ∧
    (∀ n, P (n + 6) = 36 * P n ∧ Q (n + 6) = 36 * Q n) ∧ (P 1, Q 1) = (2, 1) ∧ Q 3 = 0 ∧ P 5 = 0 ∧ Q 5 ≠ 0 ∧
    ∀ i, ¬ (Q (i + 1) ≠ 0 ∧ Q (i + 3) ≠ 0 ∧ Q (i + 5) ≠ 0) := by
  intro Q P
  refine ⟨⟨fresh [[2]] [[3], [-3], [-4]] true false, ?_⟩, cycle_conv, by decide +kernel, by decide +kernel, by decide +kernel,
    by decide +kernel, ?_⟩
  · have hck : cycleCheck = true := by decide +kernel
    rw [cycleCheck] at hck
    rcases he : estimateSamples 20 2 1 (fresh [[2]] [[3], [-3], [-4]] true false) with ⟨s1, e | sm⟩
    · rw [he] at hck
      simp at hck
    · rw [he] at hck
      simp only [Bool.and_eq_true, decide_eq_true_eq, List.all_eq_true] at hck
      obtain ⟨⟨⟨hlp, hlo⟩, h1⟩, h2⟩ := hck
      have hbp : ∀ r ∈ ratios (deltaPair sm), (4 / 3 : ℚ) ≤ r ∧ r ≤ 4 / 3 := fun r hr => by rw [h1 r hr]; exact ⟨le_rfl, le_rfl⟩
      have hbo : ∀ r ∈ ratios (deltaOdd sm), (4 : ℚ) ≤ r ∧ r ≤ 4 := fun r hr => by rw [h2 r hr]; exact ⟨le_rfl, le_rfl⟩
      have hnp : ratios (deltaPair sm) ≠ [] := by intro h; rw [h] at hlp; simp at hlp
      have hno : ratios (deltaOdd sm) ≠ [] := by intro h; rw [h] at hlo; simp at hlo
      obtain ⟨m1, -⟩ := mean_bounds hnp hbp
      obtain ⟨m3, -⟩ := mean_bounds hno hbo
      obtain ⟨coeff, hx, -, -⟩ := expParams_ok hroot.gt_one hnp hno (lt_of_lt_of_le (by norm_num) m1)
        (lt_of_lt_of_le (by norm_num) m3)
      have hcl : ∃ ps, classify A (deltaPair sm) (deltaOdd sm) = .ok (.exp, ps) := by
        refine ⟨some (min (A.root (mean (ratios (deltaPair sm)))) (A.root (mean (ratios (deltaOdd sm)))), coeff), ?_⟩
        rw [classify]
        rw [if_neg (by omega), if_neg hno, if_neg (by rintro (h | h) <;> linarith), if_neg (by
          have e1 := relErr_le hsqrt hlp (by norm_num) (by norm_num) hbp
          have e2 := relErr_le hsqrt hlo (by norm_num) (by norm_num) hbo
          rintro (h | h) <;> linarith)]
        rw [classifyMeans, decide_eq_true (show mean (ratios (deltaPair sm)) > expThreshold by unfold expThreshold; linarith),
          decide_eq_true (show mean (ratios (deltaOdd sm)) > expThreshold by unfold expThreshold; linarith)]
        simp only [hx]
        rfl
      obtain ⟨ps, hcl⟩ := hcl
      have hin : innerAlg A 20 2 1 (fresh [[2]] [[3], [-3], [-4]] true false) = (s1, .ok (.exp, ps)) := by
        rw [innerAlg, PyM.bind_ok he, liftE, hcl]
      obtain ⟨s2, g, g1, -⟩ := estimate_first hin (by simp) (by decide)
      exact ⟨s2, rfl, g, g1⟩
  · have hz : ∀ k, Q (3 * k) = 0 := by
      intro k
      induction k using Nat.strong_induction_on with
      | _ k ih =>
        match k with
        | 0 => decide +kernel
        | 1 => decide +kernel
        | k + 2 =>
          have := (cycle_conv (3 * k)).2
          rw [show 3 * (k + 2) = 3 * k + 6 by ring]
          show contQ _ _ _ = 0
          rw [this]
          have h0 : contQ (seqAt [[2]]) (seqAt [[3], [-3], [-4]]) (3 * k) = 0 := ih k (by omega)
          rw [h0, mul_zero]
    rintro i ⟨h1, h3, h5⟩
    rcases (by omega : i % 3 = 2 ∨ i % 3 = 0 ∨ i % 3 = 1) with h | h | h
    · exact h1 (by rw [show i + 1 = 3 * (i / 3 + 1) by omega]; exact hz _)
    · exact h3 (by rw [show i + 3 = 3 * (i / 3 + 1) by omega]; exact hz _)
    · exact h5 (by rw [show i + 5 = 3 * (i / 3 + 2) by omega]; exact hz _)

/-- Such numerical functions exist. -/
example : ∃ s₀ s', init [[2]] [[3], [-3], [-4]] true none false = .ok s₀ ∧
    estimateApproachObj roughAnalysis 20 2 1 s₀ = (s', .ok ()) ∧ s'.approachType = .exp :=
  (C87_small_step_violated roughAnalysis rough_ok.1 rough_ok.2).1

/-! ## C88 -/

/-- **C88.** Whatever the object and the arguments: after an estimation that returns, the types `'exp'` and `'super_exp'`
come with a base larger than 1 and a positive coefficient, the types other than these and `'poly2sympoly'` without
parameters. -/
theorem C88_exponential_params_usable (A : Analysis) (hroot : ∀ x, 11 / 10 < x → 1 < A.root x) (iters cutoff step : ℤ)
    (s s' : CF) (h : estimateApproachObj A iters cutoff step s = (s', .ok ())) :
    ((s'.approachType = .exp ∨ s'.approachType = .superExp) →
      ∃ base coeff, s'.approachParams = some (base, coeff) ∧ 1 < base ∧ 0 < coeff) ∧
    (s'.approachType = .undefined ∨ s'.approachType = .fast ∨ s'.approachType = .mixed ∨ s'.approachType = .none →
      s'.approachParams = none) := by
  have hs := estimateApproachObj_spec A iters cutoff step s
  have ht := C23_estimation_terminates (innerOf A s) iters cutoff step
  rcases he : estimateApproach (innerOf A s) iters cutoff step with e | ⟨ans, k⟩
  · rw [he] at hs
    obtain ⟨_, _, _, hs⟩ := hs
    rw [hs] at h
    simp at h
  · rw [he] at hs
    obtain ⟨lg, ms, n, hs⟩ := hs
    rw [hs] at h
    simp only [Prod.mk.injEq, and_true] at h
    obtain ⟨-, -, args, hargs⟩ := ht.1 ans k he
    have hcl : ∃ dp dodd, classify A dp dodd = .ok (ans.1, ans.2) := by
      rw [innerOf] at hargs
      rw [innerAlg] at hargs
      rcases hsm : estimateSamples args.1 args.2.1 args.2.2 s with ⟨s1, e | sm⟩
      · rw [PyM.bind_error hsm] at hargs; simp at hargs
      · rw [PyM.bind_ok hsm] at hargs
        exact ⟨_, _, hargs⟩
    obtain ⟨dp, dodd, hcl⟩ := hcl
    subst h
    simp only
    rcases classify_exp_inv hcl with ⟨ht', hp, ho, m1, m2, q, hq, hE⟩ | ⟨⟨h1, h2⟩, hn⟩
    · obtain ⟨coeff, hok, hpos, hgt⟩ := expParams_ok hroot hp ho m1 m2
      rw [hok] at hE
      simp only [Except.ok.injEq] at hE
      refine ⟨fun _ => ⟨_, coeff, by rw [hq, ← hE], hgt, hpos⟩, ?_⟩
      intro hx
      rcases ht' with ht' | ht' <;> rw [ht'] at hx <;> simp at hx
    · refine ⟨?_, fun _ => hn⟩
      rintro (hx | hx)
      · exact absurd hx h1
      · exact absurd hx h2

example : ∃ s₀ s', init [[3]] [[-2]] true none false = .ok s₀ ∧ (∀ x, 11 / 10 < x → 1 < roughAnalysis.root x) ∧
    estimateApproachObj roughAnalysis 600 200 50 s₀ = (s', .ok ()) ∧ s'.approachType = .exp := by
  obtain ⟨s₀, s', base, coeff, h0, h1, -⟩ := three_exp
  obtain ⟨s2, h4, h5, h6⟩ := estimate_first h1 (by simp) (by decide)
  exact ⟨s₀, s2, h0, rough_ok.2.gt_one, h4, h5⟩

theorem coeffList_geometric {ρ E : ℚ} (hρ : 1 < ρ) : ∀ ds : List Delta,
    (∀ d ∈ ds, d.2 = some (|E| * ρ ^ (-d.1) * (1 - ρ ^ (-2 : ℤ)))) → ∀ c ∈ coeffList ρ ds, c = |E| := by
  intro ds
  have hlt : ρ ^ (-2 : ℤ) < 1 := zpow_lt_one_of_neg₀ hρ (by decide)
  have h0 : 0 < ρ := by linarith
  induction ds with
  | nil => intro _ c hc; simp [coeffList] at hc
  | cons d ds ih =>
    intro h c hc
    have ih' := ih fun e he => h e (List.mem_cons_of_mem _ he)
    obtain ⟨i, o⟩ := d
    have ho : o = some (|E| * ρ ^ (-i) * (1 - ρ ^ (-2 : ℤ))) := h (i, o) List.mem_cons_self
    subst ho
    rw [coeffList] at hc
    split at hc
    · rcases List.mem_cons.1 hc with rfl | hc
      · have e : |E| * ρ ^ (-i) * (1 - ρ ^ (-2 : ℤ)) * ρ ^ i / (1 - ρ ^ (-2 : ℤ)) = |E| := by
          rw [div_eq_iff (by linarith), zpow_neg]
          have : ρ ^ i ≠ 0 := zpow_ne_zero _ h0.ne'
          generalize 1 - ρ ^ (-2 : ℤ) = w
          field_simp
        show |(|E| * ρ ^ (-i) * (1 - ρ ^ (-2 : ℤ))) * ρ ^ i / (1 - ρ ^ (-2 : ℤ))| = |E|
        rw [e, abs_abs]
      · exact ih' c hc
    · exact ih' c hc

theorem mean_const {rs : List ℚ} (hne : rs ≠ []) {c : ℚ} (h : ∀ r ∈ rs, r = c) : mean rs = c :=
  let b := mean_bounds (lo := c) (hi := c) hne fun r hr => by rw [h r hr]; exact ⟨le_rfl, le_rfl⟩
  le_antisymm b.2 b.1

/-- **C88, exactness.** If the sampled results are exactly `L + C ρ^(-n)` (with a constant `D` instead of `C` for the
other parity), the estimator answers `'exp'` with exactly the base `ρ` and the coefficient `min |C| |D|`.  `root` has
to be exact at `ρ²`. -/
theorem C88_geometric_params_exact (A : Analysis) (hsqrt : SqrtOk A) (x : ℕ → ℚ) (is : List ℕ) (h6 : 6 ≤ is.length) (L C D ρ : ℚ) (hρ : 0 < ρ) (hρ2 : 11 / 10 < ρ ^ 2)
    (hsq : A.root (ρ ^ 2) = ρ) (hC : C ≠ 0) (hD : D ≠ 0)
    (hx : ∀ i ∈ is, ∀ t < 6, x (i + t) = L + (if t % 2 = 0 then C else D) * ρ ^ (-((i + t : ℕ) : ℤ))) :
    classify A (deltaPair (is.map (sixOf x))) (deltaOdd (is.map (sixOf x))) = .ok (.exp, some (ρ, min |C| |D|)) := by
  have hρ1 : 1 < ρ := by nlinarith
  have hlt : ρ ^ (-2 : ℤ) < 1 := zpow_lt_one_of_neg₀ hρ1 (by decide)
  have hd : ∀ i ∈ is, ∀ t < 4, |x (i + t + 2) - x (i + t)| =
      |if t % 2 = 0 then C else D| * ρ ^ (-((i + t : ℕ) : ℤ)) * (1 - ρ ^ (-2 : ℤ)) := by
    intro i hi t ht
    have e1 := hx i hi t (by omega)
    have e2 := hx i hi (t + 2) (by omega)
    rw [← Nat.add_assoc, show (t + 2) % 2 = t % 2 by omega] at e2
    rw [e1, e2]
    have e3 : ρ ^ (-((i + t + 2 : ℕ) : ℤ)) = ρ ^ (-((i + t : ℕ) : ℤ)) * ρ ^ (-2 : ℤ) := by
      rw [← zpow_add₀ hρ.ne']; congr 1; push_cast; ring
    rw [e3]
    generalize (if t % 2 = 0 then C else D) = E
    rw [show L + E * (ρ ^ (-((i + t : ℕ) : ℤ)) * ρ ^ (-2 : ℤ)) - (L + E * ρ ^ (-((i + t : ℕ) : ℤ))) =
      -(E * ρ ^ (-((i + t : ℕ) : ℤ)) * (1 - ρ ^ (-2 : ℤ))) by ring, abs_neg, abs_mul, abs_mul,
      abs_of_pos (by linarith : 0 < 1 - ρ ^ (-2 : ℤ)), abs_of_pos (zpow_pos hρ _)]
  have hE : ∀ t, (if t % 2 = 0 then C else D) ≠ 0 := fun t => by split <;> assumption
  have hne : ∀ i ∈ is, ∀ t < 2, |x (i + t + 2) - x (i + t)| ≠ 0 ∧ |x (i + t + 4) - x (i + t + 2)| ≠ 0 := by
    intro i hi t ht
    have k1 : ∀ u < 4, |x (i + u + 2) - x (i + u)| ≠ 0 := by
      intro u hu
      rw [hd i hi u hu]
      exact mul_ne_zero (mul_ne_zero (abs_ne_zero.2 (hE u)) (zpow_ne_zero _ hρ.ne')) (by linarith)
    exact ⟨k1 t (by omega), k1 (t + 2) (by omega)⟩
  have hratio : ∀ i ∈ is, ∀ t < 2, |x (i + t + 2) - x (i + t)| / |x (i + t + 4) - x (i + t + 2)| = ρ ^ 2 := by
    intro i hi t ht
    have n2 := (hne i hi t ht).2
    rw [div_eq_iff n2]
    have k2 : |x (i + t + 4) - x (i + t + 2)| = |x (i + (t + 2) + 2) - x (i + (t + 2))| := rfl
    rw [k2, hd i hi t (by omega), hd i hi (t + 2) (by omega), show (t + 2) % 2 = t % 2 by omega]
    have e3 : ρ ^ (-((i + t : ℕ) : ℤ)) = ρ ^ 2 * ρ ^ (-((i + (t + 2) : ℕ) : ℤ)) := by
      rw [← zpow_natCast, ← zpow_add₀ hρ.ne']; congr 1; push_cast; ring
    rw [e3]
    ring
  obtain ⟨hr1, hr2⟩ := ratios_band hne
  have hbp : ∀ r ∈ ratios (deltaPair (is.map (sixOf x))), r = ρ ^ 2 := by
    rw [hr1]
    intro r hr
    obtain ⟨i, hi, rfl⟩ := List.mem_map.1 hr
    exact hratio i hi 0 (by decide)
  have hbo : ∀ r ∈ ratios (deltaOdd (is.map (sixOf x))), r = ρ ^ 2 := by
    rw [hr2]
    intro r hr
    obtain ⟨i, hi, rfl⟩ := List.mem_map.1 hr
    exact hratio i hi 1 (by decide)
  have hlp : 6 ≤ (ratios (deltaPair (is.map (sixOf x)))).length := by rw [hr1, List.length_map]; exact h6
  have hlo' : 6 ≤ (ratios (deltaOdd (is.map (sixOf x)))).length := by rw [hr2, List.length_map]; exact h6
  have hcp : ∀ c ∈ coeffList ρ (deltaPair (is.map (sixOf x))), c = |C| := by
    apply coeffList_geometric hρ1
    rw [deltaPair_sixOf]
    intro d hd'
    obtain ⟨i, hi, hd'⟩ := List.mem_flatMap.1 hd'
    simp only [List.mem_cons, List.not_mem_nil, or_false] at hd'
    rcases hd' with rfl | rfl
    · exact congrArg some (hd i hi 0 (by decide))
    · have := hd i hi 2 (by decide)
      exact congrArg some this
  have hco : ∀ c ∈ coeffList ρ (deltaOdd (is.map (sixOf x))), c = |D| := by
    apply coeffList_geometric hρ1
    rw [deltaOdd_sixOf]
    intro d hd'
    obtain ⟨i, hi, hd'⟩ := List.mem_flatMap.1 hd'
    simp only [List.mem_cons, List.not_mem_nil, or_false] at hd'
    rcases hd' with rfl | rfl
    · exact congrArg some (hd i hi 1 (by decide))
    · exact congrArg some (hd i hi 3 (by decide))
  generalize deltaPair (is.map (sixOf x)) = dp at *
  generalize deltaOdd (is.map (sixOf x)) = dodd at *
  have hnp : ratios dp ≠ [] := by intro h; rw [h] at hlp; simp at hlp
  have hno : ratios dodd ≠ [] := by intro h; rw [h] at hlo'; simp at hlo'
  have mp := mean_const hnp hbp
  have mo := mean_const hno hbo
  rw [classify, if_neg (by omega), if_neg hno, if_neg (by rw [mp, mo]; rintro (h | h) <;> linarith), if_neg (by
      have e1 := relErr_le hsqrt hlp (lo := ρ ^ 2) (hi := ρ ^ 2) (by positivity) (by linarith) (fun r hr => by rw [hbp r hr]; exact ⟨le_rfl, le_rfl⟩)
      have e2 := relErr_le hsqrt hlo' (lo := ρ ^ 2) (hi := ρ ^ 2) (by positivity) (by linarith) (fun r hr => by rw [hbo r hr]; exact ⟨le_rfl, le_rfl⟩)
      rintro (h | h) <;> linarith), mp, mo,
    classifyMeans, decide_eq_true (show ρ ^ 2 > expThreshold by unfold expThreshold; linarith)]
  simp only
  rw [expParams, hsq]
  simp only [min_self]
  rw [if_neg (by rintro (h | h) <;> linarith), if_neg (by
      rintro (h | h)
      · exact coeffList_ne_nil ρ dp hnp h
      · exact coeffList_ne_nil ρ dodd hno h),
    mean_const (coeffList_ne_nil ρ dp hnp) hcp, mean_const (coeffList_ne_nil ρ dodd hno) hco]
  rfl

/-- With base 2, and numbers `1/2^n` for even, `3/2^n` for odd `n`. -/
example : ∃ (A : Analysis) (x : ℕ → ℚ), SqrtOk A ∧ A.root (2 ^ 2) = 2 ∧
    ∀ i ∈ (List.range 6).map (fun j => 2 * j), ∀ t < 6, x (i + t) = 0 + (if t % 2 = 0 then 1 else 3) * 2 ^ (-((i + t : ℕ) : ℤ)) := by
  refine ⟨⟨fun _ => 0, fun _ => 2, fun x => x, 1⟩, fun n => (if n % 2 = 0 then 1 else 3) * 2 ^ (-(n : ℤ)), fun x y hy _ => ?_, rfl, ?_⟩
  · show (0 : ℚ) ≤ 2 * y
    linarith
  · intro i hi t ht
    obtain ⟨j, -, rfl⟩ := List.mem_map.1 hi
    simp only [zero_add]
    rw [show (2 * j + t) % 2 = t % 2 by omega]

/-! ## C89 -/

/-- `1 - 1/(1 - 1/(1 - …))` repeats with period 3. -/
theorem one_conv (n : ℕ) : convVal [[1]] [[-1]] (n + 3) = convVal [[1]] [[-1]] n := by
  have hP : contP (seqAt [[1]]) (seqAt [[-1]]) (n + 4) = -contP (seqAt [[1]]) (seqAt [[-1]]) (n + 1) := by
    rw [contP, contP, seqAt_const, seqAt_const, seqAt_const, seqAt_const]; ring
  have hQ : contQ (seqAt [[1]]) (seqAt [[-1]]) (n + 4) = -contQ (seqAt [[1]]) (seqAt [[-1]]) (n + 1) := by
    rw [contQ, contQ, seqAt_const, seqAt_const, seqAt_const, seqAt_const]; ring
  rw [convVal, convVal, hP, hQ, quotient, quotient]
  by_cases h : contQ (seqAt [[1]]) (seqAt [[-1]]) (n + 1) = 0
  · rw [if_pos h, if_pos (by omega)]
  · rw [if_neg h, if_neg (by omega)]
    push_cast
    rw [neg_div_neg_eq]

theorem one_conv' (n : ℕ) : convVal [[1]] [[-1]] n = [Num.fin 1, .fin 0, .nan].getD (n % 3) .nan := by
  induction n using Nat.strong_induction_on with
  | _ n ih =>
    match n with
    | 0 => decide +kernel
    | 1 => decide +kernel
    | 2 => decide +kernel
    | n + 3 => rw [one_conv, ih n (by omega)]; simp

/-- The samples taken with the default arguments. -/
def oneSamples : List (ℤ × List Num) := (List.range ((600 - 200) / 50 + 1)).map fun (j : ℕ) => (((200 + j * 50 : ℕ) : ℤ),
  (List.range 6).map fun t => [Num.fin 1, .fin 0, .nan].getD ((200 + j * 50 + t) % 3) .nan)

theorem diminishes_nan (z : ℚ) (ds : List Delta) (h : (ds.drop (ds.length - 3)).any (fun d => d.2.isNone) = true) :
    diminishes z ds = false := by
  rw [diminishes, Bool.and_eq_false_iff]
  right
  rw [List.any_eq_true] at h
  obtain ⟨d, hd, hn⟩ := h
  rw [List.all_eq_false]
  refine ⟨d, hd, ?_⟩
  rw [Option.isNone_iff_eq_none.1 hn]
  simp

theorem one_class (A : Analysis) : classify A (deltaPair oneSamples) (deltaOdd oneSamples) = .ok (.none, none) := by
  have h1 : (ratios (deltaPair oneSamples)).length < 6 := by decide +kernel
  have h2 : ((deltaPair oneSamples).drop ((deltaPair oneSamples).length - 3)).any (fun d => d.2.isNone) = true := by
    decide +kernel
  have h3 : ((deltaOdd oneSamples).drop ((deltaOdd oneSamples).length - 3)).any (fun d => d.2.isNone) = true := by
    decide +kernel
  generalize deltaPair oneSamples = dp at *
  generalize deltaOdd oneSamples = dodd at *
  rw [classify, if_pos h1, provisional, diminishes_nan _ _ h2, diminishes_nan _ _ h3]

/-- **C89 (violated).** On `1 - 1/(1 - 1/(1 - …))`, with the default arguments, the estimator stores the type `None`, which
is not among the documented ones. -/
theorem C89_documented_none_violated (A : Analysis) :
    ∃ s₀ s', init [[1]] [[-1]] true none false = .ok s₀ ∧ estimateApproachObj A 600 200 50 s₀ = (s', .ok ()) ∧
      s'.approachType = .none := by
  obtain ⟨s1, e⟩ := estimateSamples_closed (fresh_good (a := [[1]]) (b := [[-1]]) ⟨⟨1, [], [], rfl⟩, by simp⟩ true false) 600 200 50 (by decide)
    (Or.inr rfl) (fun j _ _ h => by
      rw [show (fresh [[1]] [[-1]] true false).params.b = [[-1]] from rfl, seqAt_const] at h
      exact absurd h.2 (by decide))
  rw [show (fresh [[1]] [[-1]] true false).params.b = [[-1]] from rfl,
    show (fresh [[1]] [[-1]] true false).params.a = [[1]] from rfl] at e
  simp only [one_conv'] at e
  have e' : estimateSamples 600 200 50 (fresh [[1]] [[-1]] true false) = (s1, .ok oneSamples) := e
  have hin : innerAlg A 600 200 50 (fresh [[1]] [[-1]] true false) = (s1, .ok (.none, none)) := by
    rw [innerAlg, PyM.bind_ok e', liftE, one_class]
  obtain ⟨s2, h1, h2, -⟩ := estimate_first hin (by simp) (by decide)
  exact ⟨_, s2, rfl, h1, h2⟩

/-- `1 + 1/(0 + 1/(1 + 1/(0 + …)))`: every other denominator vanishes. -/
theorem alt_conv (k : ℕ) : (contP (seqAt [[1], [0]]) (seqAt [[1]]) (2 * k + 1) = k + 1 ∧ contQ (seqAt [[1], [0]]) (seqAt [[1]]) (2 * k + 1) = 1) ∧
    (contP (seqAt [[1], [0]]) (seqAt [[1]]) (2 * k) = 1 ∧ contQ (seqAt [[1], [0]]) (seqAt [[1]]) (2 * k) = 0) := by
  induction k with
  | zero => simp [contP, contQ, seqAt, horner]
  | succ k ih =>
    obtain ⟨⟨h1, h2⟩, h3, h4⟩ := ih
    have a1 : seqAt [[1], [0]] (2 * k + 1) = 0 := by
      simp [seqAt, horner, show (2 * k + 1) % 2 = 1 by omega]
    have a2 : seqAt [[1], [0]] (2 * k + 1 + 1) = 1 := by
      simp [seqAt, horner, show (2 * k + 1 + 1) % 2 = 0 by omega]
    have e3 : contP (seqAt [[1], [0]]) (seqAt [[1]]) (2 * (k + 1)) = 1 := by
      rw [show 2 * (k + 1) = 2 * k + 2 by ring, contP, a1, h3, seqAt_const]; ring
    have e4 : contQ (seqAt [[1], [0]]) (seqAt [[1]]) (2 * (k + 1)) = 0 := by
      rw [show 2 * (k + 1) = 2 * k + 2 by ring, contQ, a1, h4, seqAt_const]; ring
    refine ⟨⟨?_, ?_⟩, e3, e4⟩
    · rw [show 2 * (k + 1) + 1 = 2 * k + 1 + 2 by ring, contP, show 2 * k + 1 + 1 = 2 * (k + 1) by ring, e3, h1, seqAt_const,
        show 2 * (k + 1) = 2 * k + 1 + 1 by ring, a2]
      push_cast; ring
    · rw [show 2 * (k + 1) + 1 = 2 * k + 1 + 2 by ring, contQ, show 2 * k + 1 + 1 = 2 * (k + 1) by ring, e4, h2, seqAt_const]
      ring

theorem alt_conv' (n : ℕ) : convVal [[1], [0]] [[1]] n = if n % 2 = 0 then .fin (n / 2 + 1) else .nan := by
  rcases Nat.even_or_odd' n with ⟨k, rfl | rfl⟩
  · rw [convVal, (alt_conv k).1.1, (alt_conv k).1.2, if_pos (by omega), quotient, if_neg (by decide)]
    push_cast
    congr 1
    ring
  · rw [convVal, show 2 * k + 1 + 1 = 2 * (k + 1) by ring, (alt_conv (k + 1)).2.2, if_neg (by omega), quotient, if_pos rfl]

/-- The samples taken with the default arguments. -/
def altSamples : List (ℤ × List Num) := (List.range ((600 - 200) / 50 + 1)).map fun (j : ℕ) => (((200 + j * 50 : ℕ) : ℤ),
  (List.range 6).map fun t => if (200 + j * 50 + t) % 2 = 0 then Num.fin (((200 + j * 50 + t : ℕ) : ℚ) / 2 + 1) else .nan)

theorem alt_class (A : Analysis) : classify A (deltaPair altSamples) (deltaOdd altSamples) = .error .zeroDivision := by
  have h1 : ¬ (ratios (deltaPair altSamples)).length < 6 := by decide +kernel
  have h2 : ratios (deltaOdd altSamples) = [] := by decide +kernel
  generalize deltaPair altSamples = dp at *
  generalize deltaOdd altSamples = dodd at *
  rw [classify, if_neg h1, if_pos h2]

/-- **C89 (violated).** On `1 + 1/(0 + 1/(1 + 1/(0 + …)))`, where every other convergent does not exist, the estimation with
the default arguments raises ZeroDivisionError (it takes the mean of an empty list). -/
theorem C89_documented_raises_violated (A : Analysis) :
    ∃ s₀ s', init [[1], [0]] [[1]] true none false = .ok s₀ ∧ estimateApproachObj A 600 200 50 s₀ = (s', .error .zeroDivision) := by
  obtain ⟨s1, e⟩ := estimateSamples_closed (fresh_good (a := [[1], [0]]) (b := [[1]]) ⟨⟨1, [], [[0]], rfl⟩, by simp⟩ true false) 600 200 50 (by decide)
    (Or.inr rfl) (fun j _ _ h => by
      rw [show (fresh [[1], [0]] [[1]] true false).params.b = [[1]] from rfl, seqAt_const] at h
      exact absurd h.2 (by decide))
  rw [show (fresh [[1], [0]] [[1]] true false).params.b = [[1]] from rfl,
    show (fresh [[1], [0]] [[1]] true false).params.a = [[1], [0]] from rfl] at e
  simp only [alt_conv'] at e
  have e' : estimateSamples 600 200 50 (fresh [[1], [0]] [[1]] true false) = (s1, .ok altSamples) := e
  have hin : innerAlg A 600 200 50 (fresh [[1], [0]] [[1]] true false) = (s1, .error .zeroDivision) := by
    rw [innerAlg, PyM.bind_ok e', liftE, alt_class]
  obtain ⟨s2, h1, -⟩ := estimate_first_error hin
  exact ⟨_, s2, rfl, h1⟩

/-- **C89 (partial).** If there are at least six sampling indices (step at least 5, positive cutoff), all sampled convergents
exist, those two apart differ, and their distances do not vanish as floats, then the estimation returns and stores one of
the documented types.
Missing with respect to C89: convergents that do not exist or coincide (`C89_documented_none_violated`,
`C89_documented_raises_violated`), small steps, which the method itself uses after an answer `'fast'`. -/
theorem C89_documented_partial {a₀ b₀ : Coeffs} {z l : Bool} {s₀ : CF} (hinit : init a₀ b₀ z none l = .ok s₀)
    (ops : List CFOp) (A : Analysis) (hroot : ∀ x, 11 / 10 < x → 1 < A.root x) (hfloat : ∀ x, 0 < x → 0 < A.toFloat x)
    (iters cutoff step : ℕ) (hstep : 5 ≤ step) (hc : 0 < cutoff) (h6 : cutoff + 5 * step ≤ iters)
    (hz : z = true → ∀ j, 1 ≤ j → j ≤ iters + 5 → seqAt (runOps ops s₀).params.b j ≠ 0) (x : ℕ → ℚ) :
    let s := runOps ops s₀
    (∀ j, cutoff + j * step ≤ iters → ∀ t < 6, contQ (seqAt s.params.a) (seqAt s.params.b) (cutoff + j * step + t + 1) ≠ 0 ∧
      x (cutoff + j * step + t) = (contP (seqAt s.params.a) (seqAt s.params.b) (cutoff + j * step + t + 1) : ℚ) /
        contQ (seqAt s.params.a) (seqAt s.params.b) (cutoff + j * step + t + 1)) →
    (∀ j, cutoff + j * step ≤ iters → ∀ t < 4, x (cutoff + j * step + t + 2) ≠ x (cutoff + j * step + t)) →
    ∃ s', estimateApproachObj A iters cutoff step s = (s', .ok ()) ∧
      s'.approachType ∈ [ApproachType.exp, .superExp, .poly, .undefined, .mixed] := by
  intro s hx hb
  have hg : Good s z l := reachable_good hinit ops
  have hz' : NoZero z s.params.b 0 (max cutoff iters + 5) := fun j h1 h2 h3 => hz h3.1 j (by omega) (by omega) h3.2
  have hmem : ∀ {i}, i ∈ sampleIdx iters cutoff step → ∃ j, i = cutoff + j * step ∧ i ≤ iters :=
    fun h => (mem_sampleIdx (by omega) (by omega)).1 h
  obtain ⟨s1, e⟩ := inner_finite hg A iters cutoff step hstep (Or.inl hc) hz' x (by
    intro i hi t ht
    obtain ⟨j, rfl, hj⟩ := hmem hi
    exact hx j hj t ht)
  have hne : ∀ i ∈ sampleIdx iters cutoff step, ∀ t < 2,
      |x (i + t + 2) - x (i + t)| ≠ 0 ∧ |x (i + t + 4) - x (i + t + 2)| ≠ 0 := by
    intro i hi t ht
    obtain ⟨j, rfl, hj⟩ := hmem hi
    exact ⟨abs_ne_zero.2 (sub_ne_zero.2 (hb j hj t (by omega))), abs_ne_zero.2 (sub_ne_zero.2 (hb j hj (t + 2) (by omega)))⟩
  obtain ⟨hr1, hr2⟩ := ratios_band hne
  have hlen := sampleIdx_len (iters := iters) (cutoff := cutoff) (step := step) (by omega) h6
  have hpos : ∀ i ∈ sampleIdx iters cutoff step, 0 < i := by
    intro i hi
    obtain ⟨j, rfl, hj⟩ := hmem hi
    omega
  obtain ⟨hlogp, hlogo⟩ := logOk_samples hfloat hpos hne
  have hpp : ∀ r ∈ ratios (deltaPair ((sampleIdx iters cutoff step).map (sixOf x))), 0 < r := by
    rw [hr1]
    intro r hr
    obtain ⟨i, hi', rfl⟩ := List.mem_map.1 hr
    obtain ⟨n1, n2⟩ := hne i hi' 0 (by decide)
    exact div_pos (lt_of_le_of_ne (abs_nonneg _) (Ne.symm n1)) (lt_of_le_of_ne (abs_nonneg _) (Ne.symm n2))
  have hpo : ∀ r ∈ ratios (deltaOdd ((sampleIdx iters cutoff step).map (sixOf x))), 0 < r := by
    rw [hr2]
    intro r hr
    obtain ⟨i, hi', rfl⟩ := List.mem_map.1 hr
    obtain ⟨n1, n2⟩ := hne i hi' 1 (by decide)
    exact div_pos (lt_of_le_of_ne (abs_nonneg _) (Ne.symm n1)) (lt_of_le_of_ne (abs_nonneg _) (Ne.symm n2))
  have hlp : 6 ≤ (ratios (deltaPair ((sampleIdx iters cutoff step).map (sixOf x)))).length := by rw [hr1, List.length_map]; exact hlen
  have hlo' : 6 ≤ (ratios (deltaOdd ((sampleIdx iters cutoff step).map (sixOf x)))).length := by rw [hr2, List.length_map]; exact hlen
  clear hr1 hr2
  generalize deltaPair ((sampleIdx iters cutoff step).map (sixOf x)) = dp at *
  generalize deltaOdd ((sampleIdx iters cutoff step).map (sixOf x)) = dodd at *
  have hnp : ratios dp ≠ [] := by intro h; rw [h] at hlp; simp at hlp
  have hno : ratios dodd ≠ [] := by intro h; rw [h] at hlo'; simp at hlo'
  have mp := mean_pos hnp hpp
  have mo := mean_pos hno hpo
  have hm : ∀ sup, ∃ t ps, classifyMeans A sup dp dodd (mean (ratios dp)) (mean (ratios dodd)) = .ok (t, ps) ∧
      t ∈ [ApproachType.exp, .superExp, .poly, .undefined, .mixed] := by
    intro sup
    rw [classifyMeans]
    by_cases h1 : mean (ratios dp) > expThreshold <;> by_cases h2 : mean (ratios dodd) > expThreshold
    · rw [decide_eq_true h1, decide_eq_true h2]
      obtain ⟨coeff, hE, -⟩ := expParams_ok hroot hnp hno h1 h2
      simp only [hE]
      refine ⟨_, _, rfl, ?_⟩
      cases sup <;> simp
    · rw [decide_eq_true h1, decide_eq_false h2]; exact ⟨_, _, rfl, by simp⟩
    · rw [decide_eq_false h1, decide_eq_true h2]; exact ⟨_, _, rfl, by simp⟩
    · rw [decide_eq_false h1, decide_eq_false h2]
      simp only
      rw [polyParams, hlogp, hlogo]
      exact ⟨_, _, rfl, by simp⟩
  have hcl : ∃ t ps, classify A dp dodd = .ok (t, ps) ∧ t ∈ [ApproachType.exp, .superExp, .poly, .undefined, .mixed] := by
    rw [classify, if_neg (by omega), if_neg hno, if_neg (by rintro (h | h) <;> linarith)]
    split
    · split
      · exact hm true
      · exact ⟨_, _, rfl, by simp⟩
    · exact hm false
  obtain ⟨t, ps, hcl, ht⟩ := hcl
  rw [hcl] at e
  obtain ⟨s2, h1, h2, -⟩ := estimate_first e (by rintro rfl; simp at ht) (by exact_mod_cast hc.ne')
  exact ⟨s2, h1, by rw [h2]; exact ht⟩

/-- `2 - 1/(2 - …)` meets the hypotheses. -/
example : (∀ n : ℕ, contQ (seqAt [[2]]) (seqAt [[-1]]) (n + 1) ≠ 0 ∧
      ((n : ℚ) + 2) / (n + 1) = (contP (seqAt [[2]]) (seqAt [[-1]]) (n + 1) : ℚ) / contQ (seqAt [[2]]) (seqAt [[-1]]) (n + 1)) ∧
    ∀ n : ℕ, 40 ≤ n → (((n + 2 : ℕ) : ℚ) + 2) / ((n + 2 : ℕ) + 1) ≠ ((n : ℚ) + 2) / (n + 1) := by
  refine ⟨fun n => ?_, fun n hn => ?_⟩
  · rw [(two_conv _).1, (two_conv _).2]
    exact ⟨by omega, by push_cast; ring_nf⟩
  · have := ((two_band n hn).ne (by norm_num)).1
    intro h
    apply this
    rw [h, sub_self, abs_zero]

/-! ## C90 -/

/-- **C90 (partial).** `gen_iterations(n, accuracy)` of an object whose stored (super-)exponential parameters bound the error,
`|x_m - L| ≤ coeff · base^(-m)`, returns a value within `accuracy` of the limit `L`, if the coefficient is at most the
base and `n` does not cut the computation short.  `r` is the number of iterations the code computes; its formula gives
the least one with `base^(-r) ≤ accuracy / base`, only this inequality is used.
Missing with respect to C90: larger coefficients (`C90_accuracy_violated`); `mpf` has no method `ln`, so that the
formula raises. -/
theorem C90_accuracy_partial {a₀ b₀ : Coeffs} {z : Bool} {s₀ : CF} (hinit : init a₀ b₀ z none false = .ok s₀)
    (ops : List CFOp) (required : ℚ → ℚ → Except PyErr ℤ) (n r : ℕ) (acc base coeff L : ℚ) (hb : 1 < base) (hacc : 0 < acc)
    (hreq : required acc base = .ok r) (hr : base ≤ acc * base ^ r) (hrn : r ≤ n) (hcoeff : coeff ≤ base) :
    let s := runOps ops s₀
    let P := contP (seqAt s.params.a) (seqAt s.params.b)
    let Q := contQ (seqAt s.params.a) (seqAt s.params.b)
    (s.approachType = .exp ∨ s.approachType = .superExp) → s.approachParams = some (base, coeff) →
    (z = true → ∀ j, 1 ≤ j → j ≤ r → seqAt s.params.b j ≠ 0) → Q (r + 1) ≠ 0 →
    (∀ m, Q (m + 1) ≠ 0 → |(P (m + 1) : ℚ) / Q (m + 1) - L| ≤ coeff * (base ^ m)⁻¹) →
    ∃ s' v, genIterationsAcc required n acc true s = (s', .ok ()) ∧ getResult s' = .fin v ∧ |v - L| ≤ acc := by
  intro s P Q ht hp hz hQ herr
  have hg : Good s z false := reachable_good hinit ops
  obtain ⟨s', e, -, -, hres⟩ := gen_ok hg r true (fun j h1 h2 h3 => hz h3.1 j (by omega) h2 h3.2)
  have hv := hres (Or.inr ⟨rfl, rfl⟩)
  refine ⟨s', (P (r + 1) : ℚ) / Q (r + 1), ?_, ?_, ?_⟩
  · rw [genIterationsAcc, if_pos ⟨ht, hacc.ne'⟩, hp]
    simp only [hreq]
    rw [min_eq_right (by exact_mod_cast hrn), e]
  · rw [hv, convVal, quotient, if_neg hQ]
  · refine (herr r hQ).trans ?_
    have hpow : 0 < base ^ r := by positivity
    rw [← div_eq_mul_inv, div_le_iff₀ hpow]
    linarith

/-- `3 - 2/(3 - …) = 2` with the error bound `2^(-m)`. -/
example : ∃ s₀ : CF, init [[3]] [[-2]] true none false = .ok s₀ ∧
    (runOps [.setApproach .exp (some (2, 1))] s₀).approachParams = some (2, 1) ∧ (2 : ℚ) ≤ 1 / 100 * 2 ^ 8 ∧
    ∀ m, contQ (seqAt [[3]]) (seqAt [[-2]]) (m + 1) ≠ 0 →
      |(contP (seqAt [[3]]) (seqAt [[-2]]) (m + 1) : ℚ) / contQ (seqAt [[3]]) (seqAt [[-2]]) (m + 1) - 2| ≤ 1 * (2 ^ m)⁻¹ := by
  refine ⟨_, rfl, rfl, by norm_num, fun m _ => ?_⟩
  rw [(three_conv _).1, (three_conv _).2]
  push_cast
  have hy : (1 : ℚ) ≤ 2 ^ m := one_le_pow₀ (by norm_num)
  rw [show (2 : ℚ) ^ (m + 1 + 1) = 4 * 2 ^ m by ring, show (2 : ℚ) ^ (m + 1) = 2 * 2 ^ m by ring]
  generalize (2 : ℚ) ^ m = y at *
  have h1 : 0 < 2 * y - 1 := by linarith
  have e : (4 * y - 1) / (2 * y - 1) - 2 = 1 / (2 * y - 1) := by
    rw [div_sub' h1.ne']; congr 1; ring
  rw [e, abs_of_pos (by positivity), one_mul, ← one_div]
  exact one_div_le_one_div_of_le (by linarith) (by linarith)

theorem hundred_conv (n : ℕ) : contP (seqAt [[300]]) (seqAt [[-20000]]) n = 100 ^ n * (2 ^ (n + 1) - 1) ∧
    100 * contQ (seqAt [[300]]) (seqAt [[-20000]]) n = 100 ^ n * (2 ^ n - 1) := by
  induction n using Nat.strong_induction_on with
  | _ n ih =>
    match n with
    | 0 => simp [contP, contQ]
    | 1 => simp [contP, contQ, seqAt_const]
    | n + 2 =>
      obtain ⟨h1, h2⟩ := ih n (by omega)
      obtain ⟨h3, h4⟩ := ih (n + 1) (by omega)
      rw [contP, contQ, h1, h3, seqAt_const, seqAt_const]
      constructor
      · ring
      · rw [show 100 * (300 * contQ (seqAt [[300]]) (seqAt [[-20000]]) (n + 1) + -20000 * contQ (seqAt [[300]]) (seqAt [[-20000]]) n) =
          300 * (100 * contQ (seqAt [[300]]) (seqAt [[-20000]]) (n + 1)) + -20000 * (100 * contQ (seqAt [[300]]) (seqAt [[-20000]]) n) by ring, h2, h4]
        ring

/-- **C90 (violated).** The number of iterations is computed from the base alone, the coefficient is ignored.  The convergents of
`300 - 20000/(300 - 20000/(300 - …)) = 200` satisfy `|x_m - 200| ≤ 100 · 2^(-m)` for all `m`.  With these parameters stored and
`accuracy = 1/100` the formula gives 8 iterations, and the result is off by more than `19/100`. -/
theorem C90_accuracy_violated :
    (∀ m, |(contP (seqAt [[300]]) (seqAt [[-20000]]) (m + 1) : ℚ) / contQ (seqAt [[300]]) (seqAt [[-20000]]) (m + 1) - 200| ≤ 100 * (2 ^ m)⁻¹) ∧
    (2 : ℚ) ≤ 1 / 100 * 2 ^ 8 ∧ (∀ k < 8, 1 / 100 * (2 : ℚ) ^ k < 2) ∧
    ∃ s₀ s₁ s' v, init [[300]] [[-20000]] true none false = .ok s₀ ∧ setApproach .exp (some (2, 100)) s₀ = (s₁, .ok ()) ∧
      genIterationsAcc (fun _ _ => .ok 8) 1000 (1 / 100) true s₁ = (s', .ok ()) ∧ getResult s' = .fin v ∧ 19 / 100 < |v - 200| := by
  refine ⟨fun m => ?_, by norm_num, ?_, ?_⟩
  · have h1 := (hundred_conv (m + 1)).1
    have h2 := (hundred_conv (m + 1)).2
    have h2' : (100 : ℚ) * contQ (seqAt [[300]]) (seqAt [[-20000]]) (m + 1) = 100 ^ (m + 1) * (2 ^ (m + 1) - 1) := by exact_mod_cast h2
    have hq : (contQ (seqAt [[300]]) (seqAt [[-20000]]) (m + 1) : ℚ) = 100 ^ m * (2 ^ (m + 1) - 1) := by
      have : (100 : ℚ) * contQ (seqAt [[300]]) (seqAt [[-20000]]) (m + 1) = 100 * (100 ^ m * (2 ^ (m + 1) - 1)) := by rw [h2']; ring
      linarith
    rw [h1, hq]
    push_cast
    have hy : (1 : ℚ) ≤ 2 ^ m := one_le_pow₀ (by norm_num)
    have hk : (0 : ℚ) < 100 ^ m := by positivity
    rw [show (2 : ℚ) ^ (m + 1 + 1) = 4 * 2 ^ m by ring, show (2 : ℚ) ^ (m + 1) = 2 * 2 ^ m by ring, show (100 : ℚ) ^ (m + 1) = 100 ^ m * 100 by ring]
    generalize (2 : ℚ) ^ m = y at *
    generalize (100 : ℚ) ^ m = k at *
    have hd : 0 < 2 * y - 1 := by linarith
    have e : k * 100 * (4 * y - 1) / (k * (2 * y - 1)) - 200 = 100 * (1 / (2 * y - 1)) := by
      rw [mul_assoc, mul_div_mul_left _ _ hk.ne', div_sub' hd.ne', mul_one_div]; congr 1; ring
    rw [e, abs_of_pos (by positivity), ← one_div]
    exact mul_le_mul_of_nonneg_left (one_div_le_one_div_of_le (by linarith) (by linarith)) (by norm_num)
  · intro k hk
    have : (2 : ℚ) ^ k ≤ 2 ^ 7 := pow_le_pow_right₀ (by norm_num) (by omega)
    linarith [show (2 : ℚ) ^ 7 = 128 by norm_num]
  · obtain ⟨s', e, -, -, hres⟩ := gen_ok (s := { fresh [[300]] [[-20000]] true false with approachType := .exp, approachParams := some (2, 100) })
      (z := true) (l := false) ⟨⟨⟨300, [], [], rfl⟩, List.cons_ne_nil _ _⟩, rfl, rfl, rfl, rfl, rfl⟩ 8 true (fun j _ _ h => by
        rw [show CF.params { fresh [[300]] [[-20000]] true false with approachType := .exp, approachParams := some (2, 100) } = ⟨[[300]], [[-20000]], .fin 1⟩ from rfl, seqAt_const] at h
        exact absurd h.2 (by decide))
    refine ⟨_, _, s', 102300 / 511, rfl, rfl, ?_, ?_, by norm_num [abs_of_pos]⟩
    · have : genIterationsAcc (fun _ _ => .ok 8) 1000 (1 / 100) true
          { fresh [[300]] [[-20000]] true false with approachType := .exp, approachParams := some (2, 100) } =
          genIterations ((8 : ℕ) : ℤ) true { fresh [[300]] [[-20000]] true false with approachType := .exp, approachParams := some (2, 100) } := by
        rw [genIterationsAcc, if_pos ⟨Or.inl rfl, by norm_num⟩]
        rfl
      exact this.trans e
    · rw [hres (Or.inr ⟨rfl, rfl⟩)]
      decide +kernel

end PiCF.ContFrac
