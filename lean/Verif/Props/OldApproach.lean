import Verif.Model.OldApproach
import Verif.Props.Estimator

/-!
# C106: the script's own classification of the convergence
-/

namespace PiCF.Process
open PiCF.ContFrac PiCF.Spec

theorem deltaPair_length (ss : List (ℤ × List Num)) : (deltaPair ss).length = 2 * ss.length := by
  induction ss with
  | nil => rfl
  | cons s ss ih =>
    rw [deltaPair, List.flatMap_cons, List.length_append, ← deltaPair, ih, List.length_cons]
    simp only [deltasOf, List.length_cons, List.length_nil]
    omega

/-- **C106 is false whenever more than one window is sampled**, in particular with the default arguments (5000, 1500, 500): for every
object after every history, AttributeError is raised, whatever the convergence, if no `b_i` used is zero. -/
theorem C106_default_violated {a₀ b₀ : Coeffs} {z l : Bool} {s₀ : CF} (hinit : init a₀ b₀ z none l = .ok s₀) (ops : List CFOp)
    (A : Analysis) (threshold : ℚ) (findPoly : Bool) (iters cutoff step : ℕ) (hstep : 5 ≤ step) (hc : 0 < cutoff)
    (h2 : cutoff + step ≤ iters) (hz : z = true → ∀ j, 1 ≤ j → j ≤ iters + 5 → seqAt (runOps ops s₀).params.b j ≠ 0) :
    ∃ s', isPolyOrExp A iters cutoff step threshold findPoly (runOps ops s₀) = (s', .error .attributeError) := by
  obtain ⟨s', e⟩ := estimateSamples_closed (reachable_good hinit ops) iters cutoff step hstep (.inl hc)
    (fun j h1 h2 h3 => hz h3.1 j (by omega) (by omega) h3.2)
  refine ⟨s', ?_⟩
  rw [isPolyOrExp, PyM.bind_ok e, liftE, oldClassify, if_pos]
  left
  have h1 : 1 ≤ (iters - cutoff) / step := (Nat.le_div_iff_mul_le (by omega)).2 (by omega)
  rw [deltaPair_length, List.length_map, List.length_range]
  omega

/-- What is read from one window of six numbers. -/
theorem oldClassify_six (A : Analysis) (threshold : ℚ) (x : ℕ → ℚ) (i : ℕ) {lo hi : ℚ} (hlo : 0 < lo) (h0 : Band x lo hi i)
    (h1 : Band x lo hi (i + 1)) :
    (threshold < lo → ∀ f, oldClassify A threshold f (deltaPair [sixOf x i]) (deltaOdd [sixOf x i]) =
      .ok (.exp, some (min (A.root (|x (i + 2) - x i| / |x (i + 4) - x (i + 2)|)) (A.root (|x (i + 3) - x (i + 1)| / |x (i + 5) - x (i + 3)|))))) ∧
    (hi ≤ threshold → oldClassify A threshold false (deltaPair [sixOf x i]) (deltaOdd [sixOf x i]) = .ok (.poly, none)) ∧
    (hi ≤ threshold → 0 < i →
      ((∀ t < 4, 0 < A.toFloat |x (i + t + 2) - x (i + t)|) →
        oldClassify A threshold true (deltaPair [sixOf x i]) (deltaOdd [sixOf x i]) = .ok (.poly, none)) ∧
      (¬ (∀ t < 4, 0 < A.toFloat |x (i + t + 2) - x (i + t)|) →
        oldClassify A threshold true (deltaPair [sixOf x i]) (deltaOdd [sixOf x i]) = .error .valueError)) := by
  have n0 := h0.ne hlo
  have n1 := h1.ne hlo
  have r0 := h0.ratio
  have r1 := h1.ratio
  rw [show i + 1 + 2 = i + 3 from rfl, show i + 1 + 4 = i + 5 from rfl] at n1 r1
  have hfour : (∀ t < 4, 0 < A.toFloat |x (i + t + 2) - x (i + t)|) ↔ (0 < A.toFloat |x (i + 2) - x i| ∧ 0 < A.toFloat |x (i + 4) - x (i + 2)|) ∧
      0 < A.toFloat |x (i + 3) - x (i + 1)| ∧ 0 < A.toFloat |x (i + 5) - x (i + 3)| := by
    constructor
    · intro h
      exact ⟨⟨h 0 (by omega), h 2 (by omega)⟩, h 1 (by omega), h 3 (by omega)⟩
    · rintro ⟨⟨h0, h2⟩, h1, h3⟩ t ht
      match t, ht with
      | 0, _ => exact h0
      | 1, _ => exact h1
      | 2, _ => exact h2
      | 3, _ => exact h3
  simp only [hfour]
  have ep := deltaPair_sixOf x [i]
  have eo := deltaOdd_sixOf x [i]
  simp only [List.map_cons, List.map_nil, List.flatMap_cons, List.flatMap_nil, List.append_nil] at ep eo
  rw [ep, eo]
  generalize |x (i + 2) - x i| = p at *
  generalize |x (i + 4) - x (i + 2)| = q at *
  generalize |x (i + 3) - x (i + 1)| = u at *
  generalize |x (i + 5) - x (i + 3)| = v at *
  have ep' : oldRatios [((i : ℤ), some p), ((i : ℤ) + 2, some q)] = [some (p / q)] := by
    simp [oldRatios, n0.1, n0.2]
  have eo' : oldRatios [((i : ℤ) + 1, some u), ((i : ℤ) + 3, some v)] = [some (u / v)] := by
    simp [oldRatios, n1.1, n1.2]
  have em : ∀ r : ℚ, oldMean [some r] = some r := fun r => by simp [oldMean, mean]
  have ee : ∀ r : ℚ, oldErr [some r] = some 0 := fun r => by simp [oldErr, mean]
  have eg : gtNum (some 0) (1 / 2) = false := by decide +kernel
  refine ⟨?_, ?_, ?_⟩
  · intro ht f
    have g0 : gtNum (some (p / q)) threshold = true := by simpa [gtNum] using lt_of_lt_of_le ht r0.1
    have g1 : gtNum (some (u / v)) threshold = true := by simpa [gtNum] using lt_of_lt_of_le ht r1.1
    rw [oldClassify, if_neg (by simp)]
    simp only [ep', eo', em, ee, eg, g0, g1]
    rfl
  · intro ht
    have g0 : gtNum (some (p / q)) threshold = false := by simpa [gtNum] using r0.2.trans ht
    have g1 : gtNum (some (u / v)) threshold = false := by simpa [gtNum] using r1.2.trans ht
    rw [oldClassify, if_neg (by simp)]
    simp only [ep', eo', em, ee, eg, g0, g1]
    rfl
  · intro ht hi0
    have g0 : gtNum (some (p / q)) threshold = false := by simpa [gtNum] using r0.2.trans ht
    have g1 : gtNum (some (u / v)) threshold = false := by simpa [gtNum] using r1.2.trans ht
    have i0 : (0 : ℤ) < i := by exact_mod_cast hi0
    have l : ∀ (j : ℤ) (r : ℚ), 0 < j → logOk A (j, some r) = decide (0 < A.toFloat r) := by
      intro j r hj
      simp [logOk, hj]
    rw [oldClassify, if_neg (by simp)]
    simp only [ep', eo', em, ee, eg, g0, g1, List.all_cons, List.all_nil, Bool.and_true, l _ _ i0, l _ _ (by omega : (0 : ℤ) < i + 2),
      l _ _ (by omega : (0 : ℤ) < i + 1), l _ _ (by omega : (0 : ℤ) < i + 3), ← Bool.decide_and, Bool.or_self, Bool.false_eq_true, if_false,
      if_true, decide_eq_true_eq]
    exact ⟨fun h => if_pos h, fun h => if_neg h⟩

/-- **C106 (partial).** For every object after every history and arguments with a single window (`iters < initial_cutoff + iters_step`): if the
six convergents exist, and the distances of convergents of equal parity shrink by a factor above the threshold, the answer is
`'exp'` with the smaller root of the two factors; if by at most the threshold, it is `'poly2sympoly'`, except that with
`find_poly_parameter` ValueError is raised if one of the distances is zero as a float.  Missing: several
windows, see `C106_default_violated`, and convergents that do not exist, see `C106_nan_violated`. -/
theorem C106_one_window_partial {a₀ b₀ : Coeffs} {z l : Bool} {s₀ : CF} (hinit : init a₀ b₀ z none l = .ok s₀) (ops : List CFOp)
    (A : Analysis) (threshold : ℚ) (iters cutoff step : ℕ) (hstep : 5 ≤ step) (hc : 0 < cutoff) (h2 : iters < cutoff + step)
    (hz : z = true → ∀ j, 1 ≤ j → j ≤ max cutoff iters + 5 → seqAt (runOps ops s₀).params.b j ≠ 0) (x : ℕ → ℚ)
    (hx : ∀ t < 6, contQ (seqAt (runOps ops s₀).params.a) (seqAt (runOps ops s₀).params.b) (cutoff + t + 1) ≠ 0 ∧
      x (cutoff + t) = (contP (seqAt (runOps ops s₀).params.a) (seqAt (runOps ops s₀).params.b) (cutoff + t + 1) : ℚ) /
        contQ (seqAt (runOps ops s₀).params.a) (seqAt (runOps ops s₀).params.b) (cutoff + t + 1))
    {lo hi : ℚ} (hlo : 0 < lo) (h0 : Band x lo hi cutoff) (h1 : Band x lo hi (cutoff + 1)) :
    (threshold < lo → ∀ f, ∃ s', isPolyOrExp A iters cutoff step threshold f (runOps ops s₀) = (s', .ok (.exp,
      some (min (A.root (|x (cutoff + 2) - x cutoff| / |x (cutoff + 4) - x (cutoff + 2)|))
        (A.root (|x (cutoff + 3) - x (cutoff + 1)| / |x (cutoff + 5) - x (cutoff + 3)|)))))) ∧
    (hi ≤ threshold → ∃ s', isPolyOrExp A iters cutoff step threshold false (runOps ops s₀) = (s', .ok (.poly, none))) ∧
    (hi ≤ threshold →
      ((∀ t < 4, 0 < A.toFloat |x (cutoff + t + 2) - x (cutoff + t)|) →
        ∃ s', isPolyOrExp A iters cutoff step threshold true (runOps ops s₀) = (s', .ok (.poly, none))) ∧
      ((∃ t < 4, ¬ 0 < A.toFloat |x (cutoff + t + 2) - x (cutoff + t)|) →
        ∃ s', isPolyOrExp A iters cutoff step threshold true (runOps ops s₀) = (s', .error .valueError))) := by
  obtain ⟨s', e⟩ := estimateSamples_closed (reachable_good hinit ops) iters cutoff step hstep (.inl hc)
    (fun j h1 h2 h3 => hz h3.1 j (by omega) (by omega) h3.2)
  have hdiv : (iters - cutoff) / step = 0 := Nat.div_eq_of_lt (by omega)
  have e' : estimateSamples iters cutoff step (runOps ops s₀) = (s', .ok [sixOf x cutoff]) := by
    rw [e, hdiv]
    show (s', Except.ok [(((cutoff + 0 * step : ℕ) : ℤ), _)]) = _
    rw [show cutoff + 0 * step = cutoff by omega, sixOf]
    congr 4
    apply List.map_congr_left
    intro t ht
    obtain ⟨h4, h5⟩ := hx t (List.mem_range.1 ht)
    rw [convVal, quotient, if_neg h4, h5]
  obtain ⟨k1, k2, k3⟩ := oldClassify_six A threshold x cutoff hlo h0 h1
  refine ⟨?_, ?_, ?_⟩
  · intro ht f
    exact ⟨s', by rw [isPolyOrExp, PyM.bind_ok e', liftE, k1 ht f]⟩
  · intro ht
    exact ⟨s', by rw [isPolyOrExp, PyM.bind_ok e', liftE, k2 ht]⟩
  · intro ht
    refine ⟨fun h => ⟨s', by rw [isPolyOrExp, PyM.bind_ok e', liftE, (k3 ht hc).1 h]⟩, fun ⟨t, ht4, hn⟩ => ⟨s', ?_⟩⟩
    rw [isPolyOrExp, PyM.bind_ok e', liftE, (k3 ht hc).2 fun h => hn (h t ht4)]

/-- `3 - 2/(3 - 2/(3 - …))` with a single window at 1500. -/
example : ∃ s₀ s' base, init [[3]] [[-2]] true none false = .ok s₀ ∧
    isPolyOrExp roughAnalysis 1500 1500 500 (11 / 10) false s₀ = (s', .ok (.exp, some base)) := by
  obtain ⟨s', h⟩ := (C106_one_window_partial (a₀ := [[3]]) (b₀ := [[-2]]) (z := true) (l := false) rfl [] roughAnalysis (11 / 10) 1500 1500 500
    (by decide) (by decide) (by decide)
    (fun _ j _ _ => by rw [show (runOps [] _).params.b = [[-2]] from rfl, seqAt_const]; decide)
    (fun n => ((2 : ℚ) ^ (n + 2) - 1) / (2 ^ (n + 1) - 1))
    (fun t _ => by
      rw [show (runOps [] _).params.b = [[-2]] from rfl, show (runOps [] _).params.a = [[3]] from rfl, (three_conv _).1,
        (three_conv _).2]
      refine ⟨?_, by push_cast; rfl⟩
      have : (2 : ℤ) ≤ 2 ^ (1500 + t + 1) := by
        calc (2 : ℤ) = 2 ^ 1 := by norm_num
        _ ≤ _ := pow_le_pow_right₀ (by norm_num) (by omega)
      omega)
    (lo := 4) (hi := 6) (by norm_num) (three_band _ (by omega)) (three_band _ (by omega))).1 (by norm_num) false
  exact ⟨_, s', _, rfl, h⟩

/-- The same continued fraction with the default arguments. -/
example : ∃ s₀ s', init [[3]] [[-2]] true none false = .ok s₀ ∧
    isPolyOrExp roughAnalysis 5000 1500 500 (11 / 10) false s₀ = (s', .error .attributeError) := by
  obtain ⟨s', h⟩ := C106_default_violated (a₀ := [[3]]) (b₀ := [[-2]]) (z := true) (l := false) rfl [] roughAnalysis (11 / 10) false
    5000 1500 500 (by decide) (by decide) (by decide)
    (fun _ j _ _ => by rw [show (runOps [] _).params.b = [[-2]] from rfl, seqAt_const]; decide)
  exact ⟨_, s', rfl, h⟩

/-- **C106 is false for convergents that do not exist**: `1 - 1/(1 - 1/(1 - …))` has no limit, its convergents repeat `1, 0, 1/0`.  With
a single window at 1500 the answer is `'poly2sympoly'`. -/
theorem C106_nan_violated (A : Analysis) : ∃ s₀ s', init [[1]] [[-1]] true none false = .ok s₀ ∧
    isPolyOrExp A 1500 1500 500 (11 / 10) false s₀ = (s', .ok (.poly, none)) := by
  obtain ⟨s1, e⟩ := estimateSamples_closed (fresh_good (a := [[1]]) (b := [[-1]]) ⟨⟨1, [], [], rfl⟩, by simp⟩ true false) 1500 1500 500
    (by decide) (Or.inr rfl) (fun j _ _ h => by
      rw [show (fresh [[1]] [[-1]] true false).params.b = [[-1]] from rfl, seqAt_const] at h
      exact absurd h.2 (by decide))
  rw [show (fresh [[1]] [[-1]] true false).params.b = [[-1]] from rfl,
    show (fresh [[1]] [[-1]] true false).params.a = [[1]] from rfl] at e
  simp only [one_conv'] at e
  have e' : estimateSamples 1500 1500 500 (fresh [[1]] [[-1]] true false) =
      (s1, .ok [(1500, [.fin 1, .fin 0, .nan, .fin 1, .fin 0, .nan])]) := e
  refine ⟨fresh [[1]] [[-1]] true false, s1, rfl, ?_⟩
  rw [isPolyOrExp, PyM.bind_ok e', liftE]
  have : deltaPair [(1500, [.fin 1, .fin 0, .nan, .fin 1, .fin 0, .nan])] = [(1500, none), (1502, none)] ∧
      deltaOdd [(1500, [.fin 1, .fin 0, .nan, .fin 1, .fin 0, .nan])] = [(1501, some 1), (1503, none)] := by decide +kernel
  rw [this.1, this.2]
  rfl

end PiCF.Process
