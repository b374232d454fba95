import Verif.Props.Estimator

/-!
# C87 with the default arguments: a continued fraction without a limit that is stored as `'exp'`
-/

namespace PiCF.ContFrac
open PiCF.Spec

/-- The constants of the interlaced `a`. -/
def loopA : List ℤ :=
  [0, 0, 0, 0, 0, 0, -1, -1, 0, -1, 0, 0, 0, 2, 1, 3, 2, 1, 3, 2, 1, 3, 2, 1, 3, 2, 1, 3, 2, 0, 0, 2, 1, 3, 2, 1, 3, 2, 1, 3, 2, 1, 3, 2,
    1, 3, 2, 1, 3, 2, 1, 3, 2, 1, 0, 0, 2, 0, 0, -1, 2, 0, 0, 0, 0, 0, 0, -1, 0, 0, -3, 0, 0, 0, 0]

/-- The last three distances are zero. -/
def zeroTail (ds : List Delta) : Bool := decide (ds.length > 3) && (ds.drop (ds.length - 3)).all fun d => decide (d.2 = some 0)

/-- What a window that is answered `'fast'` looks like. -/
def fastCheck (s : CF) (w : ℤ × ℤ × ℤ) : Bool :=
  match (estimateSamples w.1 w.2.1 w.2.2 s).2 with
  | .ok sm => decide ((ratios (deltaPair sm)).length < 6) && zeroTail (deltaPair sm) && zeroTail (deltaOdd sm)
  | .error _ => false

def loopCheck : Bool :=
  match (estimateSamples 50 12 3 (fresh (loopA.map ([·])) [[-1]] true false)).2 with
  | .ok sm => decide (6 ≤ (ratios (deltaPair sm)).length) && decide (6 ≤ (ratios (deltaOdd sm)).length) &&
      (ratios (deltaPair sm)).all (fun r => decide (5 / 2 ≤ r ∧ r ≤ 15 / 4)) &&
      (ratios (deltaOdd sm)).all fun r => decide (25 / 2 ≤ r ∧ r ≤ 75 / 4)
  | .error _ => false

/-- A `'fast'` window. -/
theorem fast_window {A : Analysis} (hA : 0 < A.effZero) {s : CF} {w : ℤ × ℤ × ℤ} (h : fastCheck s w = true) (k : ℕ) :
    innerOf A s k w = .ok (.fast, none) := by
  obtain ⟨iters, cutoff, step⟩ := w
  have mono : ∀ ds, zeroTail ds = true → diminishes A.effZero ds = true := by
    intro ds hd
    simp only [zeroTail, diminishes, Bool.and_eq_true, List.all_eq_true, decide_eq_true_eq] at hd ⊢
    refine ⟨hd.1, fun d hm => ?_⟩
    rw [hd.2 d hm]
    simpa using hA
  unfold fastCheck at h
  rcases he : estimateSamples iters cutoff step s with ⟨s1, e | sm⟩
  · simp only [he, Bool.false_eq_true] at h
  · simp only [he, Bool.and_eq_true, decide_eq_true_eq] at h
    obtain ⟨⟨h1, h2⟩, h3⟩ := h
    have hc : classify A (deltaPair sm) (deltaOdd sm) = .ok (.fast, none) := by
      rw [classify]
      rw [if_pos h1, provisional, mono _ h2, mono _ h3]
    rw [innerOf, innerAlg, PyM.bind_ok he, liftE, hc]

/-- The window with the step 3. -/
theorem loop_window {A : Analysis} (hsqrt : SqrtOk A) (hroot : RootOk A) (k : ℕ) :
    ∃ ps, innerOf A (fresh (loopA.map ([·])) [[-1]] true false) k (50, 12, 3) = .ok (.exp, ps) := by
  have hck : loopCheck = true := by decide +kernel
  rw [loopCheck] at hck
  rcases he : estimateSamples 50 12 3 (fresh (loopA.map ([·])) [[-1]] true false) with ⟨s1, e | sm⟩
  · rw [he] at hck
    simp at hck
  · rw [he] at hck
    simp only [Bool.and_eq_true, decide_eq_true_eq, List.all_eq_true] at hck
    obtain ⟨⟨⟨hlp, hlo⟩, hbp⟩, hbo⟩ := hck
    have hnp : ratios (deltaPair sm) ≠ [] := by intro h; rw [h] at hlp; simp at hlp
    have hno : ratios (deltaOdd sm) ≠ [] := by intro h; rw [h] at hlo; simp at hlo
    obtain ⟨m1, -⟩ := mean_bounds hnp hbp
    obtain ⟨m3, -⟩ := mean_bounds hno hbo
    obtain ⟨coeff, hx, -, -⟩ := expParams_ok hroot.gt_one hnp hno (lt_of_lt_of_le (by norm_num) m1)
      (lt_of_lt_of_le (by norm_num) m3)
    refine ⟨some (min (A.root (mean (ratios (deltaPair sm)))) (A.root (mean (ratios (deltaOdd sm)))), coeff), ?_⟩
    rw [innerOf, innerAlg, PyM.bind_ok he, liftE]
    simp only
    rw [classify]
    rw [if_neg (by omega), if_neg hno, if_neg (by rintro (h | h) <;> linarith), if_neg (by
      have e1 := relErr_le hsqrt hlp (by norm_num) (by norm_num) hbp
      have e2 := relErr_le hsqrt hlo (by norm_num) (by norm_num) hbo
      rintro (h | h) <;> linarith)]
    rw [classifyMeans, decide_eq_true (show mean (ratios (deltaPair sm)) > expThreshold by unfold expThreshold; linarith),
      decide_eq_true (show mean (ratios (deltaOdd sm)) > expThreshold by unfold expThreshold; linarith)]
    simp only [hx]
    rfl

/-- The convergents repeat with period 225. -/
theorem loop_conv (n : ℕ) :
    contP (seqAt (loopA.map ([·]))) (seqAt [[-1]]) (n + 225) = contP (seqAt (loopA.map ([·]))) (seqAt [[-1]]) n ∧
    contQ (seqAt (loopA.map ([·]))) (seqAt [[-1]]) (n + 225) = contQ (seqAt (loopA.map ([·]))) (seqAt [[-1]]) n := by
  have hlen : (loopA.map ([·])).length = 75 := by decide +kernel
  have hper : ∀ m, seqAt (loopA.map ([·])) (m + 225) = seqAt (loopA.map ([·])) m := by
    intro m
    rw [seqAt, seqAt, hlen, show (m + 225) % 75 = m % 75 by omega]
    have hc : ∀ j < 75, ((loopA.map ([·])).getD j []).length = 1 := by decide +kernel
    obtain ⟨c, hc⟩ := List.length_eq_one_iff.1 (hc (m % 75) (Nat.mod_lt _ (by norm_num)))
    rw [hc]
    simp [horner]
  induction n using Nat.strong_induction_on with
  | _ n ih =>
    match n with
    | 0 => decide +kernel
    | 1 => decide +kernel
    | n + 2 =>
      obtain ⟨h1, h2⟩ := ih n (by omega)
      obtain ⟨h3, h4⟩ := ih (n + 1) (by omega)
      have ha := hper (n + 1)
      have hb : seqAt [[-1]] (n + 1 + 225) = seqAt [[-1]] (n + 1) := by rw [seqAt_const, seqAt_const]
      have sP : ∀ (a b : ℕ → ℤ) (m : ℕ), contP a b (m + 2) = a (m + 1) * contP a b (m + 1) + b (m + 1) * contP a b m := fun _ _ _ => rfl
      have sQ : ∀ (a b : ℕ → ℤ) (m : ℕ), contQ a b (m + 2) = a (m + 1) * contQ a b (m + 1) + b (m + 1) * contQ a b m := fun _ _ _ => rfl
      generalize seqAt (loopA.map ([·])) = a at *
      generalize seqAt [[-1]] = b at *
      have e : n + 2 + 225 = n + 225 + 2 := by ring
      have e' : n + 225 + 1 = n + 1 + 225 := by ring
      rw [e, sP a b (n + 225), sQ a b (n + 225), e', h1, h2, h3, h4, ha, hb, ← sP, ← sQ]
      exact ⟨rfl, rfl⟩

/-- **C87 is false with the default arguments.**  The convergents of the continued fraction with `b = -1` and 75 interlaced
constants `a` repeat forever, among them 0 and -1, so it has no limit; `estimate_approach_type_and_params()` stores `'exp'`, for
all numerical functions.  The first four windows are answered `'fast'`, as the `a_n` of their last samples are zero; the fifth has
the step 3 and `add_iterations(-2)` turns the index back, so that terms are used twice (C17). -/
theorem C87_default_violated (A : Analysis) (hsqrt : SqrtOk A) (hroot : RootOk A) (hA : 0 < A.effZero) :
    let Q := contQ (seqAt (loopA.map ([·]))) (seqAt [[-1]])
    let P := contP (seqAt (loopA.map ([·]))) (seqAt [[-1]])
    (∃ s₀ s', init (loopA.map ([·])) [[-1]] true none false = .ok s₀ ∧ estimateApproachObj A 600 200 50 s₀ = (s', .ok ()) ∧
      s'.approachType = .exp) ∧
    ∀ n, Q (225 * n + 1) ≠ 0 ∧ (P (225 * n + 1) : ℚ) / Q (225 * n + 1) = 0 ∧
      Q (225 * n + 7) ≠ 0 ∧ (P (225 * n + 7) : ℚ) / Q (225 * n + 7) = -1 := by
  intro Q P
  constructor
  · have hw : WF (loopA.map ([·])) [[-1]] := ⟨⟨0, [], _, rfl⟩, by simp⟩
    set s₀ := fresh (loopA.map ([·])) [[-1]] true false with hs₀
    have f1 := fast_window hA (s := s₀) (w := (600, 200, 50)) (by decide +kernel) 0
    have f2 := fast_window hA (s := s₀) (w := (300, 100, 25)) (by decide +kernel) 1
    have f3 := fast_window hA (s := s₀) (w := (150, 50, 12)) (by decide +kernel) 2
    have f4 := fast_window hA (s := s₀) (w := (75, 25, 6)) (by decide +kernel) 3
    obtain ⟨ps, f5⟩ := loop_window hsqrt hroot 4
    have next : ∀ (k : ℕ) (iters cutoff step iters' cutoff' step' : ℤ) (ans : ApproachType × Option (ℚ × ℚ)),
        0 < cutoff → cutoff.fdiv 2 = cutoff' → max 50 (iters.fdiv 2) = iters' →
        max (truncDiv30 (iters' - cutoff')) (step.fdiv 2) = step' → innerOf A s₀ k (iters', cutoff', step') = .ok ans →
        estLoop1 (innerOf A s₀) k iters cutoff step (.fast, none) = estLoop1 (innerOf A s₀) (k + 1) iters' cutoff' step' ans := by
      rintro k iters cutoff step iters' cutoff' step' ans hc rfl rfl rfl h
      rw [estLoop1, dif_pos ⟨rfl, hc⟩]
      simp only [h]
    have hest : estimateApproach (innerOf A s₀) 600 200 50 = .ok ((.exp, ps), 5) := by
      rw [estimateApproach, f1]
      simp only
      rw [next 1 600 200 50 300 100 25 _ (by decide) (by decide) (by decide) (by decide) f2,
        next 2 300 100 25 150 50 12 _ (by decide) (by decide) (by decide) (by decide) f3,
        next 3 150 50 12 75 25 6 _ (by decide) (by decide) (by decide) (by decide) f4,
        next 4 75 25 6 50 12 3 _ (by decide) (by decide) (by decide) (by decide) f5, estLoop1,
        dif_neg (by rintro ⟨h, -⟩; cases h)]
      simp
    have hs := estimateApproachObj_spec A 600 200 50 s₀
    rw [hest] at hs
    obtain ⟨lg, ms, n, hs⟩ := hs
    exact ⟨s₀, _, init_wf hw true false, hs, rfl⟩
  · intro n
    have hrep : ∀ k n, P (225 * n + k) = P k ∧ Q (225 * n + k) = Q k := by
      intro k n
      induction n with
      | zero => simp
      | succ n ih =>
        have := loop_conv (225 * n + k)
        rw [show 225 * (n + 1) + k = 225 * n + k + 225 by ring]
        exact ⟨this.1.trans ih.1, this.2.trans ih.2⟩
    rw [(hrep 1 n).1, (hrep 1 n).2, (hrep 7 n).1, (hrep 7 n).2]
    have e1 : P 1 = 0 ∧ Q 1 = 1 := by decide +kernel
    have e7 : P 7 = -Q 7 ∧ Q 7 ≠ 0 := by decide +kernel
    rw [e1.1, e1.2, e7.1]
    refine ⟨by norm_num, by norm_num, e7.2, ?_⟩
    have : (Q 7 : ℚ) ≠ 0 := by exact_mod_cast e7.2
    push_cast
    field_simp

/-- Such numerical functions exist: square roots that are rough, and 50 digits. -/
example : ∃ s₀ s', init (loopA.map ([·])) [[-1]] true none false = .ok s₀ ∧
    estimateApproachObj { roughAnalysis with effZero := 1 / 10 ^ 50 } 600 200 50 s₀ = (s', .ok ()) ∧ s'.approachType = .exp :=
  (C87_default_violated { roughAnalysis with effZero := 1 / 10 ^ 50 } (fun x y h g => rough_ok.1 x y h g) ⟨rough_ok.2.1, rough_ok.2.2⟩
    (by norm_num)).1

end PiCF.ContFrac
