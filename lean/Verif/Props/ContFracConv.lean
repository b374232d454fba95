import Mathlib.Algebra.Order.Ring.Abs
import Mathlib.Tactic.FieldSimp
import Verif.Props.ContFrac

/-!
# Properties C16–C23 (`cont_fracs.py`: convergence test, sampling, bottom-up evaluation)
-/

namespace PiCF.ContFrac
open PiCF.Spec

/-! ## C16 -/

/-- Integer and rational form of the ratio test agree. -/
theorem C16_shrinks_iff (a b : ℕ → ℤ) (m : ℕ) (h0 : contQ a b m ≠ 0) (h2 : contQ a b (m + 2) ≠ 0)
    (h4 : contQ a b (m + 4) ≠ 0) (x : ℕ → ℚ) (hx : ∀ i, x i = (contP a b i : ℚ) / contQ a b i) :
    Shrinks a b m ↔ 17 * |x (m + 4) - x (m + 2)| < 16 * |x (m + 2) - x m| := by
  have q0 : (contQ a b m : ℚ) ≠ 0 := by exact_mod_cast h0
  have q2 : (contQ a b (m + 2) : ℚ) ≠ 0 := by exact_mod_cast h2
  have q4 : (contQ a b (m + 4) : ℚ) ≠ 0 := by exact_mod_cast h4
  have hpos : 0 < |(contQ a b m : ℚ) * contQ a b (m + 2) * contQ a b (m + 4)| :=
    abs_pos.2 (mul_ne_zero (mul_ne_zero q0 q2) q4)
  unfold Shrinks
  rw [← Int.cast_lt (R := ℚ), iff_comm, ← mul_lt_mul_iff_right₀ hpos]
  rw [hx, hx, hx]
  push_cast
  have e1 : |(contQ a b m : ℚ) * contQ a b (m + 2) * contQ a b (m + 4)| *
      (17 * |(contP a b (m + 4) : ℚ) / contQ a b (m + 4) - contP a b (m + 2) / contQ a b (m + 2)|) =
      17 * |(contQ a b m : ℚ) * (contP a b (m + 4) * contQ a b (m + 2) - contP a b (m + 2) * contQ a b (m + 4))| := by
    rw [mul_left_comm, ← abs_mul]
    congr 2
    field_simp
  have e2 : |(contQ a b m : ℚ) * contQ a b (m + 2) * contQ a b (m + 4)| *
      (16 * |(contP a b (m + 2) : ℚ) / contQ a b (m + 2) - contP a b m / contQ a b m|) =
      16 * |(contQ a b (m + 4) : ℚ) * (contP a b (m + 2) * contQ a b m - contP a b m * contQ a b (m + 2))| := by
    rw [mul_left_comm, ← abs_mul]
    congr 2
    field_simp
  rw [e1, e2]

/-- **C16.** For `initial_cutoff ≥ 0`, `iters_step ≥ 5` and (with `avoid_zero_b`) no zero among the `b_j`
used, `is_convergence_fast()` succeeds, returns True exactly if at every sampled depth
`m = cutoff + j·step` (`m + step ≤ iters`) both the convergents of the parity of `m` and of `m+1` shrink by
more than 17/16, and leaves the object at zero iterations with the first convergent.
(`C16_shrinks_iff` translates `Shrinks` to differences of convergents.) -/
theorem C16_is_convergence_fast {a₀ b₀ : Coeffs} {z l : Bool} {s₀ : CF} (hinit : init a₀ b₀ z none l = .ok s₀)
    (ops : List CFOp) (iters cutoff step : ℕ) (hstep : 5 ≤ step)
    (hz : z = true → ∀ j, 1 ≤ j → j ≤ max cutoff iters → seqAt (runOps ops s₀).params.b j ≠ 0) :
    let s := runOps ops s₀
    ∃ s' r, isConvergenceFast iters cutoff step s = (s', .ok r) ∧
      (r = true ↔ ∀ j : ℕ, cutoff + (j + 1) * step ≤ iters →
        Shrinks (seqAt s.params.a) (seqAt s.params.b) (cutoff + j * step) ∧
        Shrinks (seqAt s.params.a) (seqAt s.params.b) (cutoff + j * step + 1)) ∧
      s'.executed = 0 ∧ s'.mats.getLast? = some ((seqAt s.params.a 0, 1), (1, 0)) := by
  intro s
  have hg : Good s z l := reachable_good hinit ops
  have hz' : NoZero z s.params.b 0 (max cutoff iters) := fun j h1 h2 h3 => hz h3.1 j (by omega) h2 h3.2
  obtain ⟨s1, e1, h1, c1, -⟩ := gen_ok hg cutoff false (hz'.mono (by omega) (by omega))
  set k := rangeLen ((cutoff : ℤ) + step) ((iters : ℤ) + 1) step with hk
  have hkj : ∀ j : ℕ, j < k ↔ cutoff + (j + 1) * step ≤ iters := by
    intro j
    rw [hk, rangeLen_lt_iff _ _ _ (by omega)]
    have : ((cutoff + (j + 1) * step : ℕ) : ℤ) = (cutoff : ℤ) + step + j * step := by push_cast; ring
    omega
  have hbound : cutoff + k * step ≤ max cutoff iters := by
    rcases Nat.eq_zero_or_pos k with h0 | h0
    · rw [h0]; omega
    · have := (hkj (k - 1)).1 (by omega)
      rw [show k - 1 + 1 = k by omega] at this
      omega
  obtain ⟨s2, r, e2, hr⟩ := fastLoop_closed (a := s.params.a) (b := s.params.b) step hstep k s1 cutoff h1 (by
    rw [core_avoid c1, hg.avoid]; exact hz'.mono (by omega) hbound)
  have e2' : fastFor iters cutoff step s1 = (s2, .ok r) := by
    rw [fastFor, if_neg (by omega)]; exact e2
  have c2 := pres_fastLoop (step : ℤ) k s1
  rw [e2] at c2
  have hg2 : Good s2 z l := good_of_core (by rw [c2, c1]) hg
  have hp : s2.params = s.params := by
    have h := c2.trans c1
    simp only [core, Prod.mk.injEq] at h
    exact h.1
  obtain ⟨s3, e3, h3, -, -⟩ := gen_ok hg2 0 true (fun j a1 a2 => by omega)
  replace e3 : genIterations 0 true s2 = (s3, .ok ()) := e3
  refine ⟨s3, r, ?_, ?_, h3.hn, ?_⟩
  · rw [isConvergenceFast, PyM.bind_ok e1, PyM.bind_ok e2', PyM.bind_ok e3]; rfl
  · rw [hr]
    exact forall_congr' fun j => by rw [hkj]
  · have hcl := addIterations_closed (good_reset_synced hg2) 0 true
    simp only [stepsBefore, if_true, pushed_zero, Nat.cast_zero] at hcl
    rw [genIterations_eq] at e3
    rw [hcl] at e3
    have := (Prod.mk.inj e3).1
    rw [← this]
    split
    · simp only [CF.reset]
      rw [hg2.first, hp]; simp [convMat, contP, contQ]
    · rw [hp]; simp [convMat, contP, contQ]

-- hypotheses are met by the continued fraction of the golden ratio
example : ∃ s₀, init [[1]] [[1]] true none false = .ok s₀ ∧ 5 ≤ 6 ∧
    ∀ j, 1 ≤ j → j ≤ max 3 20 → seqAt (runOps [] s₀).params.b j ≠ 0 := by
  refine ⟨_, rfl, by decide, fun j _ _ => ?_⟩
  simp [runOps, seqAt, horner, Nat.mod_one]

-- … for which the test succeeds, while it fails for 1 - 1/(1 - 1/…)
instance (a b : ℕ → ℤ) (m : ℕ) : Decidable (Shrinks a b m) := inferInstanceAs (Decidable (_ < _))

example : ∃ s₀ s', init [[1]] [[1]] false none false = .ok s₀ ∧ isConvergenceFast 7 1 6 s₀ = (s', .ok true) := by
  obtain ⟨s', r, h, hr, -⟩ := C16_is_convergence_fast (a₀ := [[1]]) (b₀ := [[1]]) (z := false) (l := false) rfl [] 7 1 6
    (by decide) (by decide)
  refine ⟨_, s', rfl, ?_⟩
  have : r = true := by
    rw [hr]
    intro j hj
    obtain rfl : j = 0 := by omega
    decide +kernel
  rw [this] at h; exact h

example : ∃ s₀ s', init [[1]] [[-1]] false none false = .ok s₀ ∧ isConvergenceFast 7 1 6 s₀ = (s', .ok false) := by
  obtain ⟨s', r, h, hr, -⟩ := C16_is_convergence_fast (a₀ := [[1]]) (b₀ := [[-1]]) (z := false) (l := false) rfl [] 7 1 6
    (by decide) (by decide)
  refine ⟨_, s', rfl, ?_⟩
  have : ¬ r = true := by
    rw [hr]
    intro hh
    have := hh 0 (by decide)
    revert this
    decide +kernel
  rw [Bool.not_eq_true] at this
  rw [this] at h; exact h

/-! ## C17 -/

/-- Counter and stored state agree for the coefficients recorded in the log. -/
def InStep (s : CF) : Prop := ∃ a b n, Synced s a b n

/-- The counts and sampling parameters a caller should pass: non-negative numbers of iterations and a
sampling step of at least 5 (the code announces 6). -/
def CFOp.Sane : CFOp → Prop
  | .gen n _ => 0 ≤ n
  | .genAcc req n _ _ => 0 ≤ n ∧ ∀ x y r, req x y = .ok r → 0 ≤ r
  | .add n _ => 0 ≤ n
  | .reinit _ _ => True
  | .setApproach _ _ => True
  | .fast _ c st => 0 ≤ c ∧ 5 ≤ st
  | .samples _ c st => 0 ≤ c ∧ 5 ≤ st

/-- A method that keeps counter and state in step, for objects without logging. -/
def Keeps {α : Type} (m : PyM CF α) : Prop := ∀ s, (∃ z, Good s z false) → InStep s → InStep (m s).1

theorem keeps_bind {α β : Type} {m : PyM CF α} {f : α → PyM CF β} (hp : Pres m) (hm : Keeps m) (hf : ∀ x, Keeps (f x)) :
    Keeps (m >>= f) := by
  intro s ⟨z, hg⟩ hs
  have h := hm s ⟨z, hg⟩ hs
  have h2 := hp s
  rcases hms : m s with ⟨s', r⟩
  rw [hms] at h h2
  cases r with
  | ok x => rw [PyM.bind_ok hms]; exact hf x s' ⟨z, good_of_core h2 hg⟩ h
  | error e => rw [PyM.bind_error hms]; exact h

theorem keeps_pure {α : Type} (x : α) : Keeps (pure x : PyM CF α) := fun _ _ h => h
theorem keeps_get : Keeps (PyM.get : PyM CF CF) := fun _ _ h => h
theorem keeps_raise {α : Type} (e : PyErr) : Keeps (PyM.raise e : PyM CF α) := fun _ _ h => h

theorem keeps_add {n : ℤ} (hn : 0 ≤ n) (fin : Bool) : Keeps (addIterations n fin) := by
  obtain ⟨k, rfl⟩ := Int.eq_ofNat_of_zero_le hn
  rintro s ⟨z, hg⟩ ⟨a, b, c, h⟩
  rcases hr : addIterations (k : ℤ) fin s with ⟨s', r⟩
  cases r with
  | ok x => exact ⟨a, b, c + k, addIterations_synced h hr⟩
  | error e =>
    rw [C12_failed_iteration_partial s s' k fin e hg.logging hr]
    exact ⟨a, b, c, h⟩

theorem keeps_gen {n : ℤ} (hn : 0 ≤ n) (fin : Bool) : Keeps (genIterations n fin) := by
  rintro s ⟨z, hg⟩ -
  exact keeps_add hn fin s.reset ⟨z, good_of_core (s := s) rfl hg⟩ ⟨_, _, _, good_reset_synced hg⟩

theorem keeps_genAcc {req : ℚ → ℚ → Except PyErr ℤ} {n : ℤ} (hn : 0 ≤ n) (hreq : ∀ x y r, req x y = .ok r → 0 ≤ r)
    (acc : ℚ) (fin : Bool) : Keeps (genIterationsAcc req n acc fin) := by
  intro s hg hs
  rw [genIterationsAcc]
  split
  · split
    · exact keeps_gen hn fin s hg hs
    · split
      · exact hs
      · rename_i r hr
        exact keeps_gen (le_min hn (hreq _ _ r hr)) fin s hg hs
  · exact keeps_gen hn fin s hg hs

theorem keeps_fastLoop {step : ℤ} (h5 : 5 ≤ step) (k : ℕ) : Keeps (fastLoop step k) := by
  have h1 : Keeps (addIterations 1 false) := keeps_add (by decide) _
  induction k with
  | zero => exact keeps_pure _
  | succ k ih =>
    refine keeps_bind pres_get keeps_get fun _ => keeps_bind (pres_add _ _) h1 fun _ => keeps_bind pres_get keeps_get fun _ =>
      keeps_bind (pres_add _ _) h1 fun _ => keeps_bind pres_get keeps_get fun _ => keeps_bind (pres_add _ _) h1 fun _ =>
      keeps_bind pres_get keeps_get fun _ => keeps_bind (pres_add _ _) h1 fun _ => keeps_bind pres_get keeps_get fun _ =>
      keeps_bind (pres_add _ _) h1 fun _ => keeps_bind pres_get keeps_get fun _ => ?_
    simp only
    split
    · exact keeps_pure _
    · exact keeps_bind (pres_add _ _) (keeps_add (by omega) _) fun _ => ih

theorem keeps_fast {iters cutoff step : ℤ} (hc : 0 ≤ cutoff) (h5 : 5 ≤ step) : Keeps (isConvergenceFast iters cutoff step) := by
  refine keeps_bind (pres_gen _ _) (keeps_gen hc _) fun _ => keeps_bind ?_ ?_ fun _ =>
    keeps_bind (pres_gen _ _) (keeps_gen le_rfl _) fun _ => keeps_pure _
  · unfold fastFor
    split
    · exact pres_raise _
    · exact pres_fastLoop _ _
  · unfold fastFor
    split
    · exact keeps_raise _
    · exact keeps_fastLoop h5 _

theorem keeps_six : Keeps sixResults := by
  have h1 : Keeps (addIterations 1 true) := keeps_add (by decide) _
  exact keeps_bind pres_get keeps_get fun _ => keeps_bind (pres_add _ _) h1 fun _ => keeps_bind pres_get keeps_get fun _ =>
      keeps_bind (pres_add _ _) h1 fun _ => keeps_bind pres_get keeps_get fun _ => keeps_bind (pres_add _ _) h1 fun _ =>
      keeps_bind pres_get keeps_get fun _ => keeps_bind (pres_add _ _) h1 fun _ => keeps_bind pres_get keeps_get fun _ =>
      keeps_bind (pres_add _ _) h1 fun _ => keeps_bind pres_get keeps_get fun _ => keeps_pure _

theorem keeps_sampleLoop {step : ℤ} (h5 : 5 ≤ step) (k : ℕ) : ∀ i, Keeps (sampleLoop step k i) := by
  induction k with
  | zero => intro i; exact keeps_pure _
  | succ k ih =>
    intro i
    exact keeps_bind (pres_add _ _) (keeps_add (by omega) _) fun _ => keeps_bind pres_six keeps_six fun _ =>
      keeps_bind (pres_sampleLoop _ _ _) (ih _) fun _ => keeps_pure _

theorem keeps_samples {iters cutoff step : ℤ} (hc : 0 ≤ cutoff) (h5 : 5 ≤ step) : Keeps (estimateSamples iters cutoff step) := by
  refine keeps_bind (pres_gen _ _) (keeps_gen hc _) fun _ => keeps_bind pres_six keeps_six fun _ => keeps_bind ?_ ?_ fun _ => keeps_pure _
  · unfold sampleFor
    split
    · exact pres_raise _
    · exact pres_sampleLoop _ _ _
  · unfold sampleFor
    split
    · exact keeps_raise _
    · exact keeps_sampleLoop h5 _ _

theorem reinit_inStep {s : CF} (hs : InStep s) (hne : s.logs ≠ [] ∧ s.mats ≠ []) (a b : Option Coeffs) :
    InStep (reinitialize a b none s).1 := by
  obtain ⟨x, y, n, h⟩ := hs
  obtain ⟨l, ls, hl⟩ : ∃ l ls, s.logs = l :: ls := List.exists_cons_of_ne_nil hne.1
  obtain ⟨m, ms, hm⟩ : ∃ l ls, s.mats = l :: ls := List.exists_cons_of_ne_nil hne.2
  have key : ∀ s' : CF, s'.logs = s.logs → s'.mats = s.mats → s'.executed = s.executed → InStep s' := by
    intro s' h1 h2 h3
    have e1 := h.hla
    have e2 := h.hlb
    have e3 := h.hm
    rw [hl, List.getLastD_cons] at e1 e2
    rw [hm, List.getLastD_cons] at e3
    exact ⟨x, y, n, h.ha, h.hb, by rw [h1, hl, List.getLastD_cons]; exact e1, by rw [h1, hl, List.getLastD_cons]; exact e2,
      by rw [h2, hm, List.getLastD_cons]; exact e3, by rw [h3]; exact h.hn⟩
  rw [reinitialize]
  simp only
  split
  · split
    · exact key _ rfl rfl rfl
    · exact key _ rfl rfl rfl
  · exact key _ rfl rfl rfl

/-- The logs never get empty. -/
def NonEmpty (s : CF) : Prop := s.logs ≠ [] ∧ s.mats ≠ []

def KeepsNE {α : Type} (m : PyM CF α) : Prop := ∀ s, NonEmpty s → NonEmpty (m s).1

theorem ne_bind {α β : Type} {m : PyM CF α} {f : α → PyM CF β} (hm : KeepsNE m) (hf : ∀ x, KeepsNE (f x)) :
    KeepsNE (m >>= f) := by
  intro s hs
  have h := hm s hs
  rcases hms : m s with ⟨s', r⟩
  rw [hms] at h
  cases r with
  | ok x => rw [PyM.bind_ok hms]; exact hf x s' h
  | error e => rw [PyM.bind_error hms]; exact h

theorem ne_pure {α : Type} (x : α) : KeepsNE (pure x : PyM CF α) := fun _ h => h
theorem ne_get : KeepsNE (PyM.get : PyM CF CF) := fun _ h => h
theorem ne_raise {α : Type} (e : PyErr) : KeepsNE (PyM.raise e : PyM CF α) := fun _ h => h

theorem ne_addLoop : ∀ (k i : ℕ) (ps : Params) (m : Mat), KeepsNE (addLoop k i ps m) := by
  intro k
  induction k with
  | zero => intro i ps m s hs; exact hs
  | succ k ih =>
    intro i ps m s hs
    rw [addLoop]
    split
    · exact hs
    · apply ih
      split
      · exact ⟨by simp, by simp⟩
      · exact hs

theorem ne_add (n : ℤ) (fin : Bool) : KeepsNE (addIterations n fin) := by
  intro s hs
  rw [addIterations]
  have h := ne_addLoop n.toNat 0 (s.logs.getLastD s.params) (s.mats.getLastD s.first) s hs
  rcases hms : addLoop n.toNat 0 (s.logs.getLastD s.params) (s.mats.getLastD s.first) s with ⟨s', r⟩
  rw [hms] at h
  cases r with
  | error e => exact h
  | ok r =>
    cases hl : s'.logging <;> simp only [hl, if_true, Bool.false_eq_true, if_false]
    · exact ⟨by simp, by simp⟩
    · exact h

theorem ne_gen (n : ℤ) (fin : Bool) : KeepsNE (genIterations n fin) := fun s _ =>
  ne_add n fin s.reset ⟨by simp [CF.reset], by simp [CF.reset]⟩

theorem ne_genAcc (req : ℚ → ℚ → Except PyErr ℤ) (n : ℤ) (acc : ℚ) (fin : Bool) : KeepsNE (genIterationsAcc req n acc fin) := by
  intro s hs
  rw [genIterationsAcc]
  split
  · split
    · exact ne_gen n fin s hs
    · split
      · exact hs
      · exact ne_gen _ fin s hs
  · exact ne_gen n fin s hs

theorem ne_fastLoop (step : ℤ) (k : ℕ) : KeepsNE (fastLoop step k) := by
  induction k with
  | zero => exact ne_pure _
  | succ k ih =>
    refine ne_bind ne_get fun _ => ne_bind (ne_add _ _) fun _ => ne_bind ne_get fun _ =>
      ne_bind (ne_add _ _) fun _ => ne_bind ne_get fun _ => ne_bind (ne_add _ _) fun _ =>
      ne_bind ne_get fun _ => ne_bind (ne_add _ _) fun _ => ne_bind ne_get fun _ =>
      ne_bind (ne_add _ _) fun _ => ne_bind ne_get fun _ => ?_
    simp only
    split
    · exact ne_pure _
    · exact ne_bind (ne_add _ _) fun _ => ih

theorem ne_six : KeepsNE sixResults :=
  ne_bind ne_get fun _ => ne_bind (ne_add _ _) fun _ => ne_bind ne_get fun _ =>
      ne_bind (ne_add _ _) fun _ => ne_bind ne_get fun _ => ne_bind (ne_add _ _) fun _ =>
      ne_bind ne_get fun _ => ne_bind (ne_add _ _) fun _ => ne_bind ne_get fun _ =>
      ne_bind (ne_add _ _) fun _ => ne_bind ne_get fun _ => ne_pure _

theorem ne_sampleLoop (step : ℤ) (k : ℕ) : ∀ i, KeepsNE (sampleLoop step k i) := by
  induction k with
  | zero => intro i; exact ne_pure _
  | succ k ih =>
    intro i
    exact ne_bind (ne_add _ _) fun _ => ne_bind ne_six fun _ => ne_bind (ih _) fun _ => ne_pure _

theorem ne_run (op : CFOp) (s : CF) (hs : NonEmpty s) : NonEmpty (op.run s) := by
  cases op with
  | gen n fin => exact ne_gen n fin s hs
  | genAcc req n acc fin => exact ne_genAcc req n acc fin s hs
  | add n fin => exact ne_add n fin s hs
  | reinit a b =>
    show NonEmpty (reinitialize a b none s).1
    rw [reinitialize]
    simp only
    split
    · split
      · exact hs
      · exact hs
    · exact hs
  | setApproach t ps => exact hs
  | fast i c st =>
    refine ne_bind (ne_gen _ _) (fun _ => ne_bind ?_ fun _ => ne_bind (ne_gen _ _) fun _ => ne_pure _) s hs
    unfold fastFor
    split
    · exact ne_raise _
    · exact ne_fastLoop _ _
  | samples i c st =>
    refine ne_bind (ne_gen _ _) (fun _ => ne_bind ne_six fun _ => ne_bind ?_ fun _ => ne_pure _) s hs
    unfold sampleFor
    split
    · exact ne_raise _
    · exact ne_sampleLoop _ _ _

theorem run_inStep {s : CF} {z : Bool} (hg : Good s z false) (hne : NonEmpty s) (hs : InStep s) (op : CFOp) (hop : op.Sane) :
    InStep (op.run s) := by
  cases op with
  | gen n fin => exact keeps_gen hop fin s ⟨z, hg⟩ hs
  | genAcc req n acc fin => exact keeps_genAcc hop.1 hop.2 acc fin s ⟨z, hg⟩ hs
  | add n fin => exact keeps_add hop fin s ⟨z, hg⟩ hs
  | reinit a b => exact reinit_inStep hs hne a b
  | setApproach t ps =>
    obtain ⟨a, b, n, h⟩ := hs
    exact ⟨a, b, n, h.ha, h.hb, h.hla, h.hlb, h.hm, h.hn⟩
  | fast i c st => exact keeps_fast hop.1 hop.2 s ⟨z, hg⟩ hs
  | samples i c st => exact keeps_samples hop.1 hop.2 s ⟨z, hg⟩ hs

/-- **C17 (partial).** For an object without logging, after every history of calls (whether they returned
or raised) with non-negative counts and sampling steps of at least 5, the stored matrix is the pair of
convergents number `n`, `n - 1` of the coefficients recorded with it, `n` being the executed-iterations
counter.
Missing with respect to C17: logging objects (`C12_failed_iteration_logging_violated`), negative counts
and small steps (`C17_index_in_step_violated`). -/
theorem C17_index_in_step_partial {a₀ b₀ : Coeffs} {z : Bool} {s₀ : CF} (hinit : init a₀ b₀ z none false = .ok s₀)
    (ops : List CFOp) (hops : ∀ op ∈ ops, op.Sane) :
    let s := runOps ops s₀
    ∃ (ps : Params) (n : ℕ), s.logs.getLast? = some ps ∧ getNumOfExecutedIters s = n ∧
      s.mats.getLast? = some ((contP (seqAt ps.a) (seqAt ps.b) (n + 1), contP (seqAt ps.a) (seqAt ps.b) n),
                              (contQ (seqAt ps.a) (seqAt ps.b) (n + 1), contQ (seqAt ps.a) (seqAt ps.b) n)) := by
  intro s
  obtain ⟨hw, rfl⟩ := init_fresh hinit
  have key : ∀ (ops : List CFOp) (s : CF), (∀ op ∈ ops, op.Sane) → Good s z false → NonEmpty s → InStep s →
      NonEmpty (runOps ops s) ∧ InStep (runOps ops s) := by
    intro ops
    induction ops with
    | nil => intro s _ _ hne hs; exact ⟨hne, hs⟩
    | cons op ops ih =>
      intro s ho hg hne hs
      exact ih (op.run s) (fun o h => ho o (List.mem_cons_of_mem _ h)) (run_good hg op) (ne_run op s hne)
        (run_inStep hg hne hs op (ho op List.mem_cons_self))
  obtain ⟨hne, a, b, n, h⟩ := key ops _ hops (fresh_good hw z false) ⟨by simp [fresh], by simp [fresh]⟩
    ⟨_, _, _, fresh_synced hw z false⟩
  have hlast : ∀ {α : Type} (l : List α) (d : α), l ≠ [] → l.getLast? = some (l.getLastD d) := by
    intro α l d hl
    rw [List.getLast?_eq_some_getLast hl]
    cases l with
    | nil => exact absurd rfl hl
    | cons x xs => simp [List.getLast?_cons, List.getLast_eq_getLastD]
  refine ⟨s.logs.getLastD s.params, n, hlast _ _ hne.1, h.hn, ?_⟩
  rw [h.hla, h.hlb, hlast s.mats s.first hne.2, h.hm]
  rfl

example : ∃ s₀, init [[1]] [[1]] true none false = .ok s₀ ∧
    ∀ op ∈ [CFOp.gen 3 true, .fast 20 3 6, .add 2 false], op.Sane := by
  refine ⟨_, rfl, ?_⟩
  intro op h
  simp only [List.mem_cons, List.not_mem_nil, or_false] at h
  rcases h with rfl | rfl | rfl <;> simp [CFOp.Sane]

/-- The sampled results in closed form. -/
theorem estimateSamples_closed {s : CF} {z l : Bool} (hg : Good s z l) (iters cutoff step : ℕ) (hstep : 5 ≤ step)
    (hc : 0 < cutoff ∨ l = false) (hz : NoZero z s.params.b 0 (max cutoff iters + 5)) :
    ∃ s', estimateSamples iters cutoff step s = (s', .ok ((List.range ((iters - cutoff) / step + 1)).map fun (j : ℕ) =>
      (((cutoff + j * step : ℕ) : ℤ), (List.range 6).map fun t => convVal s.params.a s.params.b (cutoff + j * step + t)))) := by
  obtain ⟨s1, e1, h1, c1, r1⟩ := gen_ok hg cutoff true (hz.mono (by omega) (by omega))
  obtain ⟨s2, e2, h2, c2, r2⟩ := six_closed h1 (r1 (by cases l <;> simp_all)) (by
    rw [core_avoid c1, hg.avoid]; exact hz.mono (by omega) (by omega))
  have hstep0 : 0 < step := by omega
  have hkj : ∀ j : ℕ, j < rangeLen ((cutoff : ℤ) + step) ((iters : ℤ) + 1) step ↔ cutoff + (j + 1) * step ≤ iters := by
    intro j
    rw [rangeLen_lt_iff _ _ _ (by omega)]
    have : ((cutoff + (j + 1) * step : ℕ) : ℤ) = (cutoff : ℤ) + step + j * step := by push_cast; ring
    omega
  have hkj' : ∀ j : ℕ, j < (iters - cutoff) / step ↔ cutoff + (j + 1) * step ≤ iters := by
    intro j
    rw [show j < (iters - cutoff) / step ↔ j + 1 ≤ (iters - cutoff) / step from Iff.rfl, Nat.le_div_iff_mul_le hstep0]
    have : 0 < (j + 1) * step := by positivity
    omega
  have hk : rangeLen ((cutoff : ℤ) + step) ((iters : ℤ) + 1) step = (iters - cutoff) / step := by
    apply le_antisymm
    · by_contra h
      exact absurd ((hkj' _).2 ((hkj ((iters - cutoff) / step)).1 (by omega))) (by omega)
    · by_contra h
      exact absurd ((hkj _).2 ((hkj' (rangeLen ((cutoff : ℤ) + step) ((iters : ℤ) + 1) step)).1 (by omega))) (by omega)
  set k := (iters - cutoff) / step with hkdef
  have hbound : cutoff + k * step ≤ max cutoff iters := by
    rcases Nat.eq_zero_or_pos k with h0 | h0
    · rw [h0]; omega
    · have := (hkj' (k - 1)).1 (by omega)
      rw [show k - 1 + 1 = k by omega] at this
      omega
  obtain ⟨s3, e3, -, -, -⟩ := sampleLoop_closed (a := s.params.a) (b := s.params.b) step hstep k s2 cutoff h2 r2 (by
    rw [core_avoid c2, core_avoid c1, hg.avoid]; exact hz.mono (by omega) (by omega))
  have hfor : sampleFor iters cutoff step s2 = sampleLoop (step : ℤ) k ((cutoff : ℤ) + step) s2 := by
    rw [sampleFor, if_neg (by omega), hk]
  rw [← hfor] at e3
  refine ⟨s3, ?_⟩
  rw [estimateSamples, PyM.bind_ok e1, PyM.bind_ok e2, PyM.bind_ok e3, PyM.pure_apply, List.range_succ_eq_map (n := k),
    List.map_cons, List.map_map]
  have hj : ∀ j : ℕ, ((cutoff + (j + 1) * step : ℕ) : ℤ) = (cutoff : ℤ) + (j + 1) * step := fun j => by push_cast; ring
  simp only [Function.comp_def, Nat.succ_eq_add_one, hj, Nat.zero_mul, Nat.add_zero]

/-- **C17 (partial), samples.** With a step of at least 5, the estimator takes six results at the indices `cutoff`,
`cutoff + step`, … up to `iters`, and those it labels with index `i` are the convergents `i, …, i + 5`. -/
theorem C17_samples_labelled_partial {a₀ b₀ : Coeffs} {z l : Bool} {s₀ : CF} (hinit : init a₀ b₀ z none l = .ok s₀)
    (ops : List CFOp) (iters cutoff step : ℕ) (hstep : 5 ≤ step) (hc : 0 < cutoff ∨ l = false)
    (hz : z = true → ∀ j, 1 ≤ j → j ≤ max cutoff iters + 5 → seqAt (runOps ops s₀).params.b j ≠ 0) :
    let s := runOps ops s₀
    ∃ s' samples, estimateSamples iters cutoff step s = (s', .ok samples) ∧
      samples.map Prod.fst = (List.range ((iters - cutoff) / step + 1)).map (fun j => ((cutoff + j * step : ℕ) : ℤ)) ∧
      ∀ x ∈ samples, ∃ i : ℕ, x.1 = i ∧ x.2 = (List.range 6).map fun t =>
        let p := contP (seqAt s.params.a) (seqAt s.params.b) (i + t + 1)
        let q := contQ (seqAt s.params.a) (seqAt s.params.b) (i + t + 1)
        if q = 0 then .nan else .fin ((p : ℚ) / q) := by
  intro s
  have hg : Good s z l := reachable_good hinit ops
  have hz' : NoZero z s.params.b 0 (max cutoff iters + 5) := fun j h1 h2 h3 => hz h3.1 j (by omega) h2 h3.2
  obtain ⟨s', e⟩ := estimateSamples_closed hg iters cutoff step hstep hc hz'
  refine ⟨s', _, e, by rw [List.map_map]; rfl, ?_⟩
  intro x hx
  obtain ⟨j, -, rfl⟩ := List.mem_map.1 hx
  exact ⟨cutoff + j * step, rfl, rfl⟩

example : ∃ s₀, init [[1]] [[1]] true none true = .ok s₀ ∧ 5 ≤ 6 ∧
    ∀ j, 1 ≤ j → j ≤ max 3 20 + 5 → seqAt (runOps [] s₀).params.b j ≠ 0 := by
  refine ⟨_, rfl, by decide, fun j _ _ => ?_⟩
  simp [runOps, seqAt, horner, Nat.mod_one]

/-- The object for `1 + 1/(1 + …)` in an arbitrary state. -/
def golden (p p' q q' : ℤ) (r : Num) (n : ℤ) : CF :=
  { params := ⟨[[1]], [[1]], .fin 1⟩, first := ((1, 1), (1, 0)), autoFirst := true, avoidZeroB := false, logging := false,
    approachType := .none, approachParams := none, logs := [⟨[[1]], [[1]], r⟩], mats := [((p, p'), (q, q'))], executed := n }

/-- **C17 (violated).** The guard against `iters_step < 6` builds an exception but does not raise it: with
`iters_step = 1` (which `estimate_approach_type_and_params` itself uses) the estimator calls
`add_iterations(-4)`; this lowers the counter without going back, so that on `1 + 1/(1 + …)` the results it
labels with index 1 start with convergent number 5, i.e. 13/8 instead of 2. -/
theorem C17_index_in_step_violated :
    ∃ s₀ s' rs, init [[1]] [[1]] false none false = .ok s₀ ∧
      estimateSamples 1 0 1 s₀ = (s', .ok [(0, rs), (1, [.fin (13/8), .fin (21/13), .fin (34/21), .fin (55/34), .fin (89/55), .fin (144/89)])]) ∧
      s'.executed = 6 ∧ getPQ s' = (89, 55) ∧
      (contP (fun _ => 1) (fun _ => 1) 6, contQ (fun _ => 1) (fun _ => 1) 6) = (13, 8) := by
  have hget : ∀ s : CF, (PyM.get : PyM CF CF) s = (s, .ok s) := fun _ => rfl
  have e0 : genIterations 0 true (golden 1 1 1 0 (.fin 1) 0) = ((golden 1 1 1 0 (.fin 1) 0), .ok ()) := by decide +kernel
  have u0 : addIterations 1 true (golden 1 1 1 0 (.fin 1) 0) = ((golden 2 1 1 1 (.fin (2/1)) 1), .ok ()) := by decide +kernel
  have u1 : addIterations 1 true (golden 2 1 1 1 (.fin (2/1)) 1) = ((golden 3 2 2 1 (.fin (3/2)) 2), .ok ()) := by decide +kernel
  have u2 : addIterations 1 true (golden 3 2 2 1 (.fin (3/2)) 2) = ((golden 5 3 3 2 (.fin (5/3)) 3), .ok ()) := by decide +kernel
  have u3 : addIterations 1 true (golden 5 3 3 2 (.fin (5/3)) 3) = ((golden 8 5 5 3 (.fin (8/5)) 4), .ok ()) := by decide +kernel
  have u4 : addIterations 1 true (golden 8 5 5 3 (.fin (8/5)) 4) = ((golden 13 8 8 5 (.fin (13/8)) 5), .ok ()) := by decide +kernel
  have u : sixResults (golden 1 1 1 0 (.fin 1) 0) = ((golden 13 8 8 5 (.fin (13/8)) 5), .ok [.fin 1, .fin (2/1), .fin (3/2), .fin (5/3), .fin (8/5), .fin (13/8)]) := by
    rw [sixResults, PyM.bind_ok (hget _), PyM.bind_ok u0, PyM.bind_ok (hget _), PyM.bind_ok u1, PyM.bind_ok (hget _), PyM.bind_ok u2, PyM.bind_ok (hget _), PyM.bind_ok u3, PyM.bind_ok (hget _), PyM.bind_ok u4, PyM.bind_ok (hget _)]; rfl
  have back : addIterations (1 - 5) true (golden 13 8 8 5 (.fin (13/8)) 5) = ((golden 13 8 8 5 (.fin (13/8)) 1), .ok ()) := by decide +kernel
  have v0 : addIterations 1 true (golden 13 8 8 5 (.fin (13/8)) 1) = ((golden 21 13 13 8 (.fin (21/13)) 2), .ok ()) := by decide +kernel
  have v1 : addIterations 1 true (golden 21 13 13 8 (.fin (21/13)) 2) = ((golden 34 21 21 13 (.fin (34/21)) 3), .ok ()) := by decide +kernel
  have v2 : addIterations 1 true (golden 34 21 21 13 (.fin (34/21)) 3) = ((golden 55 34 34 21 (.fin (55/34)) 4), .ok ()) := by decide +kernel
  have v3 : addIterations 1 true (golden 55 34 34 21 (.fin (55/34)) 4) = ((golden 89 55 55 34 (.fin (89/55)) 5), .ok ()) := by decide +kernel
  have v4 : addIterations 1 true (golden 89 55 55 34 (.fin (89/55)) 5) = ((golden 144 89 89 55 (.fin (144/89)) 6), .ok ()) := by decide +kernel
  have v : sixResults (golden 13 8 8 5 (.fin (13/8)) 1) = ((golden 144 89 89 55 (.fin (144/89)) 6), .ok [.fin (13/8), .fin (21/13), .fin (34/21), .fin (55/34), .fin (89/55), .fin (144/89)]) := by
    rw [sixResults, PyM.bind_ok (hget _), PyM.bind_ok v0, PyM.bind_ok (hget _), PyM.bind_ok v1, PyM.bind_ok (hget _), PyM.bind_ok v2, PyM.bind_ok (hget _), PyM.bind_ok v3, PyM.bind_ok (hget _), PyM.bind_ok v4, PyM.bind_ok (hget _)]; rfl
  refine ⟨(golden 1 1 1 0 (.fin 1) 0), (golden 144 89 89 55 (.fin (144/89)) 6), [.fin 1, .fin (2/1), .fin (3/2), .fin (5/3), .fin (8/5), .fin (13/8)], rfl, ?_, rfl, rfl, by decide +kernel⟩
  rw [estimateSamples, PyM.bind_ok e0, PyM.bind_ok u]
  have w : sampleFor 1 0 1 (golden 13 8 8 5 (.fin (13/8)) 5) = (golden 144 89 89 55 (.fin (144/89)) 6,
      .ok [(1, [.fin (13/8), .fin (21/13), .fin (34/21), .fin (55/34), .fin (89/55), .fin (144/89)])]) := by
    show sampleLoop 1 1 1 _ = _
    rw [sampleLoop, PyM.bind_ok back, PyM.bind_ok v]; rfl
  rw [PyM.bind_ok w]; rfl

end PiCF.ContFrac
