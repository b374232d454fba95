import Mathlib.Tactic.Ring
import Mathlib.Tactic.FieldSimp
import Verif.Model.Promo
import Verif.Props.ContFrac

/-!
# C126: promotion matrices and first matrices given by the caller
-/

namespace PiCF.ContFrac
open PiCF.Spec

/-! ### The default generator -/

theorem addLoopG_default (k : ℕ) : ∀ (i : ℕ) (ps : Params) (m : Mat) (s : CF) (z : Bool), s.avoidZeroB = z →
    addLoopG (promoMatGen z) k i ps m s = addLoop k i ps m s := by
  induction k with
  | zero => intros; rfl
  | succ k ih =>
    rintro i ps m s _ rfl
    have h : iterationAlgorithmG (promoMatGen s.avoidZeroB) s.logging ps m (i + s.executed) =
        iterationAlgorithm s.avoidZeroB s.logging ps m (i + s.executed) := rfl
    rw [addLoopG, addLoop, h]
    cases iterationAlgorithm s.avoidZeroB s.logging ps m (i + s.executed) with
    | error e => rfl
    | ok r =>
      simp only
      exact ih _ _ _ _ _ (by split <;> rfl)

/-- **C126 (default).** With the default generator the object behaves as in C08–C23. -/
theorem C126_default (n : ℤ) (fin : Bool) (s : CF) :
    genIterationsG (promoMatGen s.avoidZeroB) n fin s = genIterations n fin s ∧
    addIterationsG (promoMatGen s.avoidZeroB) n fin s = addIterations n fin s := by
  have h : ∀ s : CF, addIterationsG (promoMatGen s.avoidZeroB) n fin s = addIterations n fin s := by
    intro s
    rw [addIterationsG, addIterations, addLoopG_default _ _ _ _ _ _ rfl]
    rcases addLoop n.toNat 0 (s.logs.getLastD s.params) (s.mats.getLastD s.first) s with ⟨s', r⟩
    cases r <;> rfl
  exact ⟨h { s with logs := [s.params], mats := [s.first], executed := 0 }, h s⟩

/-! ### The value -/

/-- The sequence with its first element replaced by 0. -/
def tailSeq (α : ℕ → ℤ) : ℕ → ℤ := fun i => if i = 0 then 0 else α i

/-- The state matrix after `n` iterations that start with `m`. -/
def matAt (m : Mat) (α β : ℕ → ℤ) (n : ℕ) : Mat :=
  let f (x : ℤ × ℤ) (k : ℕ) := x.1 * contQ (tailSeq α) β k + x.2 * contP (tailSeq α) β k
  ((f m.1 (n + 1), f m.1 n), (f m.2 (n + 1), f m.2 n))

theorem matAt_zero (m : Mat) (α β : ℕ → ℤ) : matAt m α β 0 = m := by
  simp [matAt, contP, contQ, tailSeq]

theorem addLoopG_ok {gen : PromoGen} {a b : Coeffs} {α β : ℕ → ℤ} (m : Mat) : ∀ (k i : ℕ) (ps : Params) (s : CF), s.executed = 0 → ps.a = a →
    ps.b = b → (∀ j : ℕ, i < j → j ≤ i + k → gen j a b = .ok (α j, β j)) →
    ∃ s' ps', addLoopG gen k i ps (matAt m α β i) s = (s', .ok (ps', matAt m α β (i + k))) ∧ s'.executed = 0 ∧ s'.logging = s.logging ∧
      (s.logging = false → s' = s) ∧
      (s.logging = true → 0 < k → s'.logs.getLast? = some ps' ∧ ps'.res = quotient (matAt m α β (i + k)).1.1 (matAt m α β (i + k)).2.1) := by
  intro k
  induction k with
  | zero => exact fun i ps s hs _ _ _ => ⟨s, ps, rfl, hs, rfl, fun _ => rfl, fun _ h => absurd h (by simp)⟩
  | succ k ih =>
    intro i ps s hs ha hb hgen
    have hg := hgen (i + 1) (by omega) (by omega)
    push_cast at hg
    have hm : iterationAlgorithmG gen s.logging ps (matAt m α β i) (i + s.executed) =
        .ok (if s.logging then { ps with res := quotient (matAt m α β (i + 1)).1.1 (matAt m α β (i + 1)).2.1 } else ps,
          matAt m α β (i + 1)) := by
      have h1 : ∀ x : ℤ × ℤ, (x.1 * contQ (tailSeq α) β (i + 1) + x.2 * contP (tailSeq α) β (i + 1)) * α (i + 1) +
          (x.1 * contQ (tailSeq α) β i + x.2 * contP (tailSeq α) β i) * β (i + 1) =
          x.1 * contQ (tailSeq α) β (i + 2) + x.2 * contP (tailSeq α) β (i + 2) := by
        intro x
        rw [contQ, contP, show tailSeq α (i + 1) = α (i + 1) from if_neg (by omega)]
        ring
      rw [iterationAlgorithmG, ha, hb, hs, add_zero, hg]
      simp only [matAt, h1]
    rw [addLoopG, hm]
    simp only
    obtain ⟨s', ps', e, h1, h2, h3, h4⟩ := ih (i + 1)
      (if s.logging then { ps with res := quotient (matAt m α β (i + 1)).1.1 (matAt m α β (i + 1)).2.1 } else ps)
      (if s.logging then { s with
          logs := s.logs ++ [if s.logging then { ps with res := quotient (matAt m α β (i + 1)).1.1 (matAt m α β (i + 1)).2.1 } else ps],
          mats := s.mats ++ [matAt m α β (i + 1)] } else s)
      (by split <;> exact hs) (by split <;> exact ha) (by split <;> exact hb) (fun j h h' => hgen j (by omega) (by omega))
    have hl : (if s.logging then { s with
          logs := s.logs ++ [if s.logging then { ps with res := quotient (matAt m α β (i + 1)).1.1 (matAt m α β (i + 1)).2.1 } else ps],
          mats := s.mats ++ [matAt m α β (i + 1)] } else s).logging = s.logging := by split <;> rfl
    refine ⟨s', ps', by rw [show i + (k + 1) = i + 1 + k by omega]; exact e, h1, h2.trans hl, fun h => ?_, fun h _ => ?_⟩
    · rw [h3 (hl.trans h), if_neg (by simp [h])]
    · rw [show i + (k + 1) = i + 1 + k by omega]
      rcases Nat.eq_zero_or_pos k with rfl | hk
      · rw [addLoopG] at e
        have e1 := (Prod.mk.inj e).1
        have e2 := (Prod.mk.inj (Except.ok.inj (Prod.mk.inj e).2)).1
        rw [← e1, ← e2]
        simp [h]
      · exact h4 (hl.trans h) hk

/-- **C126 (value).** If the generator returns `(α_i, β_i)` for `i = 1, …, n`, then `gen_iterations(n)` of an object in any state succeeds,
and with the first matrix `((p, p'), (q, q'))` its result is `(p + p' x) / (q + q' x)`, where
`x = β_1/(α_1 + β_2/(… + β_n/α_n))` (`NaN` if the denominator is 0).  With the default first matrix `((a_0, 1), (1, 0))` this is `a_0 + x`.
For a logging object `n ≥ 1` is needed, see C15. -/
theorem C126_value (s : CF) (gen : PromoGen) (α β : ℕ → ℤ) (n : ℕ) (p p' q q' : ℤ) (hf : s.first = ((p, p'), (q, q')))
    (hgen : ∀ i : ℕ, 1 ≤ i → i ≤ n → gen i s.params.a s.params.b = .ok (α i, β i)) (hl : s.logging = true → 0 < n) (x : ℚ)
    (hx : nested (fun i => if i = 0 then 0 else (α i : ℚ)) (fun i => (β i : ℚ)) 0 n = some x) :
    ∃ s', genIterationsG gen n true s = (s', .ok ()) ∧ getNumOfExecutedIters s' = n ∧
      getResult s' = if q + q' * x = 0 then .nan else .fin ((p + p' * x) / (q + q' * x)) := by
  have hx' : nested (fun i => (tailSeq α i : ℚ)) (fun i => (β i : ℚ)) 0 n = some x := by
    rw [← hx]
    congr 1
    funext i
    rw [tailSeq]
    split <;> simp
  obtain ⟨hQ, hxv⟩ := nested_eq_cont _ _ _ _ hx'
  obtain ⟨s', ps', e, h1, h2, h3, h4⟩ := addLoopG_ok (gen := gen) (a := s.params.a) (b := s.params.b) (α := α) (β := β) s.first n 0 s.params
    { s with logs := [s.params], mats := [s.first], executed := 0 } rfl rfl rfl (fun j h h' => hgen j h (by omega))
  rw [matAt_zero, zero_add] at e
  have hq : quotient (matAt s.first α β n).1.1 (matAt s.first α β n).2.1 =
      if q + q' * x = 0 then .nan else .fin ((p + p' * x) / (q + q' * x)) := by
    have hQ' : (contQ (tailSeq α) β (n + 1) : ℚ) ≠ 0 := by exact_mod_cast hQ
    have hd : ∀ u v : ℤ, ((u * contQ (tailSeq α) β (n + 1) + v * contP (tailSeq α) β (n + 1) : ℤ) : ℚ) =
        (u + v * x) * contQ (tailSeq α) β (n + 1) := by
      intro u v
      rw [hxv]
      push_cast
      field_simp
    rw [hf, matAt, quotient]
    by_cases h0 : q + q' * x = 0
    · have : ((q * contQ (tailSeq α) β (n + 1) + q' * contP (tailSeq α) β (n + 1) : ℤ) : ℚ) = 0 := by rw [hd, h0, zero_mul]
      rw [if_pos h0, if_pos (by exact_mod_cast this)]
    · have h5 : (q * contQ (tailSeq α) β (n + 1) + q' * contP (tailSeq α) β (n + 1) : ℤ) ≠ 0 := by
        intro h
        have h := congrArg (Int.cast : ℤ → ℚ) h
        rw [hd, Int.cast_zero] at h
        exact (mul_ne_zero h0 hQ') h
      rw [if_neg h0, if_neg h5, hd, hd, mul_div_mul_right _ _ hQ']
  rw [genIterationsG, addIterationsG]
  simp only [Int.toNat_natCast, List.getLastD_cons, List.getLastD_nil, e]
  refine ⟨_, rfl, ?_, ?_⟩
  · rw [getNumOfExecutedIters]
    split <;> simp [h1]
  rw [← hq]
  rw [zero_add] at h4
  cases hs : s.logging with
  | false => simp [h2.trans hs, getResult, finalizeIterations]
  | true =>
    obtain ⟨g1, g2⟩ := h4 hs (hl hs)
    simp only [h2.trans hs, if_true, getResult]
    rw [List.getLastD_eq_getLast?, g1, Option.getD_some, g2]

/-! ### Exceptions of the generator -/

theorem addLoopG_nologging (gen : PromoGen) : ∀ (k i : ℕ) (ps : Params) (m : Mat) (s : CF), s.logging = false → (addLoopG gen k i ps m s).1 = s := by
  intro k
  induction k with
  | zero => intro i ps m s _; rfl
  | succ k ih =>
    intro i ps m s hl
    rw [addLoopG]
    split
    · rfl
    · simp only [hl, Bool.false_eq_true, if_false]
      exact ih _ _ _ _ hl

theorem addLoopG_add (gen : PromoGen) : ∀ (k l i : ℕ) (ps : Params) (m : Mat) (s s' : CF) (r : Params × Mat),
    addLoopG gen k i ps m s = (s', .ok r) → addLoopG gen (k + l) i ps m s = addLoopG gen l (i + k) r.1 r.2 s' := by
  intro k
  induction k with
  | zero =>
    intro l i ps m s s' r h
    rw [addLoopG] at h
    cases h
    rw [zero_add, add_zero]
  | succ k ih =>
    intro l i ps m s s' r h
    rw [show k + 1 + l = k + l + 1 by omega]
    rw [addLoopG] at h ⊢
    cases hi : iterationAlgorithmG gen s.logging ps m (i + s.executed) with
    | error e => rw [hi] at h; cases h
    | ok r' =>
      rw [hi] at h
      simp only at h ⊢
      rw [ih l _ _ _ _ _ _ h, show i + 1 + k = i + (k + 1) by omega]

/-- **C126 (exceptions).** If the generator raises for the first time for `i = k + 1 ≤ n`, `gen_iterations(n)` ends with this exception,
and the counter is at 0; an object without logging is then in the state with zero iterations. -/
theorem C126_raises (s : CF) (gen : PromoGen) (α β : ℕ → ℤ) (k n : ℕ) (hk : k < n) (fin : Bool) (e : PyErr)
    (hgen : ∀ i : ℕ, 1 ≤ i → i ≤ k → gen i s.params.a s.params.b = .ok (α i, β i))
    (he : gen (k + 1) s.params.a s.params.b = .error e) :
    ∃ s', genIterationsG gen n fin s = (s', .error e) ∧ getNumOfExecutedIters s' = 0 ∧
      (s.logging = false → s' = { s with logs := [s.params], mats := [s.first], executed := 0 }) := by
  have hab : ∀ (k i : ℕ) (ps : Params) (m : Mat) (s s' : CF) (r : Params × Mat), addLoopG gen k i ps m s = (s', .ok r) →
      r.1.a = ps.a ∧ r.1.b = ps.b := by
    intro k
    induction k with
    | zero =>
      intro i ps m s s' r h
      rw [addLoopG] at h
      cases h
      exact ⟨rfl, rfl⟩
    | succ k ih =>
      intro i ps m s s' r h
      rw [addLoopG] at h
      cases hi : iterationAlgorithmG gen s.logging ps m (i + s.executed) with
      | error e => rw [hi] at h; cases h
      | ok r' =>
        rw [hi] at h
        have := ih _ _ _ _ _ _ h
        rw [iterationAlgorithmG] at hi
        cases hg : gen (i + s.executed + 1) ps.a ps.b with
        | error e => simp [hg] at hi
        | ok ab =>
          simp only [hg, Except.ok.injEq] at hi
          subst hi
          simp only at this
          rw [this.1, this.2]
          split <;> exact ⟨rfl, rfl⟩
  obtain ⟨s', ps', h, h1, h2, h3, -⟩ := addLoopG_ok (gen := gen) (a := s.params.a) (b := s.params.b) (α := α) (β := β) s.first k 0 s.params
    { s with logs := [s.params], mats := [s.first], executed := 0 } rfl rfl rfl (fun j h h' => hgen j h (by omega))
  rw [matAt_zero, zero_add] at h
  obtain ⟨g1, g2⟩ := hab _ _ _ _ _ _ _ h
  have hadd := addLoopG_add gen k (n - k) 0 _ _ _ _ _ h
  rw [show k + (n - k) = n by omega, zero_add] at hadd
  have hl : addLoopG gen (n - k) k ps' (matAt s.first α β k) s' = (s', .error e) := by
    obtain ⟨d, hd⟩ : ∃ d, n - k = d + 1 := ⟨n - k - 1, by omega⟩
    rw [hd, addLoopG, iterationAlgorithmG, h1, g1, g2, add_zero, he]
  refine ⟨s', ?_, h1, h3⟩
  rw [genIterationsG, addIterationsG]
  simp only [Int.toNat_natCast, List.getLastD_cons, List.getLastD_nil, hadd, hl]

/-- **C126 (failed call).** Whatever the generator does, an `add_iterations` that raises leaves an object without logging unchanged. -/
theorem C126_failed (gen : PromoGen) (n : ℤ) (fin : Bool) (s s' : CF) (e : PyErr) (hl : s.logging = false)
    (h : addIterationsG gen n fin s = (s', .error e)) : s' = s := by
  rw [addIterationsG] at h
  have hs := addLoopG_nologging gen n.toNat 0 (s.logs.getLastD s.params) (s.mats.getLastD s.first) s hl
  rcases hr : addLoopG gen n.toNat 0 (s.logs.getLastD s.params) (s.mats.getLastD s.first) s with ⟨x, r⟩
  rw [hr] at hs h
  cases r with
  | error e' => cases h; exact hs
  | ok r => cases (Prod.mk.inj h).2

/-! ### The first matrix -/

theorem first_kept_aux (s : CF) (h : s.autoFirst = false) (a b : Option Coeffs) :
    (reinitialize a b none s).1.first = s.first ∧ (reinitialize a b none s).1.autoFirst = false ∧ (reinitialize a b none s).2 = .ok () := by
  simp [reinitialize, h]

/-- **C126 (first matrix).** An object constructed with a first matrix of the caller keeps it: whatever other polynomials it gets by any
number of `reinitialize(a, b)`, the iterations start with that matrix. -/
theorem C126_first {a b : Coeffs} {z l : Bool} {m : Mat} {s₀ : CF} (h : init a b z (some m) l = .ok s₀)
    (rs : List (Option Coeffs × Option Coeffs)) :
    (rs.foldl (fun s r => (reinitialize r.1 r.2 none s).1) s₀).first = m := by
  have h0 : s₀.first = m ∧ s₀.autoFirst = false := by
    rw [init] at h
    split at h
    · cases h
    · cases h
      exact ⟨rfl, rfl⟩
  clear h
  induction rs generalizing s₀ with
  | nil => exact h0.1
  | cons r rs ih =>
    obtain ⟨h1, h2, -⟩ := first_kept_aux s₀ h0.2 r.1 r.2
    exact ih ⟨h1.trans h0.1, h2⟩

/-! ### Zero numerators -/

/-- The generator of the simple continued fraction `a_i = 2`, `b_i = 3 - i`, written by the caller. -/
def exGen : PromoGen := fun i _ _ => .ok (2, 3 - i)

/-- **C126 (violated).** `avoid_zero_b=True` promises ZeroB for a zero numerator.  It has no effect with a generator of the caller: here
`b_3 = 0`, and the (finite) continued fraction is evaluated as if nothing had happened, `1 + 2/(2 + 1/2) = 9/5`. -/
theorem C126_zero_b_violated : ∃ s₀ s', init [[1]] [[1]] true none false = .ok s₀ ∧ exGen 3 s₀.params.a s₀.params.b = .ok (2, 0) ∧
    genIterationsG exGen 5 true s₀ = (s', .ok ()) ∧ getResult s' = .fin (9 / 5) :=
  ⟨_, _, rfl, rfl, rfl, by decide +kernel⟩

/-! ### Examples -/

/-- The hypotheses of `C126_value` and `C126_first`: the same fraction after two iterations with the first matrix `((1, 3), (2, 1))`: `x = 2/(2 + 1/2) = 4/5`, and the result is
`(1 + 3x)/(2 + x) = 17/14`. -/
example : ∃ s₀, init [[1]] [[1]] true (some ((1, 3), (2, 1))) false = .ok s₀ ∧ s₀.first = ((1, 3), (2, 1)) ∧
    (∀ i : ℕ, 1 ≤ i → i ≤ 2 → exGen i s₀.params.a s₀.params.b = .ok ((fun _ => 2 : ℕ → ℤ) i, (fun i => 3 - i : ℕ → ℤ) i)) ∧
    nested (fun i => if i = 0 then 0 else ((fun _ => 2 : ℕ → ℤ) i : ℚ)) (fun i => ((fun i => 3 - i : ℕ → ℤ) i : ℚ)) 0 2 = some (4 / 5) ∧
    ∃ s', genIterationsG exGen 2 true s₀ = (s', .ok ()) ∧ getResult s' = .fin (17 / 14) :=
  ⟨_, rfl, rfl, fun _ _ _ => rfl, by decide +kernel, _, rfl, by decide +kernel⟩

/-- A generator that raises for `i = 3`, as in `C126_raises` and `C126_failed`. -/
example : ∃ s₀, init [[1]] [[1]] true none false = .ok s₀ ∧
    (genIterationsG (fun i _ _ => if i = 3 then .error .keyError else .ok (2, 1)) 5 true s₀).2 = .error .keyError :=
  ⟨_, rfl, rfl⟩

end PiCF.ContFrac
