import Mathlib.Data.Nat.Size
import Mathlib.Algebra.Order.Ring.Abs
import Mathlib.Data.Nat.Log
import Mathlib.Data.Rat.Cast.Defs
import Mathlib.Tactic.Linarith
import Verif.Props.ContFrac

/-!
# Properties C18–C23 (`basic_representation_types.py`, `cont_fracs.py`)
-/

namespace PiCF.ContFrac
open PiCF.Spec

/-! ## C18 -/

/-- **C18.** `gen_iterations(n, accuracy)`: if it succeeds, at most `n` iterations have been executed;
exactly `n` if the approach is not (super-)exponential, has no parameters, or the accuracy is 0;
otherwise exactly `min n r` where `r` is the required number that was computed.  The computation may
answer or raise anything; if it raises, the object is unchanged. -/
theorem C18_accuracy_limited (required : ℚ → ℚ → Except PyErr ℤ) (s : CF) (n : ℤ) (accuracy : ℚ) (fin : Bool) :
    (∀ s', genIterationsAcc required n accuracy fin s = (s', .ok ()) →
      getNumOfExecutedIters s' ≤ n ∧
      ((s.approachType ≠ .exp ∧ s.approachType ≠ .superExp) ∨ s.approachParams = none ∨ accuracy = 0 →
        getNumOfExecutedIters s' = n) ∧
      (∀ base c r, (s.approachType = .exp ∨ s.approachType = .superExp) → accuracy ≠ 0 →
        s.approachParams = some (base, c) → required accuracy base = .ok r → getNumOfExecutedIters s' = min n r)) ∧
    (∀ base c e, (s.approachType = .exp ∨ s.approachType = .superExp) → accuracy ≠ 0 →
      s.approachParams = some (base, c) → required accuracy base = .error e →
      genIterationsAcc required n accuracy fin s = (s, .error e)) := by
  have hloop : ∀ (k i : ℕ) (ps : Params) (m : Mat) (x : CF), (addLoop k i ps m x).1.executed = x.executed := by
    intro k
    induction k with
    | zero => intro i ps m x; rfl
    | succ k ih =>
      intro i ps m x
      rw [addLoop]
      split
      · rfl
      · rw [ih]; split <;> rfl
  have hgen : ∀ (k : ℤ) (s' : CF), genIterations k fin s = (s', .ok ()) → s'.executed = k := by
    intro k s' h
    rw [genIterations_eq, addIterations] at h
    have hl := hloop k.toNat 0 (s.reset.logs.getLastD s.reset.params) (s.reset.mats.getLastD s.reset.first) s.reset
    rcases hr : addLoop k.toNat 0 (s.reset.logs.getLastD s.reset.params) (s.reset.mats.getLastD s.reset.first) s.reset with ⟨x, r⟩
    rw [hr] at hl h
    cases r with
    | error e => cases (Prod.mk.inj h).2
    | ok r =>
      simp only at h hl
      rw [← (Prod.mk.inj h).1]
      show (if x.logging = true then x else _).executed + k = k
      split <;> simp [hl, CF.reset]
  constructor
  · intro s' h
    rw [genIterationsAcc] at h
    unfold getNumOfExecutedIters
    split at h
    · rename_i hc
      split at h
      · rename_i hp
        have := hgen _ _ h
        exact ⟨this.le, fun _ => this, fun base c r _ _ h1 => by rw [hp] at h1; cases h1⟩
      · rename_i base c hp
        split at h
        · cases (Prod.mk.inj h).2
        · rename_i r hr
          have := hgen _ _ h
          refine ⟨by rw [this]; exact min_le_left _ _, ?_, ?_⟩
          · rintro (⟨h1, h2⟩ | h1 | h1)
            · rcases hc.1 with h3 | h3
              · exact absurd h3 h1
              · exact absurd h3 h2
            · rw [hp] at h1; cases h1
            · exact absurd h1 hc.2
          · intro base' c' r' _ _ h1 h2
            rw [hp] at h1; cases h1
            rw [hr] at h2; cases h2
            exact this
    · rename_i hc
      have := hgen _ _ h
      exact ⟨this.le, fun _ => this, fun base c r h1 h2 => absurd ⟨h1, h2⟩ hc⟩
  · intro base c e h1 h2 h3 h4
    rw [genIterationsAcc, if_pos ⟨h1, h2⟩, h3]
    simp only [h4]

-- an exponential approach that needs 3 iterations only
example : ∃ s₀ s₁ s', init [[1]] [[1]] true none false = .ok s₀ ∧ s₁ = (setApproach .exp (some (2, 1)) s₀).1 ∧
    s' = (genIterationsAcc (fun _ _ => .ok 3) 10 (1 / 100) true s₁).1 ∧
    (genIterationsAcc (fun _ _ => .ok 3) 10 (1 / 100) true s₁).2 = .ok () ∧ getNumOfExecutedIters s' = 3 :=
  ⟨_, _, _, rfl, rfl, rfl, by decide +kernel, by decide +kernel⟩

/-! ## C19 -/

/-- Negate every coefficient of every polynomial. -/
def negCoeffs (cs : List (List ℤ)) : List (List ℤ) := cs.map (·.map (-·))

theorem horner_neg (cs : List ℤ) (x : ℤ) : horner (cs.map (-·)) x = - horner cs x := by
  induction cs with
  | nil => simp [horner]
  | cons c cs ih => rw [List.map_cons, horner, horner, ih]; ring

theorem seqAt_neg (cs : List (List ℤ)) (i : ℕ) : seqAt (negCoeffs cs) i = - seqAt cs i := by
  unfold seqAt negCoeffs
  rw [List.length_map, List.getD_eq_getElem?_getD, List.getElem?_map, List.getD_eq_getElem?_getD]
  rcases cs[i % cs.length]? with _ | c
  · simp [horner]
  · exact horner_neg c i

theorem cont_neg (a b : ℕ → ℤ) : ∀ n, contP (fun i => - a i) b n = (-1) ^ n * contP a b n ∧
    contQ (fun i => - a i) b n = - ((-1) ^ n * contQ a b n) ∧
    contP (fun i => - a i) b (n + 1) = (-1) ^ (n + 1) * contP a b (n + 1) ∧
    contQ (fun i => - a i) b (n + 1) = - ((-1) ^ (n + 1) * contQ a b (n + 1)) := by
  intro n
  induction n with
  | zero => simp [contP, contQ]
  | succ n ih =>
    obtain ⟨h1, h2, h3, h4⟩ := ih
    refine ⟨h3, h4, ?_, ?_⟩
    · rw [contP, h1, h3, contP]; ring
    · rw [contQ, h2, h4, contQ]; ring

/-- Negation of a result. -/
def Num.negate : Num → Num
  | .fin x => .fin (-x)
  | x => x

/-- **C19.** Negating `a` negates the result after any number of iterations (NaN stays NaN), with the same
exceptions. -/
theorem C19_negating_a {a b : Coeffs} {z : Bool} {s t : CF} (hs : init a b z none false = .ok s)
    (ht : init (negCoeffs a) b z none false = .ok t) (n : ℕ) :
    (genIterations (n : ℤ) true t).2 = (genIterations (n : ℤ) true s).2 ∧
    ((genIterations (n : ℤ) true s).2 = .ok () →
      getResult (genIterations (n : ℤ) true t).1 = Num.negate (getResult (genIterations (n : ℤ) true s).1)) := by
  obtain ⟨hw, rfl⟩ := init_fresh hs
  obtain ⟨hw', rfl⟩ := init_fresh ht
  rw [genIterations_eq, genIterations_eq, fresh_reset, fresh_reset,
    addIterations_closed (fresh_synced hw z false), addIterations_closed (fresh_synced hw' z false)]
  simp only [show (fresh a b z false).avoidZeroB = z from rfl, show (fresh (negCoeffs a) b z false).avoidZeroB = z from rfl,
    show (fresh a b z false).logging = false from rfl, show (fresh (negCoeffs a) b z false).logging = false from rfl]
  split
  · simp only [Bool.false_eq_true, if_false, if_true, true_and]
    intro _
    simp only [getResult, List.getLastD_cons, List.getLastD_nil, Nat.zero_add]
    have hfun : seqAt (negCoeffs a) = fun i => - seqAt a i := funext (seqAt_neg a)
    obtain ⟨-, -, h3, h4⟩ := cont_neg (seqAt a) (seqAt b) n
    rw [convVal, convVal, hfun, h3, h4, quotient, quotient]
    have hu : ((-1 : ℤ)) ^ (n + 1) ≠ 0 := pow_ne_zero _ (by decide)
    by_cases hq : contQ (seqAt a) (seqAt b) (n + 1) = 0
    · simp [hq, Num.negate]
    · rw [if_neg (by simpa using hq), if_neg hq, Num.negate]
      congr 1
      have hq' : (contQ (seqAt a) (seqAt b) (n + 1) : ℚ) ≠ 0 := by exact_mod_cast hq
      have hu' : ((-1 : ℚ)) ^ (n + 1) ≠ 0 := pow_ne_zero _ (by norm_num)
      push_cast
      rw [div_neg, mul_div_mul_left _ _ hu']
  · exact ⟨rfl, fun h => by cases h⟩

example : ∃ s t, init [[1, 2]] [[3]] true none false = .ok s ∧ init (negCoeffs [[1, 2]]) [[3]] true none false = .ok t ∧
    (genIterations (3 : ℕ) true s).2 = .ok () := ⟨_, _, rfl, rfl, rfl⟩

/-! ## C20 -/

/-- **C20.** An interlace of `k` identical polynomials can be replaced by a single one, in `a` and in `b`: the
coefficient sequences are the same at every index, and every object built from them behaves the same. -/
theorem C20_squeeze (p : List ℤ) (k : ℕ) (hk : 0 < k) :
    (∀ i : ℕ, seqAt (List.replicate k p) i = seqAt [p] i) ∧
    (∀ (q : List ℤ) (m : ℕ), 0 < m → ∀ (z l : Bool) (s t : CF) (n : ℕ),
      init (List.replicate k p) (List.replicate m q) z none l = .ok s → init [p] [q] z none l = .ok t →
      (genIterations (n : ℤ) true s).2 = (genIterations (n : ℤ) true t).2 ∧
      getResult (genIterations (n : ℤ) true s).1 = getResult (genIterations (n : ℤ) true t).1) := by
  have hseq : ∀ (p : List ℤ) (k : ℕ), 0 < k → seqAt (List.replicate k p) = seqAt [p] := by
    intro p k hk
    funext i
    unfold seqAt
    rw [List.length_replicate, List.getD_eq_getElem?_getD, List.getElem?_replicate, if_pos (Nat.mod_lt _ hk)]
    simp [Nat.mod_one]
  refine ⟨fun i => by rw [hseq p k hk], ?_⟩
  intro q m hm z l s t n hs ht
  obtain ⟨hw, rfl⟩ := init_fresh hs
  obtain ⟨hw', rfl⟩ := init_fresh ht
  rw [genIterations_eq, genIterations_eq, fresh_reset, fresh_reset,
    addIterations_closed (fresh_synced hw z l), addIterations_closed (fresh_synced hw' z l)]
  have hsb : ∀ c j, stepsBefore z (List.replicate m q) c j = stepsBefore z [q] c j := by
    intro c j
    induction j generalizing c with
    | zero => rfl
    | succ j ih => rw [stepsBefore, stepsBefore, hseq q m hm, ih]
  have hval : ∀ j, convVal (List.replicate k p) (List.replicate m q) j = convVal [p] [q] j := by
    intro j; rw [convVal, convVal, hseq q m hm, hseq p k hk]
  have hpush : ∀ d, getResult ((fresh (List.replicate k p) (List.replicate m q) z l).pushed (List.replicate k p) (List.replicate m q) 0 d) =
      getResult ((fresh [p] [q] z l).pushed [p] [q] 0 d) := by
    intro d
    cases l with
    | false => rfl
    | true =>
      rcases Nat.eq_zero_or_pos d with rfl | hd
      · rfl
      · simp only [getResult, CF.pushed, show (fresh (List.replicate k p) (List.replicate m q) z true).logging = true from rfl,
          show (fresh [p] [q] z true).logging = true from rfl, if_true, snaps]
        rw [getLastD_append_map_range _ _ _ _ hd, getLastD_append_map_range _ _ _ _ hd]
        simp only [hval]
  simp only [show ∀ a b, (fresh a b z l).avoidZeroB = z from fun _ _ => rfl, show ∀ a b, (fresh a b z l).logging = l from fun _ _ => rfl, hsb]
  split
  · refine ⟨rfl, ?_⟩
    cases l with
    | false => simp [getResult, hval]
    | true => exact hpush n
  · refine ⟨rfl, ?_⟩
    exact hpush _

example : ∃ s t, init (List.replicate 3 [1, 1]) (List.replicate 2 [2]) true none false = .ok s ∧
    init [[1, 1]] [[2]] true none false = .ok t := ⟨_, _, rfl, rfl⟩

/-! ## C21 -/

/-- The exception or value a specification value stands for. -/
def orZeroDiv : Option ℚ → Except PyErr ℚ
  | some v => .ok v
  | none => .error .zeroDivision

theorem evalLoop_append (l : List (ℚ × ℚ)) (x : ℚ × ℚ) : ∀ r : ℚ, evalLoop (l ++ [x]) r =
    match evalLoop l r with
    | .error e => .error e
    | .ok v => if v = 0 then .error .zeroDivision else .ok (x.1 + x.2 / v) := by
  induction l with
  | nil => intro r; simp [evalLoop]
  | cons y l ih =>
    intro r
    rw [List.cons_append, evalLoop, evalLoop]
    split
    · rfl
    · exact ih _

theorem evalLoop_nestedList : ∀ (b as : List ℚ) (last : ℚ), as.length = b.length →
    evalLoop (as.reverse.zip b.reverse) last = orZeroDiv (nestedList (as ++ [last]) b) := by
  intro b
  induction b with
  | nil =>
    intro as last h
    rw [List.length_nil, List.length_eq_zero_iff] at h
    subst h
    rfl
  | cons b bs ih =>
    intro as last h
    match as, h with
    | a :: as, h =>
      have h' : as.length = bs.length := by simpa using h
      rw [List.reverse_cons, List.reverse_cons, List.zip_append (by simpa using h'), List.zip_cons_cons, List.zip_nil_left,
        evalLoop_append, ih as last h', List.cons_append, nestedList]
      cases nestedList (as ++ [last]) bs with
      | none => rfl
      | some d =>
        simp only [orZeroDiv]
        by_cases hd : d = 0
        · simp [hd]
        · simp [hd]

/-- **C21 (partial).** What `eval_contfrac` computes.
One more `a` than `b`: the nested fraction `a[0] + b[0]/(a[1] + …)`, with ZeroDivisionError exactly when an inner
denominator is zero.  `b` omitted: the same with ones.  Equal lengths: the nested fraction of `a` extended by
a final 1, i.e. `a[0] + b[0]/(a[1] + b[1]/(… + b[-1]/1))`.  Other lengths: ValueError.
Missing with respect to C21: for equal lengths the documentation promises `b[0]/(a[0] + b[1]/…)`, see
`C21_equal_length_violated`. -/
theorem C21_eval_contfrac_partial (a b : List ℚ) :
    (a.length = b.length + 1 → evalContfrac a (some b) = orZeroDiv (nestedList a b)) ∧
    (a ≠ [] → evalContfrac a none = orZeroDiv (nestedList a (List.replicate (a.length - 1) 1))) ∧
    (a.length = b.length → evalContfrac a (some b) = orZeroDiv (nestedList (a ++ [1]) b)) ∧
    (a.length ≠ b.length → a.length ≠ b.length + 1 → evalContfrac a (some b) = .error .valueError) := by
  have main : ∀ a b : List ℚ, a.length = b.length + 1 → evalContfrac a (some b) = orZeroDiv (nestedList a b) := by
    intro a b h
    have hne : a ≠ [] := by rintro rfl; simp at h
    unfold evalContfrac
    simp only
    rw [if_neg (by omega), if_pos h, evalLoop_nestedList _ _ _ (by rw [List.length_dropLast]; omega)]
    congr 2
    conv_rhs => rw [← List.dropLast_append_getLast hne]
    congr 2
    cases a with
    | nil => exact absurd rfl hne
    | cons x xs => simp [List.getLast?_cons, List.getLast_eq_getLastD]
  refine ⟨main a b, ?_, ?_, ?_⟩
  · intro hne
    rw [← main a _ (by
      have := List.length_pos_iff.2 hne
      rw [List.length_replicate]; omega)]
    rfl
  · intro h
    unfold evalContfrac
    simp only
    rw [if_pos h, evalLoop_nestedList _ _ _ h]
  · intro h1 h2
    unfold evalContfrac
    simp only
    rw [if_neg h1, if_neg h2]

-- 1 + 2/(3 + 4/5) = 29/19
example : ([1, 3, 5] : List ℚ).length = ([2, 4] : List ℚ).length + 1 ∧ nestedList [1, 3, 5] [2, 4] = some (29 / 19) := by
  decide +kernel

/-- **C21 (violated).** For lists of equal length the documented value is `b[0]/(a[0] + …)`; for `a = [1]`, `b = [1]`
this is 1, but the result is 2. -/
theorem C21_equal_length_violated : evalContfrac [1] (some [1]) = .ok 2 ∧ nestedList (0 :: [1]) [1] = some 1 := by
  decide +kernel

/-! ## C22 -/

theorem horner_cast (cs : List ℤ) (x : ℤ) : horner (cs.map (Int.cast : ℤ → ℚ)) (x : ℚ) = ((horner cs x : ℤ) : ℚ) := by
  induction cs with
  | nil => simp [horner]
  | cons c cs ih => rw [List.map_cons, horner, horner, ih]; push_cast; ring

theorem nestedList_cons (a b : ℚ) (as bs : List ℚ) : nestedList (a :: as) (b :: bs) =
    match nestedList as bs with
    | none => none
    | some d => if d = 0 then none else some (a + b / d) := by
  cases as <;> rfl

theorem nestedList_range (a b : ℕ → ℚ) (n : ℕ) : ∀ k,
    nestedList ((List.range' k (n + 1)).map a) ((List.range' (k + 1) n).map b) = nested a b k n := by
  induction n with
  | zero => intro k; rfl
  | succ n ih =>
    intro k
    have e1 : (List.range' k (n + 1 + 1)).map a = a k :: (List.range' (k + 1) (n + 1)).map a := by
      rw [List.range'_succ, List.map_cons]
    have e2 : (List.range' (k + 1) (n + 1)).map b = b (k + 1) :: (List.range' (k + 1 + 1) n).map b := by
      rw [List.range'_succ, List.map_cons]
    rw [e1, e2, nestedList_cons, ih, nested]
    rfl

/-- **C22.** The bottom-up evaluation used for the hashtable and the recurrence used in the later refinements give the
same number: if `eval_dec_contfrac_by_polys(a, b, n+1)` does not divide by zero, its value is the result of
`ContFrac(a, b, avoid_zero_b=False).gen_iterations(n)`. -/
theorem C22_evaluators_agree {a b : Coeffs} {s₀ : CF} (hinit : init a b false none false = .ok s₀) (n : ℕ) (v : ℚ)
    (h : evalByPolys a b (n + 1) = .ok v) :
    ∃ s', genIterations (n : ℤ) true s₀ = (s', .ok ()) ∧ getResult s' = .fin v := by
  have hw := (init_fresh hinit).1
  have hp : s₀.params = ⟨a, b, .fin 1⟩ := by rw [(init_fresh hinit).2]; rfl
  have hval : ∀ (cs : Coeffs) (i : ℕ),
      Utils.subsInPolynom ((cs.getD (i % cs.length) []).map (Int.cast : ℤ → ℚ)) (i : ℚ) = ratSeq cs i := by
    intro cs i
    rw [Utils.subsInPolynom_eq_horner, ratSeq, seqAt, ← horner_cast]
    simp
  rw [evalByPolys, if_neg (by simp [hw.ha, hw.hb])] at h
  simp only [hval] at h
  rw [(C21_eval_contfrac_partial _ _).1 (by simp), Nat.add_sub_cancel, List.range_eq_range', nestedList_range] at h
  have hn : nested (ratSeq a) (ratSeq b) 0 n = some v := by
    rcases hx : nested (ratSeq a) (ratSeq b) 0 n with _ | x
    · rw [hx] at h; cases h
    · rw [hx] at h; cases h; rfl
  obtain ⟨s', e, r, -⟩ := C08_convergent_value hinit [] n v (by simpa [runOps, hp] using hn) (by simp) (by simp)
  exact ⟨s', e, r⟩

example : ∃ s₀, init [[1], [2]] [[3, 1]] false none false = .ok s₀ ∧ (evalByPolys [[1], [2]] [[3, 1]] 4).isOk = true :=
  ⟨_, rfl, by decide +kernel⟩

/-! ## C23 -/

/-- The stored answer is the answer to the last of `k` calls. -/
def IsLast (inner : Inner) (k : ℕ) (ans : ApproachType × Option (ℚ × ℚ)) : Prop :=
  0 < k ∧ ∃ args, inner (k - 1) args = .ok ans

/-- The claim about the first loop. -/
def Out1 (inner : Inner) (bound : ℕ) : Except PyErr ((ApproachType × Option (ℚ × ℚ)) × ℤ × ℕ) → Prop
  | .ok (ans, _, k) => IsLast inner k ans ∧ k ≤ bound
  | .error e => ∃ j args, inner j args = .error e

theorem Out1.mono {inner : Inner} {m n : ℕ} (h : m ≤ n) : ∀ {r}, Out1 inner m r → Out1 inner n r
  | .ok (_, _, _), h' => ⟨h'.1, h'.2.trans h⟩
  | .error _, h' => h'

/-- The claim about the second loop and the whole. -/
def Out2 (inner : Inner) (bound : ℕ) : Except PyErr ((ApproachType × Option (ℚ × ℚ)) × ℕ) → Prop
  | .ok (ans, k) => IsLast inner k ans ∧ k ≤ bound
  | .error e => ∃ j args, inner j args = .error e

theorem Out2.mono {inner : Inner} {m n : ℕ} (h : m ≤ n) : ∀ {r}, Out2 inner m r → Out2 inner n r
  | .ok (_, _), h' => ⟨h'.1, h'.2.trans h⟩
  | .error _, h' => h'

theorem estLoop1_spec (inner : Inner) : ∀ (c : ℕ) (k : ℕ) (iters cutoff step : ℤ) (ans : ApproachType × Option (ℚ × ℚ)),
    cutoff.toNat ≤ c → IsLast inner k ans →
    Out1 inner (k + (if 0 < cutoff then Nat.log 2 cutoff.toNat + 1 else 0)) (estLoop1 inner k iters cutoff step ans) := by
  intro c
  induction c using Nat.strong_induction_on with
  | _ c ih =>
    intro k iters cutoff step ans hc hl
    rw [estLoop1]
    by_cases hcond : ans.1 = .fast ∧ cutoff > 0
    · rw [dif_pos hcond]
      obtain ⟨hfast, hpos⟩ := hcond
      rw [if_pos hpos]
      simp only
      split
      · rename_i e he
        exact ⟨_, _, he⟩
      · rename_i ans' he
        have hhalf : (cutoff.fdiv 2).toNat = cutoff.toNat / 2 := by
          rw [Int.fdiv_eq_ediv_of_nonneg _ (by decide)]; omega
        have hpos' : 0 < cutoff.toNat := by omega
        refine Out1.mono ?_ (ih (cutoff.toNat / 2) (by omega) (k + 1) (max 50 (iters.fdiv 2)) (cutoff.fdiv 2)
          (max (truncDiv30 (max 50 (iters.fdiv 2) - cutoff.fdiv 2)) (step.fdiv 2)) ans' (by rw [hhalf])
          ⟨by omega, _, he⟩)
        rw [hhalf]
        split
        · rename_i hh
          have h2' : 2 ≤ cutoff.toNat := by
            rw [Int.fdiv_eq_ediv_of_nonneg _ (by decide)] at hh; omega
          rw [Nat.log_div_base]
          have : 0 < Nat.log 2 cutoff.toNat := Nat.log_pos (by decide) h2'
          omega
        · omega
    · rw [dif_neg hcond]
      exact ⟨hl, by omega⟩

theorem estLoop2_spec (inner : Inner) : ∀ (c : ℕ) (k : ℕ) (iters : ℤ) (ans : ApproachType × Option (ℚ × ℚ)),
    (iters - 10).toNat ≤ 5 * c → IsLast inner k ans → Out2 inner (k + c) (estLoop2 inner k iters ans) := by
  intro c
  induction c with
  | zero =>
    intro k iters ans hc hl
    rw [estLoop2, dif_neg (by omega)]
    exact ⟨hl, by omega⟩
  | succ c ih =>
    intro k iters ans hc hl
    rw [estLoop2]
    by_cases hcond : ans.1 = .fast ∧ iters > 10
    · rw [dif_pos hcond]
      simp only
      split
      · rename_i e he
        exact ⟨_, _, he⟩
      · rename_i ans' he
        exact Out2.mono (by omega) (ih (k + 1) (iters - 5) ans' (by omega) ⟨by omega, _, he⟩)
    · rw [dif_neg hcond]
      exact ⟨hl, by omega⟩

/-- **C23.** Whatever the inner estimator answers, the estimation ends after at most `log2(initial_cutoff) + 10`
inner estimations and stores the answer of the last one; it raises only what an inner estimation raised. -/
theorem C23_estimation_terminates (inner : Inner) (iters cutoff step : ℤ) :
    (∀ ans k, estimateApproach inner iters cutoff step = .ok (ans, k) →
      k ≤ Nat.log 2 cutoff.toNat + 10 ∧ 0 < k ∧ ∃ args, inner (k - 1) args = .ok ans) ∧
    (∀ e, estimateApproach inner iters cutoff step = .error e → ∃ j args, inner j args = .error e) := by
  suffices h : Out2 inner (Nat.log 2 cutoff.toNat + 10) (estimateApproach inner iters cutoff step) by
    constructor
    · intro ans k hk
      rw [hk] at h
      exact ⟨h.2, h.1⟩
    · intro e he
      rw [he] at h
      exact h
  rw [estimateApproach]
  rcases h0 : inner 0 (iters, cutoff, step) with e | ans0
  · exact ⟨_, _, h0⟩
  · have h1 := estLoop1_spec inner cutoff.toNat 1 iters cutoff step ans0 le_rfl ⟨by omega, _, h0⟩
    simp only
    rcases hr : estLoop1 inner 1 iters cutoff step ans0 with e | ⟨ans1, c1, k1⟩
    · rw [hr] at h1
      exact h1
    · rw [hr] at h1
      obtain ⟨hl, hk⟩ := h1
      have hk1 : k1 ≤ Nat.log 2 cutoff.toNat + 2 := by
        split at hk <;> omega
      simp only
      split
      · exact Out2.mono (by omega) (estLoop2_spec inner 8 k1 50 ans1 (by decide) hl)
      · exact ⟨hl, by omega⟩

-- an inner estimator that always answers 'fast': 1 + 4 + 8 calls for initial_cutoff = 8
example : estimateApproach (fun _ _ => .ok (.fast, none)) 100 8 10 = .ok ((.fast, none), 13) ∧ Nat.log 2 8 + 10 = 13 := by
  constructor
  · decide +kernel
  · decide +kernel

/-- The step of the `j`-th window while the cutoff is halved. -/
def stepAt (iters cutoff step : ℤ) : ℕ → ℤ
  | 0 => step
  | j + 1 => max ((max 50 (iters / 2 ^ (j + 1)) - cutoff / 2 ^ (j + 1)).tdiv 30) (stepAt iters cutoff step j / 2)

/-- The `j`-th window (iterations, cutoff, step) to look at: first the one asked for, then the cutoff and the iterations halved
until the cutoff is 0 (as many times as the cutoff has binary digits), then 45, 40, …, 10 iterations from the start. -/
def window (iters cutoff step : ℤ) (j : ℕ) : ℤ × ℤ × ℤ :=
  if j = 0 then (iters, cutoff, step)
  else if j ≤ Nat.size cutoff.toNat then (max 50 (iters / 2 ^ j), cutoff / 2 ^ j, stepAt iters cutoff step j)
  else (50 - 5 * ((j : ℤ) - Nat.size cutoff.toNat), 0, 1)

/-- The number of windows there are to look at. -/
def windows (cutoff : ℤ) : ℕ := if cutoff < 0 then 1 else Nat.size cutoff.toNat + 9

/-- The calls before the `k`-th all were about the windows of the schedule and answered `'fast'`. -/
def AllFast (inner : Inner) (iters cutoff step : ℤ) (k : ℕ) : Prop :=
  ∀ j < k, ∃ ps, inner j (window iters cutoff step j) = .ok (.fast, ps)

theorem ediv_pow_eq_zero {c : ℤ} (hc : 0 ≤ c) (j : ℕ) : c / 2 ^ j = 0 ↔ Nat.size c.toNat ≤ j := by
  obtain ⟨n, rfl⟩ := Int.eq_ofNat_of_zero_le hc
  rw [Int.toNat_natCast, Nat.size_le]
  have : ((n : ℤ) / 2 ^ j) = ((n / 2 ^ j : ℕ) : ℤ) := by push_cast; rfl
  rw [this, Int.natCast_eq_zero, Nat.div_eq_zero_iff]
  have : 2 ^ j ≠ 0 := by positivity
  omega

theorem AllFast.succ {inner : Inner} {iters cutoff step : ℤ} {k : ℕ} {ans : ApproachType × Option (ℚ × ℚ)}
    (h : AllFast inner iters cutoff step k) (ha : inner k (window iters cutoff step k) = .ok ans) (hf : ans.1 = .fast) :
    AllFast inner iters cutoff step (k + 1) := by
  intro j hj
  rcases Nat.lt_succ_iff_lt_or_eq.1 hj with hj | rfl
  · exact h j hj
  · exact ⟨ans.2, by rw [ha, ← hf]⟩

theorem estLoop1_windows {inner : Inner} {I C S : ℤ} (hC : 0 ≤ C) : ∀ (m j : ℕ) (iters : ℤ) (ans : ApproachType × Option (ℚ × ℚ)),
    Nat.size C.toNat - j = m → j ≤ Nat.size C.toNat → max 50 (iters / 2) = max 50 (I / 2 ^ (j + 1)) →
    AllFast inner I C S j → inner j (window I C S j) = .ok ans →
    match estLoop1 inner (j + 1) iters (C / 2 ^ j) (stepAt I C S j) ans with
    | .error e => ∃ k, k < windows C ∧ AllFast inner I C S k ∧ inner k (window I C S k) = .error e
    | .ok (ans', c, k') => ∃ k, k' = k + 1 ∧ k ≤ Nat.size C.toNat ∧ AllFast inner I C S k ∧
        inner k (window I C S k) = .ok ans' ∧ (c = 0 ↔ k = Nat.size C.toNat) ∧ (ans'.1 ≠ .fast ∨ k = Nat.size C.toNat) := by
  intro m
  induction m with
  | zero =>
    intro j iters ans hm hj hI hall hans
    have hz : C / 2 ^ j = 0 := (ediv_pow_eq_zero hC j).2 (by omega)
    rw [estLoop1, dif_neg (by rw [hz]; simp)]
    exact ⟨j, rfl, hj, hall, hans, by simp [hz]; omega, .inr (by omega)⟩
  | succ m ih =>
    intro j iters ans hm hj hI hall hans
    have hz : C / 2 ^ j ≠ 0 := fun h => by have := (ediv_pow_eq_zero hC j).1 h; omega
    have hpos : 0 < C / 2 ^ j := lt_of_le_of_ne (Int.ediv_nonneg hC (by positivity)) (Ne.symm hz)
    rw [estLoop1]
    by_cases hf : ans.1 = .fast
    · rw [dif_pos ⟨hf, hpos⟩]
      simp only [Int.fdiv_eq_ediv_of_nonneg _ (show (0:ℤ) ≤ 2 by decide)]
      have h2 : C / 2 ^ j / 2 = C / 2 ^ (j + 1) := by
        rw [Int.ediv_ediv_of_nonneg (by positivity), pow_succ]
      have hs : max (truncDiv30 (max 50 (I / 2 ^ (j + 1)) - C / 2 ^ (j + 1))) (stepAt I C S j / 2) = stepAt I C S (j + 1) := rfl
      have hw : window I C S (j + 1) = (max 50 (I / 2 ^ (j + 1)), C / 2 ^ (j + 1), stepAt I C S (j + 1)) := by
        rw [window, if_neg (by omega), if_pos (by omega)]
      rw [h2, hI, hs, ← hw]
      rcases he : inner (j + 1) (window I C S (j + 1)) with e | a
      · exact ⟨j + 1, by rw [windows, if_neg (by omega)]; omega, hall.succ hans hf, he⟩
      · exact ih (j + 1) (max 50 (I / 2 ^ (j + 1))) a (by omega) (by omega)
          (by
            have : I / 2 ^ (j + 1 + 1) = I / 2 ^ (j + 1) / 2 := by
              rw [Int.ediv_ediv_of_nonneg (by positivity), ← pow_succ]
            rw [this]
            omega)
          (hall.succ hans hf) he
    · rw [dif_neg (by simp [hf])]
      exact ⟨j, rfl, hj, hall, hans, by rw [ediv_pow_eq_zero hC]; omega, .inl hf⟩

theorem estLoop2_windows {inner : Inner} {I C S : ℤ} (hC : 0 ≤ C) : ∀ (m j : ℕ) (ans : ApproachType × Option (ℚ × ℚ)),
    j + m = Nat.size C.toNat + 8 → Nat.size C.toNat ≤ j →
    AllFast inner I C S j → inner j (window I C S j) = .ok ans →
    match estLoop2 inner (j + 1) (50 - 5 * ((j : ℤ) - Nat.size C.toNat)) ans with
    | .error e => ∃ k, k < windows C ∧ AllFast inner I C S k ∧ inner k (window I C S k) = .error e
    | .ok (ans', k') => ∃ k, k' = k + 1 ∧ k < windows C ∧ AllFast inner I C S k ∧
        inner k (window I C S k) = .ok ans' ∧ (ans'.1 ≠ .fast ∨ k + 1 = windows C) := by
  have hwin : windows C = Nat.size C.toNat + 9 := by rw [windows, if_neg (by omega)]
  intro m
  induction m with
  | zero =>
    intro j ans hm hj hall hans
    rw [estLoop2, dif_neg (by omega)]
    exact ⟨j, rfl, by omega, hall, hans, .inr (by omega)⟩
  | succ m ih =>
    intro j ans hm hj hall hans
    rw [estLoop2]
    by_cases hf : ans.1 = .fast
    · rw [dif_pos ⟨hf, by omega⟩]
      have hi : 50 - 5 * ((j : ℤ) - Nat.size C.toNat) - 5 = 50 - 5 * (((j + 1 : ℕ) : ℤ) - Nat.size C.toNat) := by
        push_cast; ring
      have hw : window I C S (j + 1) = (50 - 5 * (((j + 1 : ℕ) : ℤ) - Nat.size C.toNat), 0, 1) := by
        rw [window, if_neg (by omega), if_neg (by omega)]
      simp only
      rw [hi, ← hw]
      rcases he : inner (j + 1) (window I C S (j + 1)) with e | a
      · exact ⟨j + 1, by omega, hall.succ hans hf, he⟩
      · exact ih (j + 1) a (by omega) (by omega) (hall.succ hans hf) he
    · rw [dif_neg (by simp [hf])]
      exact ⟨j, rfl, by omega, hall, hans, .inl hf⟩

/-- **C23.** The windows looked at are those of the schedule `window`, in order; each one after the first only because the
answer to the one before was `'fast'`; the estimation ends at the first other answer (or error), or with the last window. -/
theorem C23_windows (inner : Inner) (iters cutoff step : ℤ) :
    match estimateApproach inner iters cutoff step with
    | .error e => ∃ k, k < windows cutoff ∧ AllFast inner iters cutoff step k ∧ inner k (window iters cutoff step k) = .error e
    | .ok (ans, calls) => ∃ k, calls = k + 1 ∧ k < windows cutoff ∧ AllFast inner iters cutoff step k ∧
        inner k (window iters cutoff step k) = .ok ans ∧ (ans.1 ≠ .fast ∨ k + 1 = windows cutoff) := by
  have hall : AllFast inner iters cutoff step 0 := fun j hj => absurd hj (by omega)
  have hpos : 0 < windows cutoff := by rw [windows]; split <;> omega
  have hw0 : window iters cutoff step 0 = (iters, cutoff, step) := rfl
  rw [estimateApproach, ← hw0]
  rcases h0 : inner 0 (window iters cutoff step 0) with e | ans0
  · exact ⟨0, hpos, hall, h0⟩
  · simp only
    by_cases hC : 0 ≤ cutoff
    · have h1 := estLoop1_windows (inner := inner) (I := iters) (S := step) hC _ 0 iters ans0 rfl (by omega) (by norm_num) hall h0
      have hd : cutoff / 2 ^ 0 = cutoff := by norm_num
      rw [hd] at h1
      have hs : stepAt iters cutoff step 0 = step := rfl
      rw [hs] at h1
      rw [zero_add] at h1
      rcases hr : estLoop1 inner 1 iters cutoff step ans0 with e | ⟨ans1, c1, k1⟩
      · rw [hr] at h1
        exact h1
      · rw [hr] at h1
        obtain ⟨k, rfl, hk, hall1, hans1, hc1, hfin⟩ := h1
        simp only
        by_cases hz : c1 = 0
        · rw [if_pos hz]
          have hk' := hc1.1 hz
          have h2 := estLoop2_windows (inner := inner) (I := iters) (S := step) hC 8 k ans1 (by omega) (by omega) hall1 hans1
          have : (50 : ℤ) - 5 * ((k : ℤ) - Nat.size cutoff.toNat) = 50 := by omega
          rw [this] at h2
          exact h2
        · rw [if_neg hz]
          have hne : k ≠ Nat.size cutoff.toNat := fun h => hz (hc1.2 h)
          exact ⟨k, rfl, by rw [windows, if_neg (by omega)]; omega, hall1, hans1, .inl (hfin.resolve_right hne)⟩
    · rw [estLoop1, dif_neg (by omega)]
      simp only
      rw [if_neg (by omega)]
      exact ⟨0, rfl, hpos, hall, h0, .inr (by rw [windows, if_pos (by omega)])⟩

-- the default arguments: 200 has 8 binary digits
example : windows 200 = 17 ∧ window 600 200 50 3 = (75, 25, 6) ∧ window 600 200 50 8 = (50, 0, 1) ∧ window 600 200 50 16 = (10, 0, 1) := by
  decide +kernel

end PiCF.ContFrac
