import Mathlib.Tactic.Ring
import Mathlib.Data.Nat.Log
import Verif.Lemmas.ContFracObj

/-!
# Properties C08–C23 (`basic_representation_types.py`, `cont_fracs.py`)

Objects are obtained from the constructor (`init a b avoid_zero_b None logging = .ok s₀`) and brought
into an arbitrary state by an arbitrary history `runOps ops s₀` of calls, some of which may have
raised.
-/

namespace PiCF.ContFrac
open PiCF.Spec

/-- The sequence of the `a_i` (`b_i`) as rational numbers. -/
abbrev ratSeq (cs : Coeffs) : ℕ → ℚ := fun i => (seqAt cs i : ℚ)

theorem init_fresh {a b : Coeffs} {z l : Bool} {s : CF} (h : init a b z none l = .ok s) :
    WF a b ∧ s = fresh a b z l := by
  have hw : WF a b := (init_ok_iff a b z l).1 ⟨s, h⟩
  rw [init_wf hw] at h
  cases h
  exact ⟨hw, rfl⟩

/-- Everything known about an object with an arbitrary history. -/
theorem reachable_good {a₀ b₀ : Coeffs} {z l : Bool} {s₀ : CF} (h : init a₀ b₀ z none l = .ok s₀) (ops : List CFOp) :
    Good (runOps ops s₀) z l := by
  obtain ⟨hw, rfl⟩ := init_fresh h
  exact runOps_good ops (fresh_good hw z l)

theorem gen_ok {s : CF} {z l : Bool} (hg : Good s z l) (n : ℕ) (fin : Bool) (hz : NoZero z s.params.b 0 n) :
    ∃ s', genIterations (n : ℤ) fin s = (s', .ok ()) ∧ Synced s' s.params.a s.params.b n ∧ core s' = core s ∧
      ((l = true ∧ 0 < n) ∨ (l = false ∧ fin = true) → getResult s' = convVal s.params.a s.params.b n) := by
  obtain ⟨s', e, h, c, r⟩ := add_ok (good_reset_synced hg) n fin (by
    rw [show s.reset.avoidZeroB = z from hg.avoid]; simpa using hz)
  refine ⟨s', e, by simpa using h, c, ?_⟩
  intro hl
  have := r (by rw [show s.reset.logging = l from hg.logging]; exact hl)
  simpa using this

/-! ## C08 -/

/-- **C08.** Whatever happened to the object before, `gen_iterations(n)` succeeds and gives the value of
the finite continued fraction `a_0 + b_1/(a_1 + … + b_n/a_n)` of its current coefficients, whenever this
nested fraction is defined (and, with `avoid_zero_b`, no `b_i` is zero).  For a logging object `n ≥ 1`
is needed, see C15. -/
theorem C08_convergent_value {a₀ b₀ : Coeffs} {z l : Bool} {s₀ : CF} (hinit : init a₀ b₀ z none l = .ok s₀)
    (ops : List CFOp) (n : ℕ) (v : ℚ)
    (hv : nested (ratSeq (runOps ops s₀).params.a) (ratSeq (runOps ops s₀).params.b) 0 n = some v)
    (hz : z = true → ∀ j, 1 ≤ j → j ≤ n → seqAt (runOps ops s₀).params.b j ≠ 0) (hl : l = true → 0 < n) :
    ∃ s', genIterations (n : ℤ) true (runOps ops s₀) = (s', .ok ()) ∧ getResult s' = .fin v ∧
      getNumOfExecutedIters s' = n := by
  have hg := reachable_good hinit ops
  obtain ⟨s', e, h, -, r⟩ := gen_ok hg n true (fun j h1 h2 h3 => hz h3.1 j (by omega) (by omega) h3.2)
  refine ⟨s', e, ?_, h.hn⟩
  rw [r (by cases l <;> simp_all)]
  obtain ⟨h1, h2⟩ := nested_eq_cont _ _ _ _ hv
  rw [convVal, quotient, if_neg h1, h2]

-- 1 + 1/(1 + 1/(1 + 1/1)) = 5/3
example : ∃ s₀, init [[1]] [[1]] true none false = .ok s₀ ∧
    nested (ratSeq (runOps [] s₀).params.a) (ratSeq (runOps [] s₀).params.b) 0 3 = some (5 / 3) ∧
    ∀ j, 1 ≤ j → j ≤ 3 → seqAt (runOps [] s₀).params.b j ≠ 0 := by
  refine ⟨_, rfl, by decide +kernel, ?_⟩
  intro j h1 h2
  have : j = 1 ∨ j = 2 ∨ j = 3 := by omega
  rcases this with rfl | rfl | rfl <;> decide

/-! ## C09 -/

/-- `add_iterations` calls one after the other. -/
def addMany : List ℕ → PyM CF Unit
  | [] => pure ()
  | k :: ks => do addIterations (k : ℤ); addMany ks

/-- The object after `k` more iterations have succeeded. -/
def CF.after (s : CF) (a b : Coeffs) (c k : ℕ) : CF :=
  if s.logging then { s.pushed a b c k with executed := (c : ℤ) + k }
  else { s with logs := [⟨a, b, convVal a b (c + k)⟩], mats := [convMat a b (c + k)], executed := (c : ℤ) + k }

theorem add_after {s : CF} {a b : Coeffs} {c : ℕ} (h : Synced s a b c) (k : ℕ)
    (hd : stepsBefore s.avoidZeroB b c k = k) : addIterations (k : ℤ) true s = (s.after a b c k, .ok ()) := by
  rw [addIterations_closed h]
  simp only [hd, if_true, CF.after]

theorem add_fails {s : CF} {a b : Coeffs} {c : ℕ} (h : Synced s a b c) (k D : ℕ)
    (hd : stepsBefore s.avoidZeroB b c k = D) (hD : D < k) :
    addIterations (k : ℤ) true s = (s.pushed a b c D, .error (.zeroB ((c : ℤ) + D + 1))) := by
  rw [addIterations_closed h]
  simp only [hd, if_neg (show ¬ D = k by omega)]

theorem after_after (s : CF) (a b : Coeffs) (c k₁ k₂ : ℕ) :
    (s.after a b c k₁).after a b (c + k₁) k₂ = s.after a b c (k₁ + k₂) := by
  cases hl : s.logging with
  | false => simp [CF.after, hl, Nat.add_assoc, Int.add_assoc]
  | true =>
    have e1 : snaps a b c k₁ ++ snaps a b (c + k₁) k₂ = snaps a b c (k₁ + k₂) := by
      simp only [snaps, List.range_add, List.map_append, List.map_map]
      congr 1
      apply List.map_congr_left; intro j _; simp [Nat.add_assoc]
    have e2 : matSnaps a b c k₁ ++ matSnaps a b (c + k₁) k₂ = matSnaps a b c (k₁ + k₂) := by
      simp only [matSnaps, List.range_add, List.map_append, List.map_map]
      congr 1
      apply List.map_congr_left; intro j _; simp [Nat.add_assoc]
    simp [CF.after, hl, CF.pushed, ← e1, ← e2, Int.add_assoc]

theorem after_avoid (s : CF) (a b : Coeffs) (c k : ℕ) : (s.after a b c k).avoidZeroB = s.avoidZeroB := by
  unfold CF.after; split
  · simp only [CF.pushed]; split <;> rfl
  · rfl

theorem add_add {s : CF} {a b : Coeffs} {c : ℕ} (h : Synced s a b c) (k₁ k₂ : ℕ) :
    (∀ s', addIterations ((k₁ + k₂ : ℕ) : ℤ) true s = (s', .ok ()) →
      ∃ s₁, addIterations (k₁ : ℤ) true s = (s₁, .ok ()) ∧ addIterations (k₂ : ℤ) true s₁ = (s', .ok ())) ∧
    (∀ s' e, addIterations ((k₁ + k₂ : ℕ) : ℤ) true s = (s', .error e) →
      (∃ s₁, addIterations (k₁ : ℤ) true s = (s₁, .error e)) ∨
      ∃ s₁ s₂, addIterations (k₁ : ℤ) true s = (s₁, .ok ()) ∧ addIterations (k₂ : ℤ) true s₁ = (s₂, .error e)) := by
  rcases Nat.lt_or_ge (stepsBefore s.avoidZeroB b c (k₁ + k₂)) (k₁ + k₂) with hlt | hge
  · obtain ⟨hz1, hz2⟩ := (stepsBefore_lt_iff _ _ c (k₁ + k₂) _ hlt).1 rfl
    generalize hD : stepsBefore s.avoidZeroB b c (k₁ + k₂) = D at *
    rw [add_fails h _ D hD hlt]
    refine ⟨fun s' hs' => by simp at hs', fun s' e hs' => ?_⟩
    obtain rfl : e = .zeroB ((c : ℤ) + D + 1) := by cases (Prod.mk.inj hs').2; rfl
    by_cases hk : D < k₁
    · left
      exact ⟨_, add_fails h k₁ D ((stepsBefore_lt_iff _ _ c k₁ D hk).2 ⟨hz1, hz2⟩) hk⟩
    · right
      have h1 := add_after h k₁ ((stepsBefore_eq_iff _ _ _ _).2 fun j a1 a2 => hz2 j a1 (by omega))
      have hsync := addIterations_synced h h1
      have hd2 : stepsBefore (s.after a b c k₁).avoidZeroB b (c + k₁) k₂ = D - k₁ := by
        rw [after_avoid, stepsBefore_lt_iff _ _ _ _ _ (by omega)]
        refine ⟨?_, fun j a1 a2 => hz2 j (by omega) (by omega)⟩
        rw [show c + k₁ + (D - k₁) + 1 = c + D + 1 by omega]; exact hz1
      refine ⟨_, (s.after a b c k₁).pushed a b (c + k₁) (D - k₁), h1, ?_⟩
      rw [add_fails hsync k₂ _ hd2 (by omega)]
      congr 3
      push_cast [show k₁ ≤ D by omega]
      ring
  · have hd := le_antisymm (stepsBefore_le s.avoidZeroB b c (k₁ + k₂)) hge
    have hz := (stepsBefore_eq_iff _ _ _ _).1 hd
    rw [add_after h _ hd]
    refine ⟨fun s' hs' => ?_, fun s' e hs' => by simp at hs'⟩
    have h1 := add_after h k₁ ((stepsBefore_eq_iff _ _ _ _).2 fun j a1 a2 => hz j a1 (by omega))
    have hsync := addIterations_synced h h1
    refine ⟨_, h1, ?_⟩
    rw [add_after hsync k₂ (by
      rw [after_avoid]
      exact (stepsBefore_eq_iff _ _ _ _).2 fun j a1 a2 => hz j (by omega) (by omega)), after_after]
    exact hs'

theorem add_addMany {a b : Coeffs} (ks : List ℕ) : ∀ {s : CF} {c : ℕ}, Synced s a b c → ∀ k : ℕ,
    (∀ s', addIterations ((k + ks.sum : ℕ) : ℤ) true s = (s', .ok ()) →
      addMany (k :: ks) s = (s', .ok ())) ∧
    (∀ s' e, addIterations ((k + ks.sum : ℕ) : ℤ) true s = (s', .error e) →
      ∃ s₁, addMany (k :: ks) s = (s₁, .error e)) := by
  induction ks with
  | nil =>
    intro s c h k
    simp only [List.sum_nil, Nat.add_zero]
    refine ⟨fun s' hs' => ?_, fun s' e hs' => ⟨s', ?_⟩⟩
    · rw [addMany, PyM.bind_ok hs']; rfl
    · rw [addMany, PyM.bind_error hs']
  | cons k' ks ih =>
    intro s c h k
    obtain ⟨g1, g2⟩ := add_add h k (k' + ks.sum)
    rw [List.sum_cons]
    refine ⟨fun s' hs' => ?_, fun s' e hs' => ?_⟩
    · obtain ⟨s₁, e1, e2⟩ := g1 s' hs'
      rw [addMany, PyM.bind_ok e1]
      exact (ih (addIterations_synced h e1) k').1 s' e2
    · rcases g2 s' e hs' with ⟨s₁, e1⟩ | ⟨s₁, s₂, e1, e2⟩
      · exact ⟨s₁, by rw [addMany, PyM.bind_error e1]⟩
      · rw [addMany, PyM.bind_ok e1]
        exact (ih (addIterations_synced h e1) k').2 s₂ e e2

/-- **C09.** Splitting the iterations: `gen_iterations(n)` followed by `add_iterations(k)` for each `k` in
`ks` does exactly the same as `gen_iterations(n + sum(ks))`: same resulting object if it succeeds, same
exception otherwise.  For every object history and both logging modes. -/
theorem C09_iterations_compose {a₀ b₀ : Coeffs} {z l : Bool} {s₀ : CF} (hinit : init a₀ b₀ z none l = .ok s₀)
    (ops : List CFOp) (n : ℕ) (ks : List ℕ) :
    let s := runOps ops s₀
    let split : PyM CF Unit := do genIterations (n : ℤ); addMany ks
    (∀ s', genIterations ((n + ks.sum : ℕ) : ℤ) true s = (s', .ok ()) → split s = (s', .ok ())) ∧
    (∀ s' e, genIterations ((n + ks.sum : ℕ) : ℤ) true s = (s', .error e) → ∃ s₁, split s = (s₁, .error e)) := by
  intro s split
  have hg := reachable_good hinit ops
  have key := add_addMany ks (good_reset_synced hg) n
  have hsplit : split s = addMany (n :: ks) s.reset := by
    show (genIterations (n : ℤ) true >>= fun _ => addMany ks) s = _
    rw [addMany]
    rcases h : addIterations (n : ℤ) true s.reset with ⟨s', r⟩
    cases r with
    | ok x => rw [PyM.bind_ok h, PyM.bind_ok (show genIterations (n : ℤ) true s = _ from h)]
    | error e => rw [PyM.bind_error h, PyM.bind_error (show genIterations (n : ℤ) true s = _ from h)]
  rw [hsplit]
  exact key

-- three iterations at once or as 1 + 2 on an interlaced continued fraction
example : ∃ s₀, init [[1, 1], [2]] [[3, 0, 1]] true none true = .ok s₀ ∧
    ∃ s', genIterations ((1 + [2].sum : ℕ) : ℤ) true s₀ = (s', .ok ()) ∧
      (do genIterations 1; addMany [2] : PyM CF Unit) s₀ = (s', .ok ()) :=
  ⟨_, rfl, _, rfl, by decide +kernel⟩

/-! ## C10 -/

/-- **C10 (partial).** After any history of calls, `reinitialize(a, b)` followed by `gen_iterations(n)` ends in the
state (and with the outcome) of a fresh `ContFrac(a, b)` after `gen_iterations(n)`; only the stored
approach type differs (`'undefined'` instead of `None`).
Missing with respect to C10: the approach type, see `C10_approach_violated`. -/
theorem C10_history_independence_partial {a₀ b₀ a b : Coeffs} {z l : Bool} {s₀ s₁ : CF}
    (hinit : init a₀ b₀ z none l = .ok s₀) (hinit₁ : init a b z none l = .ok s₁) (ops : List CFOp) (n : ℤ) (fin : Bool) :
    (do reinitialize (some a) (some b); genIterations n fin : PyM CF Unit) (runOps ops s₀) =
      ({ (genIterations n fin s₁).1 with approachType := .undefined, approachParams := none },
        (genIterations n fin s₁).2) := by
  have hg := reachable_good hinit ops
  obtain ⟨hw, rfl⟩ := init_fresh hinit₁
  generalize runOps ops s₀ = s at hg
  have hka : keepOr (some a) s.params.a = a := by
    obtain ⟨x, xs, ys, rfl⟩ := hw.a_head; rfl
  have hkb : keepOr (some b) s.params.b = b := by
    have := hw.hb
    cases b with
    | nil => exact absurd rfl this
    | cons _ _ => rfl
  have hre : reinitialize (some a) (some b) none s =
      ({ s with params := ⟨a, b, .fin 1⟩, first := convMat a b 0, approachType := .undefined, approachParams := none }, .ok ()) := by
    rw [reinitialize]
    simp only [hg.auto, hka, hkb, autogen_wf hw, Option.isNone_none, Bool.and_self, if_true, hg.res]
  rw [PyM.bind_ok hre, genIterations_eq, genIterations_eq, fresh_reset]
  have hreset : ({ s with params := ⟨a, b, .fin 1⟩, first := convMat a b 0, approachType := ApproachType.undefined, approachParams := none } : CF).reset =
      { fresh a b z l with approachType := .undefined, approachParams := none } := by
    unfold CF.reset fresh
    rw [← hg.auto, ← hg.avoid, ← hg.logging]
  rw [hreset]
  -- the approach attributes are never read by iterating
  have hloop : ∀ (k i : ℕ) (ps : Params) (m : Mat) (x : CF),
      addLoop k i ps m { x with approachType := .undefined, approachParams := none } =
        ({ (addLoop k i ps m x).1 with approachType := .undefined, approachParams := none }, (addLoop k i ps m x).2) := by
    intro k
    induction k with
    | zero => intro i ps m x; rfl
    | succ k ih =>
      intro i ps m x
      rw [addLoop, addLoop]
      simp only
      split
      · rfl
      · cases hl : x.logging <;> simp only [hl, if_true, Bool.false_eq_true, if_false, ← ih]
  rw [addIterations, addIterations]
  simp only [hloop]
  rcases hres : addLoop n.toNat 0 ((fresh a b z l).logs.getLastD (fresh a b z l).params)
    ((fresh a b z l).mats.getLastD (fresh a b z l).first) (fresh a b z l) with ⟨x, r⟩
  cases r with
  | error e => rfl
  | ok r => cases hl : x.logging <;> simp [hl]

example : ∃ s₀ s₁, init [[1]] [[1]] true none false = .ok s₀ ∧ init [[2, 1]] [[0, 3]] true none false = .ok s₁ :=
  ⟨_, _, rfl, rfl⟩

/-! ## C11 -/

/-- **C11.** With `avoid_zero_b`, `gen_iterations(n)` raises `ZeroB(i)` exactly when `i` is the first index
in `1..n` with `b_i = 0`; without a zero it succeeds, and without `avoid_zero_b` it always succeeds. -/
theorem C11_zero_b_reported {a₀ b₀ : Coeffs} {z l : Bool} {s₀ : CF} (hinit : init a₀ b₀ z none l = .ok s₀)
    (ops : List CFOp) (n : ℕ) (fin : Bool) :
    let s := runOps ops s₀
    (∀ i : ℤ, (genIterations (n : ℤ) fin s).2 = .error (.zeroB i) ↔
      z = true ∧ ∃ j : ℕ, i = j ∧ 1 ≤ j ∧ j ≤ n ∧ seqAt s.params.b j = 0 ∧ ∀ k, 1 ≤ k → k < j → seqAt s.params.b k ≠ 0) ∧
    ((genIterations (n : ℤ) fin s).2 = .ok () ↔ (z = true → ∀ j, 1 ≤ j → j ≤ n → seqAt s.params.b j ≠ 0)) := by
  intro s
  have hg := reachable_good hinit ops
  have hcl := addIterations_closed (good_reset_synced hg) n fin
  have hgen : genIterations (n : ℤ) fin s = addIterations (n : ℤ) fin s.reset := rfl
  rw [hgen, hcl]
  rw [show s.reset.avoidZeroB = z from hg.avoid]
  simp only
  have hle := stepsBefore_le z s.params.b 0 n
  split
  · rename_i hd
    have hz := (stepsBefore_eq_iff _ _ _ _).1 hd
    constructor
    · intro i
      simp only [reduceCtorEq, false_iff, not_and, not_exists]
      intro hzz j _ h1 h2 h3
      exact absurd ⟨hzz, h3⟩ (hz j (by omega) (by omega))
    · simp only [true_iff]
      intro hzz j h1 h2 h3
      exact hz j (by omega) (by omega) ⟨hzz, h3⟩
  · rename_i hd
    obtain ⟨hz1, hz2⟩ := (stepsBefore_lt_iff _ _ 0 n _ (lt_of_le_of_ne hle hd)).1 rfl
    generalize hD : stepsBefore z s.params.b 0 n = D at *
    constructor
    · intro i
      simp only [Except.error.injEq, PyErr.zeroB.injEq]
      constructor
      · intro hi
        refine ⟨hz1.1, D + 1, by rw [← hi]; push_cast; ring, by omega, by omega, by simpa using hz1.2, ?_⟩
        intro k h1 h2 h3
        exact hz2 k (by omega) (by omega) ⟨hz1.1, h3⟩
      · rintro ⟨hzz, j, rfl, h1, h2, h3, h4⟩
        have hj : j = D + 1 := by
          rcases lt_trichotomy j (D + 1) with h | h | h
          · exact absurd ⟨hzz, h3⟩ (hz2 j (by omega) (by omega))
          · exact h
          · exact absurd (by simpa using hz1.2) (h4 (D + 1) (by omega) h)
        rw [hj]; push_cast; ring
    · simp only [reduceCtorEq, false_iff, not_forall]
      exact ⟨hz1.1, D + 1, by omega, by omega, by simpa using hz1.2⟩

-- b_i = i - 3 vanishes at 3
example : ∃ s₀, init [[1]] [[-3, 1]] true none false = .ok s₀ ∧
    (genIterations 5 true (runOps [] s₀)).2 = .error (.zeroB 3) := ⟨_, rfl, by decide +kernel⟩

/-! ## C12 -/

theorem addLoop_nologging : ∀ (k i : ℕ) (ps : Params) (m : Mat) (s : CF), s.logging = false →
    (addLoop k i ps m s).1 = s := by
  intro k
  induction k with
  | zero => intro i ps m s _; rfl
  | succ k ih =>
    intro i ps m s hl
    rw [addLoop]
    split
    · rfl
    · simp only [hl, Bool.false_eq_true, if_false]
      exact ih _ _ _ _ hl

/-- **C12 (partial).** Without logging, an `add_iterations` call that raises leaves the object exactly as
it was (any object state, any count, any exception).
Missing with respect to C12: logging objects, see `C12_failed_iteration_logging_violated`. -/
theorem C12_failed_iteration_partial (s s' : CF) (n : ℤ) (fin : Bool) (e : PyErr) (hl : s.logging = false)
    (h : addIterations n fin s = (s', .error e)) : s' = s := by
  rw [addIterations] at h
  have hs := addLoop_nologging n.toNat 0 (s.logs.getLastD s.params) (s.mats.getLastD s.first) s hl
  rcases hr : addLoop n.toNat 0 (s.logs.getLastD s.params) (s.mats.getLastD s.first) s with ⟨x, r⟩
  rw [hr] at hs h
  cases r with
  | error e' => cases h; exact hs
  | ok r => cases (Prod.mk.inj h).2

example : ∃ s₀ s', init [[1]] [[-3, 1]] true none false = .ok s₀ ∧ s₀.logging = false ∧
    addIterations 4 true s₀ = (s', .error (.zeroB 3)) := ⟨_, _, rfl, rfl, rfl⟩

/-- **C12 (violated)** for logging objects: the counter still says 0 iterations, but two convergents have
been appended, so the reported result changed from 1 to 3/2 although the call failed. -/
theorem C12_failed_iteration_logging_violated :
    ∃ s₀ s', init [[1]] [[-3, 1]] true none true = .ok s₀ ∧
      addIterations 4 true s₀ = (s', .error (.zeroB 3)) ∧ s'.executed = 0 ∧
      getResult s₀ = .fin 1 ∧ getResult s' ≠ .fin 1 ∧ s'.mats.length = 3 :=
  ⟨_, _, rfl, rfl, by decide +kernel, by decide +kernel, by decide +kernel, by decide +kernel⟩

theorem addLoop_error : ∀ (k i : ℕ) (ps : Params) (m : Mat) (s s' : CF) (e : PyErr), s.logging = true → addLoop k i ps m s = (s', .error e) →
    ∃ j r, j < k ∧ addLoop j i ps m s = (s', .ok r) ∧ s'.executed = s.executed ∧ s'.logging = true ∧
      ∀ x, e = .zeroB x → x = i + s.executed + j + 1 := by
  intro k
  induction k with
  | zero => intro i ps m s s' e _ h; cases h
  | succ k ih =>
    intro i ps m s s' e hl h
    rw [addLoop] at h
    split at h
    · rename_i e' he
      cases h
      refine ⟨0, (ps, m), by omega, rfl, rfl, hl, ?_⟩
      rintro x rfl
      rw [iterationAlgorithm] at he
      split at he
      · rename_i e2 he2
        cases he
        rw [promoMatGen] at he2
        split at he2
        · rename_i he3
          rw [coeffAt] at he3
          split at he3
          · cases he3; cases he2
          · cases he3
        · split at he2
          · rename_i he3
            rw [coeffAt] at he3
            split at he3
            · cases he3; cases he2
            · cases he3
          · split at he2
            · cases he2; push_cast; ring
            · cases he2
      · cases he
    · rename_i ps' m' he
      simp only [hl, if_true] at h
      obtain ⟨j, r, hj, h1, h2, h3, h4⟩ := ih _ _ _ _ _ _ (by rfl) h
      refine ⟨j + 1, r, by omega, ?_, h2, h3, ?_⟩
      · rw [addLoop, he]
        simp only [hl, if_true]
        exact h1
      · intro x hx
        rw [h4 x hx]; push_cast; ring

/-- **C12 (logging objects, exactly).** An `add_iterations` call of a logging object that raises leaves it as the call with `k` iterations
would, where the iteration after these `k` fails, except that the counter is not advanced (so that every later call continues with wrong
indices unless `k` is 0). -/
theorem C12_logging_exact (s s' : CF) (n : ℤ) (fin : Bool) (e : PyErr) (hl : s.logging = true)
    (h : addIterations n fin s = (s', .error e)) :
    ∃ k : ℕ, (k : ℤ) < n ∧ addIterations k fin s = ({ s' with executed := s.executed + k }, .ok ()) ∧ s'.executed = s.executed ∧
      ∀ x, e = .zeroB x → x = s.executed + k + 1 := by
  rw [addIterations] at h
  rcases hr : addLoop n.toNat 0 (s.logs.getLastD s.params) (s.mats.getLastD s.first) s with ⟨x, r⟩
  rw [hr] at h
  cases r with
  | ok r => cases (Prod.mk.inj h).2
  | error e' =>
    cases h
    obtain ⟨j, r, hj, h1, h2, h3, h4⟩ := addLoop_error _ _ _ _ _ _ _ hl hr
    refine ⟨j, by omega, ?_, h2, fun x hx => by rw [h4 x hx]; push_cast; ring⟩
    rw [addIterations, Int.toNat_natCast, h1]
    simp only [h3, if_true, h2]

example : ∃ s₀ s', init [[1]] [[-3, 1]] true none true = .ok s₀ ∧ s₀.logging = true ∧
    addIterations 4 true s₀ = (s', .error (.zeroB 3)) ∧ addIterations 2 true s₀ = ({ s' with executed := 2 }, .ok ()) :=
  ⟨_, _, rfl, rfl, rfl, rfl⟩

/-! ## C13 -/

theorem convVal_nan_iff (a b : Coeffs) (n : ℕ) : convVal a b n = .nan ↔ contQ (seqAt a) (seqAt b) (n + 1) = 0 := by
  unfold convVal quotient
  split <;> simp_all

theorem prodB_ne_zero {b : ℕ → ℤ} : ∀ n, (∀ j, 1 ≤ j → j ≤ n → b j ≠ 0) → prodB b n ≠ 0 := by
  intro n
  induction n with
  | zero => intro _; simp [prodB]
  | succ n ih =>
    intro h
    rw [prodB]
    exact mul_ne_zero (ih fun j h1 h2 => h j h1 (by omega)) (h (n + 1) (by omega) (by omega))

/-- **C13.** For an object after `gen_iterations(n)` (`p, q` are the entries of its state matrix):
the determinant identity holds; the result is NaN exactly if `q_n = 0`; and if no `b_1 … b_{n+1}` is
zero then the results after `n` and after `n + 1` iterations are not both NaN. -/
theorem C13_determinant_nan {a₀ b₀ : Coeffs} {z : Bool} {s₀ : CF} (hinit : init a₀ b₀ z none false = .ok s₀)
    (ops : List CFOp) (n : ℕ) (s' : CF) (hs' : genIterations (n : ℤ) true (runOps ops s₀) = (s', .ok ())) :
    let b := seqAt (runOps ops s₀).params.b
    (∃ p p' q q' : ℤ, s'.mats.getLast? = some ((p, p'), (q, q')) ∧
      p * q' - p' * q = (-1) ^ (n + 1) * ((List.range n).map fun i => b (i + 1)).prod ∧
      (getResult s' = .nan ↔ q = 0) ∧ (q ≠ 0 → getResult s' = .fin ((p : ℚ) / q))) ∧
    (∀ s'', genIterations ((n + 1 : ℕ) : ℤ) true (runOps ops s₀) = (s'', .ok ()) →
      (∀ j, 1 ≤ j → j ≤ n + 1 → b j ≠ 0) → ¬ (getResult s' = .nan ∧ getResult s'' = .nan)) := by
  intro b
  have hg := reachable_good hinit ops
  have hok : ∀ m : ℕ, ∀ t, genIterations (m : ℤ) true (runOps ops s₀) = (t, .ok ()) →
      NoZero z (runOps ops s₀).params.b 0 m := by
    intro m t ht
    have := (C11_zero_b_reported hinit ops m true).2.1 (by rw [ht])
    intro j h1 h2 h3
    exact this h3.1 j (by omega) (by omega) h3.2
  have hval : ∀ m : ℕ, ∀ t, genIterations (m : ℤ) true (runOps ops s₀) = (t, .ok ()) →
      getResult t = convVal (runOps ops s₀).params.a (runOps ops s₀).params.b m := by
    intro m t ht
    obtain ⟨t', e, -, -, r⟩ := gen_ok hg m true (hok m t ht)
    rw [ht] at e
    cases e
    exact r (by simp)
  constructor
  · have hcl := addIterations_closed (good_reset_synced hg) n true
    have hd : stepsBefore (runOps ops s₀).reset.avoidZeroB (runOps ops s₀).params.b 0 n = n := by
      rw [stepsBefore_eq_iff, show (runOps ops s₀).reset.avoidZeroB = z from hg.avoid]
      simpa [NoZero] using hok n s' hs'
    simp only [hd, if_true, show (runOps ops s₀).reset.logging = false from hg.logging, Bool.false_eq_true, if_false] at hcl
    rw [genIterations_eq, hcl] at hs'
    have hs2 := (Prod.mk.inj hs').1
    have hr := hval n s' (by rw [genIterations_eq, hcl]; exact hs')
    refine ⟨_, _, _, _, by rw [← hs2]; rfl, ?_, ?_, ?_⟩
    · simp only [Nat.zero_add]
      rw [determinant]
      congr 1
      have : ∀ m, prodB (seqAt (runOps ops s₀).params.b) m =
          ((List.range m).map fun i => seqAt (runOps ops s₀).params.b (i + 1)).prod := by
        intro m
        induction m with
        | zero => simp [prodB]
        | succ m ih => rw [prodB, List.range_succ, List.map_append, List.prod_append, ih]; simp
      exact this n
    · rw [hr, convVal_nan_iff]; simp
    · intro hq
      rw [hr, convVal, quotient, if_neg (by simpa using hq)]
      simp
  · intro s'' hs'' hb ⟨h1, h2⟩
    rw [hval n s' hs', convVal_nan_iff] at h1
    rw [hval (n + 1) s'' hs'', convVal_nan_iff] at h2
    have := determinant (seqAt (runOps ops s₀).params.a) (seqAt (runOps ops s₀).params.b) (n + 1)
    rw [h1, h2] at this
    have hp := prodB_ne_zero (n + 1) hb
    have : (-1 : ℤ) ^ (n + 1 + 1) * prodB (seqAt (runOps ops s₀).params.b) (n + 1) ≠ 0 :=
      mul_ne_zero (pow_ne_zero _ (by decide)) hp
    simp_all

-- a_1 = 0: the first convergent of 1 + 1/0 is NaN, the next one is not
example : ∃ s₀ s' s'', init [[1], [0], [1]] [[1]] true none false = .ok s₀ ∧
    genIterations (1 : ℕ) true (runOps [] s₀) = (s', .ok ()) ∧ getResult s' = .nan ∧
    genIterations (2 : ℕ) true (runOps [] s₀) = (s'', .ok ()) ∧ getResult s'' = .fin 2 :=
  ⟨_, _, _, rfl, rfl, by decide +kernel, rfl, by decide +kernel⟩

/-! ## C14 -/

/-- **C14 (violated).** After two iterations of the continued fraction of the golden ratio the result is
3/2, but `get_p_q()` returns `(2, 1)`. -/
theorem C14_get_p_q_violated :
    ∃ s₀ s', init [[1]] [[1]] true none false = .ok s₀ ∧ genIterations 2 true s₀ = (s', .ok ()) ∧
      getResult s' = .fin (3 / 2) ∧ getPQ s' = (2, 1) :=
  ⟨_, _, rfl, rfl, by decide +kernel, by decide +kernel⟩

/-- **C14 (partial).** What `get_p_q()` really returns after `n` iterations: numerator and denominator of
convergent `n - 1` (for `n = 0`: `(1, 0)`).
Missing with respect to C14: it is not the latest convergent. -/
theorem C14_get_p_q_partial {a₀ b₀ : Coeffs} {z l : Bool} {s₀ : CF} (hinit : init a₀ b₀ z none l = .ok s₀)
    (ops : List CFOp) (n : ℕ) (fin : Bool) (s' : CF)
    (hs' : genIterations (n : ℤ) fin (runOps ops s₀) = (s', .ok ())) :
    getPQ s' = (contP (seqAt (runOps ops s₀).params.a) (seqAt (runOps ops s₀).params.b) n,
                contQ (seqAt (runOps ops s₀).params.a) (seqAt (runOps ops s₀).params.b) n) := by
  have hg := reachable_good hinit ops
  have := addIterations_synced (good_reset_synced hg) hs'
  simpa using getPQ_synced this

example : ∃ s₀ s', init [[1]] [[1]] true none false = .ok s₀ ∧
    genIterations (2 : ℕ) true (runOps [] s₀) = (s', .ok ()) := ⟨_, _, rfl, rfl⟩

/-! ## C15 -/

/-- **C15 (violated)** for 0 iterations: a logging object reports 1 where a non-logging one reports
`a_0`. -/
theorem C15_logging_violated :
    ∃ s s₁ t t₁, init [[7]] [[1]] true none false = .ok s ∧ init [[7]] [[1]] true none true = .ok t ∧
      genIterations 0 true s = (s₁, .ok ()) ∧ genIterations 0 true t = (t₁, .ok ()) ∧
      getResult s₁ = .fin 7 ∧ getResult t₁ = .fin 1 :=
  ⟨_, _, _, _, rfl, rfl, rfl, rfl, by decide +kernel, by decide +kernel⟩

/-- **C15 (partial).** For `n ≥ 1` the logging object gives the same outcome and the same result as the
non-logging one, and its `i`-th logged result is the `i`-th convergent (`P_i/Q_i`, NaN if `Q_i = 0`).
Missing with respect to C15: `n = 0`. -/
theorem C15_logging_partial {a b : Coeffs} {z : Bool} {s t : CF} (hs : init a b z none false = .ok s)
    (ht : init a b z none true = .ok t) (n : ℕ) (hn : 0 < n) :
    (genIterations (n : ℤ) true s).2 = (genIterations (n : ℤ) true t).2 ∧
    ((genIterations (n : ℤ) true s).2 = .ok () →
      getResult (genIterations (n : ℤ) true s).1 = getResult (genIterations (n : ℤ) true t).1 ∧
      (genIterations (n : ℤ) true t).1.logs.length = n + 1 ∧
      ∀ i, 1 ≤ i → i ≤ n → ∀ p q : ℤ, p = contP (seqAt a) (seqAt b) (i + 1) → q = contQ (seqAt a) (seqAt b) (i + 1) →
        ((genIterations (n : ℤ) true t).1.logs[i]?).map Params.res = some (if q = 0 then .nan else .fin ((p : ℚ) / q))) := by
  obtain ⟨hw, rfl⟩ := init_fresh hs
  obtain ⟨-, rfl⟩ := init_fresh ht
  rw [genIterations_eq, genIterations_eq, fresh_reset, fresh_reset,
    addIterations_closed (fresh_synced hw z false), addIterations_closed (fresh_synced hw z true)]
  simp only [show (fresh a b z false).avoidZeroB = z from rfl, show (fresh a b z true).avoidZeroB = z from rfl,
    show (fresh a b z false).logging = false from rfl, show (fresh a b z true).logging = true from rfl]
  split
  · simp only [Bool.false_eq_true, if_false, if_true, true_and]
    intro _
    have hlogs : ((fresh a b z true).pushed a b 0 n).logs = ⟨a, b, .fin 1⟩ :: snaps a b 0 n := rfl
    refine ⟨?_, ?_, ?_⟩
    · simp only [getResult, hlogs]
      have := getLastD_append_map_range [(⟨a, b, .fin 1⟩ : Params)] (fun j => ⟨a, b, convVal a b (0 + j + 1)⟩) n
        ((fresh a b z true).pushed a b 0 n).params hn
      rw [List.singleton_append] at this
      rw [snaps, this]
      simp only [List.getLastD_cons, List.getLastD_nil]
      congr 1; omega
    · simp [hlogs, snaps]
    · rintro i h1 h2 p q rfl rfl
      obtain ⟨i, rfl⟩ : ∃ j, i = j + 1 := ⟨i - 1, by omega⟩
      rw [hlogs, List.getElem?_cons_succ, snaps, List.getElem?_map, List.getElem?_range (by omega)]
      simp [convVal, quotient]
  · exact ⟨rfl, fun h => by cases h⟩

example : ∃ s t, init [[1]] [[1]] true none false = .ok s ∧ init [[1]] [[1]] true none true = .ok t ∧
    (genIterations (3 : ℕ) true s).2 = .ok () := ⟨_, _, rfl, rfl, rfl⟩

end PiCF.ContFrac
