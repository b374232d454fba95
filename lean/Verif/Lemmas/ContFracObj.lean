import Verif.Lemmas.ContFrac

/-!
# Lemmas about `ContFrac` objects: histories, preserved attributes
-/

namespace PiCF.ContFrac
open PiCF.Spec

/-- The attributes that iterating does not touch. -/
def core (s : CF) : Params × Mat × Bool × Bool × Bool := (s.params, s.first, s.autoFirst, s.avoidZeroB, s.logging)

/-- A method that leaves these attributes alone, whatever happens. -/
def Pres {α : Type} (m : PyM CF α) : Prop := ∀ s, core (m s).1 = core s

theorem pres_pure {α : Type} (x : α) : Pres (pure x : PyM CF α) := fun _ => rfl
theorem pres_get : Pres (PyM.get : PyM CF CF) := fun _ => rfl
theorem pres_raise {α : Type} (e : PyErr) : Pres (PyM.raise e : PyM CF α) := fun _ => rfl

theorem pres_bind {α β : Type} {m : PyM CF α} {f : α → PyM CF β} (hm : Pres m) (hf : ∀ x, Pres (f x)) :
    Pres (m >>= f) := by
  intro s
  have h := hm s
  rcases hms : m s with ⟨s', r⟩
  rw [hms] at h
  cases r with
  | ok x => rw [PyM.bind_ok hms]; rw [hf x s']; exact h
  | error e => rw [PyM.bind_error hms]; exact h

theorem addLoop_core : ∀ (k i : ℕ) (ps : Params) (m : Mat) (s : CF), core (addLoop k i ps m s).1 = core s := by
  intro k
  induction k with
  | zero => intro i ps m s; rfl
  | succ k ih =>
    intro i ps m s
    rw [addLoop]
    split
    · rfl
    · rw [ih]; split <;> rfl

theorem pres_add (n : ℤ) (fin : Bool) : Pres (addIterations n fin) := by
  intro s
  rw [addIterations]
  have h := addLoop_core n.toNat 0 (s.logs.getLastD s.params) (s.mats.getLastD s.first) s
  rcases hms : addLoop n.toNat 0 (s.logs.getLastD s.params) (s.mats.getLastD s.first) s with ⟨s', r⟩
  rw [hms] at h
  cases r with
  | error e => exact h
  | ok r =>
    simp only
    cases hl : s'.logging <;> simpa [core, hl] using h

theorem pres_gen (n : ℤ) (fin : Bool) : Pres (genIterations n fin) := by
  intro s
  rw [genIterations_eq, pres_add]
  rfl

theorem pres_genAcc (req : ℚ → ℚ → Except PyErr ℤ) (n : ℤ) (acc : ℚ) (fin : Bool) :
    Pres (genIterationsAcc req n acc fin) := by
  intro s
  rw [genIterationsAcc]
  split
  · split
    · exact pres_gen n fin s
    · split
      · rfl
      · exact pres_gen _ fin s
  · exact pres_gen n fin s

theorem pres_fastLoop (step : ℤ) (k : ℕ) : Pres (fastLoop step k) := by
  induction k with
  | zero => exact pres_pure _
  | succ k ih =>
    refine pres_bind pres_get fun _ => pres_bind (pres_add _ _) fun _ => pres_bind pres_get fun _ =>
      pres_bind (pres_add _ _) fun _ => pres_bind pres_get fun _ => pres_bind (pres_add _ _) fun _ =>
      pres_bind pres_get fun _ => pres_bind (pres_add _ _) fun _ => pres_bind pres_get fun _ =>
      pres_bind (pres_add _ _) fun _ => pres_bind pres_get fun _ => ?_
    simp only
    split
    · exact pres_pure _
    · exact pres_bind (pres_add _ _) fun _ => ih

theorem pres_fast (iters cutoff step : ℤ) : Pres (isConvergenceFast iters cutoff step) := by
  refine pres_bind (pres_gen _ _) fun _ => pres_bind ?_ fun _ => pres_bind (pres_gen _ _) fun _ => pres_pure _
  unfold fastFor
  split
  · exact pres_raise _
  · exact pres_fastLoop _ _

theorem pres_six : Pres sixResults :=
  pres_bind pres_get fun _ => pres_bind (pres_add _ _) fun _ => pres_bind pres_get fun _ =>
      pres_bind (pres_add _ _) fun _ => pres_bind pres_get fun _ => pres_bind (pres_add _ _) fun _ =>
      pres_bind pres_get fun _ => pres_bind (pres_add _ _) fun _ => pres_bind pres_get fun _ =>
      pres_bind (pres_add _ _) fun _ => pres_bind pres_get fun _ => pres_pure _

theorem pres_sampleLoop (step : ℤ) (k : ℕ) : ∀ i, Pres (sampleLoop step k i) := by
  induction k with
  | zero => intro i; exact pres_pure _
  | succ k ih =>
    intro i
    exact pres_bind (pres_add _ _) fun _ => pres_bind pres_six fun _ => pres_bind (ih _) fun _ => pres_pure _

theorem pres_samples (iters cutoff step : ℤ) : Pres (estimateSamples iters cutoff step) := by
  refine pres_bind (pres_gen _ _) fun _ => pres_bind pres_six fun _ => pres_bind ?_ fun _ => pres_pure _
  unfold sampleFor
  split
  · exact pres_raise _
  · exact pres_sampleLoop _ _ _

/-- The calls a user can make on a `ContFrac` object. -/
inductive CFOp where
  | gen (n : ℤ) (fin : Bool)
  | genAcc (required : ℚ → ℚ → Except PyErr ℤ) (n : ℤ) (accuracy : ℚ) (fin : Bool)
  | add (n : ℤ) (fin : Bool)
  | reinit (a b : Option Coeffs)
  | setApproach (t : ApproachType) (ps : Option (ℚ × ℚ))
  | fast (iters cutoff step : ℤ)
  | samples (iters cutoff step : ℤ)

/-- The object after one call, whether it returned or raised. -/
def CFOp.run : CFOp → CF → CF
  | .gen n fin, s => (genIterations n fin s).1
  | .genAcc req n acc fin, s => (genIterationsAcc req n acc fin s).1
  | .add n fin, s => (addIterations n fin s).1
  | .reinit a b, s => (reinitialize a b none s).1
  | .setApproach t ps, s => (ContFrac.setApproach t ps s).1
  | .fast i c st, s => (isConvergenceFast i c st s).1
  | .samples i c st, s => (estimateSamples i c st s).1

/-- The object after a history of calls. -/
def runOps (ops : List CFOp) (s : CF) : CF := ops.foldl (fun s op => op.run s) s

/-- Coefficients are well-formed and the first matrix belongs to them. -/
structure Good (s : CF) (z l : Bool) : Prop where
  wf : WF s.params.a s.params.b
  first : s.first = convMat s.params.a s.params.b 0
  auto : s.autoFirst = true
  avoid : s.avoidZeroB = z
  logging : s.logging = l
  res : s.params.res = .fin 1

theorem good_of_core {s s' : CF} {z l : Bool} (h : core s' = core s) (hg : Good s z l) : Good s' z l := by
  simp only [core, Prod.mk.injEq] at h
  obtain ⟨h1, h2, h3, h4, h5⟩ := h
  exact ⟨h1 ▸ hg.wf, by rw [h2, h1]; exact hg.first, h3 ▸ hg.auto, h4 ▸ hg.avoid, h5 ▸ hg.logging, h1 ▸ hg.res⟩

theorem fresh_good {a b : Coeffs} (h : WF a b) (z l : Bool) : Good (fresh a b z l) z l :=
  ⟨h, rfl, rfl, rfl, rfl, rfl⟩

theorem convMat_zero_b (a b b' : Coeffs) : convMat a b 0 = convMat a b' 0 := by
  simp [convMat, contP, contQ]

theorem reinit_good {s : CF} {z l : Bool} (hg : Good s z l) (a b : Option Coeffs) :
    Good (reinitialize a b none s).1 z l := by
  have hb'' : keepOr b s.params.b ≠ [] := by
    unfold keepOr
    split
    · simp
    · exact hg.wf.hb
  rw [reinitialize]
  simp only [Option.isNone_none, hg.auto, Bool.and_self, if_true]
  split
  · exact ⟨hg.wf, hg.first, rfl, hg.avoid, hg.logging, hg.res⟩
  · rename_i m hm
    have hw : WF (keepOr a s.params.a) (keepOr b s.params.b) := by
      generalize keepOr a s.params.a = a' at hm
      match a', hm with
      | (x :: xs) :: ys, _ => exact ⟨⟨x, xs, ys, rfl⟩, hb''⟩
    refine ⟨hw, ?_, rfl, hg.avoid, hg.logging, hg.res⟩
    rw [autogen_wf hw] at hm
    cases hm; rfl

theorem run_good {s : CF} {z l : Bool} (hg : Good s z l) (op : CFOp) : Good (op.run s) z l := by
  cases op with
  | gen n fin => exact good_of_core (pres_gen n fin s) hg
  | genAcc req n acc fin => exact good_of_core (pres_genAcc req n acc fin s) hg
  | add n fin => exact good_of_core (pres_add n fin s) hg
  | reinit a b => exact reinit_good hg a b
  | setApproach t ps => exact good_of_core (s := s) rfl hg
  | fast i c st => exact good_of_core (pres_fast i c st s) hg
  | samples i c st => exact good_of_core (pres_samples i c st s) hg

theorem runOps_good (ops : List CFOp) : ∀ {s : CF} {z l : Bool}, Good s z l → Good (runOps ops s) z l := by
  induction ops with
  | nil => intro s z l h; exact h
  | cons op ops ih => intro s z l h; exact ih (run_good h op)

theorem good_reset {s : CF} {z l : Bool} (hg : Good s z l) :
    s.reset = { fresh s.params.a s.params.b z l with approachType := s.approachType, approachParams := s.approachParams } := by
  have h : s.params = ⟨s.params.a, s.params.b, .fin 1⟩ := by
    rw [← hg.res]
  have := hg.first
  unfold CF.reset fresh
  rw [← hg.first, ← hg.auto, ← hg.avoid, ← hg.logging]
  rw [← h]

theorem good_reset_synced {s : CF} {z l : Bool} (hg : Good s z l) : Synced s.reset s.params.a s.params.b 0 :=
  ⟨hg.wf.ha, hg.wf.hb, rfl, rfl, hg.first, rfl⟩

/-- No zero of `b` at indices `lo < j ≤ hi` that the object would complain about. -/
def NoZero (z : Bool) (b : Coeffs) (lo hi : ℕ) : Prop := ∀ j, lo < j → j ≤ hi → ¬ (z = true ∧ seqAt b j = 0)

theorem NoZero.mono {z : Bool} {b : Coeffs} {lo hi lo' hi' : ℕ} (h : NoZero z b lo hi) (h1 : lo ≤ lo') (h2 : hi' ≤ hi) :
    NoZero z b lo' hi' := fun j h3 h4 => h j (by omega) (by omega)

theorem core_avoid {s s' : CF} (h : core s' = core s) : s'.avoidZeroB = s.avoidZeroB := by
  simp only [core, Prod.mk.injEq] at h; exact h.2.2.2.1

theorem core_logging {s s' : CF} (h : core s' = core s) : s'.logging = s.logging := by
  simp only [core, Prod.mk.injEq] at h; exact h.2.2.2.2

theorem add_ok {s : CF} {a b : Coeffs} {c : ℕ} (h : Synced s a b c) (k : ℕ) (fin : Bool)
    (hz : NoZero s.avoidZeroB b c (c + k)) :
    ∃ s', addIterations (k : ℤ) fin s = (s', .ok ()) ∧ Synced s' a b (c + k) ∧ core s' = core s ∧
      ((s.logging = true ∧ 0 < k) ∨ (s.logging = false ∧ fin = true) → getResult s' = convVal a b (c + k)) := by
  have hd : stepsBefore s.avoidZeroB b c k = k := (stepsBefore_eq_iff _ _ _ _).2 hz
  have hcl := addIterations_closed h k fin
  simp only [hd, if_true] at hcl
  refine ⟨_, hcl, addIterations_synced h hcl, ?_, ?_⟩
  · have := pres_add (k : ℤ) fin s
    rw [hcl] at this
    exact this
  · rintro (⟨hl, hk⟩ | ⟨hl, hf⟩)
    · simp only [hl, if_true, getResult, CF.pushed]
      rw [snaps, getLastD_append_map_range _ _ _ _ hk]
      simp only
      congr 1; omega
    · simp [hl, hf, getResult]

theorem getPQ_synced {s : CF} {a b : Coeffs} {n : ℕ} (h : Synced s a b n) :
    getPQ s = (contP (seqAt a) (seqAt b) n, contQ (seqAt a) (seqAt b) n) := by
  rw [getPQ, h.hm]; rfl

theorem not_slowTest_iff (a b : ℕ → ℤ) (m : ℕ) :
    slowTest (contP a b m, contQ a b m) (contP a b (m + 2), contQ a b (m + 2)) (contP a b (m + 4), contQ a b (m + 4)) = false
      ↔ Shrinks a b m := by
  simp only [slowTest, Shrinks, decide_eq_false_iff_not, not_le]
  rw [Int.fdiv_eq_ediv_of_nonneg _ (show (0:ℤ) ≤ 16 by decide)]
  omega

theorem getPQ_eq_of_synced {s : CF} {a b : Coeffs} {n : ℕ} (h : Synced s a b n) :
    getPQ s = (contP (seqAt a) (seqAt b) n, contQ (seqAt a) (seqAt b) n) := getPQ_synced h

/-- `fastLoop` in closed form. -/
theorem fastLoop_closed {a b : Coeffs} (step : ℕ) (hstep : 5 ≤ step) (k : ℕ) : ∀ (s : CF) (c : ℕ), Synced s a b c →
    NoZero s.avoidZeroB b c (c + k * step) →
    ∃ s' r, fastLoop (step : ℤ) k s = (s', .ok r) ∧
      (r = true ↔ ∀ j < k, Shrinks (seqAt a) (seqAt b) (c + j * step) ∧ Shrinks (seqAt a) (seqAt b) (c + j * step + 1)) := by
  induction k with
  | zero => intro s c h hz; exact ⟨s, true, rfl, by simp⟩
  | succ k ih =>
    intro s c h hz
    have hmul : (k + 1) * step = k * step + step := by ring
    have hb0 : c + step ≤ c + (k + 1) * step := by
      rw [hmul]; omega
    obtain ⟨s1, e1, h1, c1, -⟩ := add_ok h 1 false (hz.mono (by omega) (by omega))
    obtain ⟨s2, e2, h2, c2, -⟩ := add_ok h1 1 false (by rw [core_avoid c1]; exact hz.mono (by omega) (by omega))
    obtain ⟨s3, e3, h3, c3, -⟩ := add_ok h2 1 false (by rw [core_avoid c2, core_avoid c1]; exact hz.mono (by omega) (by omega))
    obtain ⟨s4, e4, h4, c4, -⟩ := add_ok h3 1 false (by rw [core_avoid c3, core_avoid c2, core_avoid c1]; exact hz.mono (by omega) (by omega))
    obtain ⟨s5, e5, h5, c5, -⟩ := add_ok h4 1 false (by rw [core_avoid c4, core_avoid c3, core_avoid c2, core_avoid c1]; exact hz.mono (by omega) (by omega))
    obtain ⟨s6, e6, h6, c6, -⟩ := add_ok h5 (step - 5) false (by
      rw [core_avoid c5, core_avoid c4, core_avoid c3, core_avoid c2, core_avoid c1]; exact hz.mono (by omega) (by omega))
    have hc : c + 1 + 1 + 1 + 1 + 1 + (step - 5) = c + step := by omega
    rw [hc] at h6
    obtain ⟨s7, r, e7, hr⟩ := ih s6 (c + step) h6 (by
      rw [core_avoid c6, core_avoid c5, core_avoid c4, core_avoid c3, core_avoid c2, core_avoid c1]
      exact hz.mono (by omega) (by rw [hmul]; omega))
    have e6' : addIterations ((step : ℤ) - 5) false s5 = (s6, .ok ()) := by
      rw [← e6]; congr 1; omega
    have e1' : addIterations 1 false s = (s1, .ok ()) := e1
    have e2' : addIterations 1 false s1 = (s2, .ok ()) := e2
    have e3' : addIterations 1 false s2 = (s3, .ok ()) := e3
    have e4' : addIterations 1 false s3 = (s4, .ok ()) := e4
    have e5' : addIterations 1 false s4 = (s5, .ok ()) := e5
    have body : fastLoop (step : ℤ) (k + 1) s =
        if slowTest (getPQ s) (getPQ s2) (getPQ s4) || slowTest (getPQ s1) (getPQ s3) (getPQ s5) then (s5, .ok false)
        else fastLoop (step : ℤ) k s6 := by
      rw [fastLoop, PyM.bind_ok (show (PyM.get : PyM CF CF) s = (s, .ok s) from rfl), PyM.bind_ok e1',
        PyM.bind_ok (show (PyM.get : PyM CF CF) s1 = (s1, .ok s1) from rfl), PyM.bind_ok e2',
        PyM.bind_ok (show (PyM.get : PyM CF CF) s2 = (s2, .ok s2) from rfl), PyM.bind_ok e3',
        PyM.bind_ok (show (PyM.get : PyM CF CF) s3 = (s3, .ok s3) from rfl), PyM.bind_ok e4',
        PyM.bind_ok (show (PyM.get : PyM CF CF) s4 = (s4, .ok s4) from rfl), PyM.bind_ok e5',
        PyM.bind_ok (show (PyM.get : PyM CF CF) s5 = (s5, .ok s5) from rfl)]
      split
      · rfl
      · rw [PyM.bind_ok e6']
    rw [body, getPQ_synced h, getPQ_synced h1, getPQ_synced h2, getPQ_synced h3, getPQ_synced h4, getPQ_synced h5]
    simp only [show c + 1 + 1 = c + 2 by omega, show c + 2 + 1 = c + 1 + 2 by omega, show c + 1 + 2 + 1 = c + 4 by omega,
      show c + 4 + 1 = c + 1 + 4 by omega]
    have t1 := not_slowTest_iff (seqAt a) (seqAt b) c
    have t2 := not_slowTest_iff (seqAt a) (seqAt b) (c + 1)
    have split_all : (∀ j < k + 1, Shrinks (seqAt a) (seqAt b) (c + j * step) ∧ Shrinks (seqAt a) (seqAt b) (c + j * step + 1)) ↔
        (Shrinks (seqAt a) (seqAt b) c ∧ Shrinks (seqAt a) (seqAt b) (c + 1)) ∧
        ∀ j < k, Shrinks (seqAt a) (seqAt b) (c + step + j * step) ∧ Shrinks (seqAt a) (seqAt b) (c + step + j * step + 1) := by
      have e : ∀ j, c + step + j * step = c + (j + 1) * step := by intro j; ring
      simp only [e]
      constructor
      · intro hh; exact ⟨by simpa using hh 0 (by omega), fun j hj => hh (j + 1) (by omega)⟩
      · rintro ⟨h0, hh⟩ j hj
        cases j with
        | zero => simpa using h0
        | succ j => exact hh j (by omega)
    rw [split_all]
    split
    · rename_i hs
      refine ⟨s5, false, rfl, ?_⟩
      simp only [Bool.false_eq_true, false_iff]
      rintro ⟨⟨hs1, hs2⟩, -⟩
      rw [t1.2 hs1, t2.2 hs2] at hs
      simp at hs
    · rename_i hs
      simp only [Bool.or_eq_true, not_or, Bool.not_eq_true] at hs
      refine ⟨s7, r, e7, ?_⟩
      rw [hr]
      exact ⟨fun hh => ⟨⟨t1.1 hs.1, t2.1 hs.2⟩, hh⟩, fun hh => hh.2⟩

theorem rangeLen_lt_iff (lo hi step : ℤ) (hs : 0 < step) (j : ℕ) :
    j < rangeLen lo hi step ↔ lo + j * step < hi := by
  rw [rangeLen, if_pos hs, Int.fdiv_eq_ediv_of_nonneg _ hs.le, Int.lt_toNat, Int.lt_iff_add_one_le,
    Int.le_ediv_iff_mul_le hs]
  constructor
  · intro h; nlinarith
  · intro h; nlinarith

/-- Six results in closed form. -/
theorem six_closed {a b : Coeffs} {s : CF} {c : ℕ} (h : Synced s a b c) (hr : getResult s = convVal a b c)
    (hz : NoZero s.avoidZeroB b c (c + 5)) :
    ∃ s', sixResults s = (s', .ok ((List.range 6).map fun t => convVal a b (c + t))) ∧ Synced s' a b (c + 5) ∧
      core s' = core s ∧ getResult s' = convVal a b (c + 5) := by
  obtain ⟨s1, e1, h1, c1, r1⟩ := add_ok h 1 true (hz.mono (by omega) (by omega))
  obtain ⟨s2, e2, h2, c2, r2⟩ := add_ok h1 1 true (by rw [core_avoid c1]; exact hz.mono (by omega) (by omega))
  obtain ⟨s3, e3, h3, c3, r3⟩ := add_ok h2 1 true (by rw [core_avoid c2, core_avoid c1]; exact hz.mono (by omega) (by omega))
  obtain ⟨s4, e4, h4, c4, r4⟩ := add_ok h3 1 true (by rw [core_avoid c3, core_avoid c2, core_avoid c1]; exact hz.mono (by omega) (by omega))
  obtain ⟨s5, e5, h5, c5, r5⟩ := add_ok h4 1 true (by rw [core_avoid c4, core_avoid c3, core_avoid c2, core_avoid c1]; exact hz.mono (by omega) (by omega))
  have hd : ∀ x : CF, (x.logging = true ∧ 0 < 1) ∨ (x.logging = false ∧ true = true) := by
    intro x; cases x.logging <;> simp
  refine ⟨s5, ?_, h5, by rw [c5, c4, c3, c2, c1], r5 (hd _)⟩
  have e1' : addIterations 1 true s = (s1, .ok ()) := e1
  have e2' : addIterations 1 true s1 = (s2, .ok ()) := e2
  have e3' : addIterations 1 true s2 = (s3, .ok ()) := e3
  have e4' : addIterations 1 true s3 = (s4, .ok ()) := e4
  have e5' : addIterations 1 true s4 = (s5, .ok ()) := e5
  rw [sixResults, PyM.bind_ok (show (PyM.get : PyM CF CF) s = (s, .ok s) from rfl), PyM.bind_ok e1',
        PyM.bind_ok (show (PyM.get : PyM CF CF) s1 = (s1, .ok s1) from rfl), PyM.bind_ok e2',
        PyM.bind_ok (show (PyM.get : PyM CF CF) s2 = (s2, .ok s2) from rfl), PyM.bind_ok e3',
        PyM.bind_ok (show (PyM.get : PyM CF CF) s3 = (s3, .ok s3) from rfl), PyM.bind_ok e4',
        PyM.bind_ok (show (PyM.get : PyM CF CF) s4 = (s4, .ok s4) from rfl), PyM.bind_ok e5',
        PyM.bind_ok (show (PyM.get : PyM CF CF) s5 = (s5, .ok s5) from rfl)]
  rw [hr, r1 (hd _), r2 (hd _), r3 (hd _), r4 (hd _), r5 (hd _)]
  rfl

theorem sampleLoop_closed {a b : Coeffs} (step : ℕ) (hstep : 5 ≤ step) (k : ℕ) : ∀ (s : CF) (c : ℕ), Synced s a b (c + 5) →
    getResult s = convVal a b (c + 5) →
    NoZero s.avoidZeroB b (c + 5) (c + k * step + 5) →
    ∃ s', sampleLoop (step : ℤ) k ((c : ℤ) + step) s = (s', .ok ((List.range k).map fun (j : ℕ) =>
        ((c : ℤ) + (j + 1) * step, (List.range 6).map fun t => convVal a b (c + (j + 1) * step + t)))) ∧
      Synced s' a b (c + k * step + 5) ∧ core s' = core s ∧ getResult s' = convVal a b (c + k * step + 5) := by
  induction k with
  | zero => intro s c h hr hz; exact ⟨s, rfl, by simpa using h, rfl, by simpa using hr⟩
  | succ k ih =>
    intro s c h hr hz
    have hmul : (k + 1) * step = k * step + step := by ring
    obtain ⟨s1, e1, h1, c1, r1⟩ := add_ok h (step - 5) true (hz.mono (by omega) (by rw [hmul]; omega))
    have hc : c + 5 + (step - 5) = c + step := by omega
    rw [hc] at h1 r1
    have hr1 : getResult s1 = convVal a b (c + step) := by
      rcases Nat.eq_zero_or_pos (step - 5) with h0 | h0
      · have hs5 : step = 5 := by omega
        subst hs5
        cases hl : s.logging with
        | false => exact r1 (Or.inr ⟨hl, rfl⟩)
        | true =>
          have := addIterations_closed h 0 true
          simp only [stepsBefore, hl, if_true, pushed_zero, Nat.cast_zero] at this
          simp only [Nat.sub_self, Nat.cast_zero, this, Prod.mk.injEq, and_true] at e1
          rw [← e1]; exact hr
      · cases hl : s.logging with
        | false => exact r1 (Or.inr ⟨hl, rfl⟩)
        | true => exact r1 (Or.inl ⟨hl, h0⟩)
    obtain ⟨s2, e2, h2, c2, r2⟩ := six_closed h1 hr1 (by rw [core_avoid c1]; exact hz.mono (by omega) (by rw [hmul]; omega))
    obtain ⟨s3, e3, h3, c3, r3⟩ := ih s2 (c + step) h2 r2 (by
      rw [core_avoid c2, core_avoid c1]; exact hz.mono (by omega) (by rw [hmul]; omega))
    have e1' : addIterations ((step : ℤ) - 5) true s = (s1, .ok ()) := by
      rw [← e1]; congr 1; omega
    refine ⟨s3, ?_, ?_, by rw [c3, c2, c1], ?_⟩
    · rw [sampleLoop, PyM.bind_ok e1', PyM.bind_ok e2]
      have e3' := e3
      rw [Nat.cast_add] at e3'
      rw [PyM.bind_ok e3']
      rw [PyM.pure_apply, List.range_succ_eq_map (n := k), List.map_cons, List.map_map]
      congr 2
      congr 1
      · simp
      · apply List.map_congr_left
        intro j _
        simp only [Function.comp, Nat.succ_eq_add_one]
        congr 1
        · push_cast; ring
        · apply List.map_congr_left
          intro t _
          congr 1; ring
    · rw [show c + (k + 1) * step + 5 = c + step + k * step + 5 by ring]; exact h3
    · rw [show c + (k + 1) * step + 5 = c + step + k * step + 5 by ring]; exact r3

end PiCF.ContFrac
