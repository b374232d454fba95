import Verif.Props.Estimator
import Verif.Props.LoadCsv
import Verif.Props.Mirror
import Verif.Props.Pipeline

/-!
# C101–C103: printing slow continued fractions, reusing objects, comparing results
-/

namespace PiCF.Mitm
open PiCF.ContFrac PiCF.Process PiCF.EnumPoly

variable {L : Type}

/-! ### C101: `print_surprising_nonexp_contfracs` only prints -/

theorem filterExp_print {fast : Polys → Polys → Except PyErr Bool} {report : Polys → Polys → Except PyErr Unit} (cs : List (Click L))
    (hr : ∀ c ∈ cs, fast c.a c.b = .ok false → report c.a c.b = .ok ()) :
    filterExp.loop fast report true cs = filterExp.loop fast report false cs := by
  induction cs with
  | nil => rfl
  | cons c cs ih =>
    have ih := ih fun c hc => hr c (List.mem_cons_of_mem _ hc)
    rw [filterExp.loop, filterExp.loop, ih]
    rcases hf : fast c.a c.b with e | b
    · rfl
    · cases b with
      | true => rfl
      | false =>
        simp only
        rw [if_pos trivial, hr c List.mem_cons_self hf, if_neg (by decide)]

theorem filterExp_total {fast : Polys → Polys → Except PyErr Bool} {report : Polys → Polys → Except PyErr Unit} (cs : List (Click L))
    (hf : ∀ c ∈ cs, ∃ v, fast c.a c.b = .ok v) : ∃ r, filterExp.loop fast report false cs = .ok r := by
  induction cs with
  | nil => exact ⟨_, rfl⟩
  | cons c cs ih =>
    obtain ⟨r, ih⟩ := ih fun c hc => hf c (List.mem_cons_of_mem _ hc)
    obtain ⟨v, hv⟩ := hf c List.mem_cons_self
    rw [filterExp.loop, hv]
    cases v with
    | true => simp only; rw [ih]; exact ⟨_, rfl⟩
    | false => simp only; rw [if_neg (by decide)]; exact ⟨r, ih⟩

/-- **C101 (partial).** Without printing, the filter keeps exactly the clicks for which `is_convergence_fast` answers True, in
their order.  With printing it does the same if the estimator returns for every click that is dropped.  If it raises, the
clicks are as before.
Missing with respect to C101: estimations that raise (`C101_print_violated`). -/
theorem C101_print_partial (fast : Polys → Polys → Except PyErr Bool) (report : Polys → Polys → Except PyErr Unit) (cs : List (Click L)) :
    ((∀ c ∈ cs, ∃ v, fast c.a c.b = .ok v) → ∃ cs', filterExp fast report false cs = (cs', .ok ()) ∧
      cs'.Sublist cs ∧ (∀ c, c ∈ cs' ↔ c ∈ cs ∧ fast c.a c.b = .ok true) ∧
      ∀ p : Click L → Bool, (∀ c ∈ cs, p c = true ↔ fast c.a c.b = .ok true) → cs' = cs.filter p) ∧
    ((∀ c ∈ cs, fast c.a c.b = .ok false → report c.a c.b = .ok ()) → filterExp fast report true cs = filterExp fast report false cs) ∧
    ∀ print e, (filterExp fast report print cs).2 = .error e → (filterExp fast report print cs).1 = cs := by
  refine ⟨fun hf => ?_, fun hr => ?_, fun print e h => ?_⟩
  · obtain ⟨r, hr⟩ := filterExp_total (report := report) cs hf
    have h : filterExp fast report false cs = (r, .ok ()) := by rw [filterExp, hr]
    have h' := filterExp_ok h
    refine ⟨r, h, ?_, ?_, ?_⟩
    · rw [h']; exact List.filter_sublist
    · intro c
      refine ⟨filterExp_mem h c, fun hc => ?_⟩
      rw [h', List.mem_filter, hc.2]
      exact ⟨hc.1, rfl⟩
    · intro p hp
      rw [h']
      refine List.filter_congr fun c hc => ?_
      have := hp c hc
      rw [Bool.eq_iff_iff, this]
      split
      · simp_all
      · rename_i hne
        constructor
        · nofun
        · intro h; exact absurd h hne
  · rw [filterExp, filterExp, filterExp_print cs hr]
  · rw [filterExp] at h ⊢
    split at h
    · rfl
    · cases h

/-- A click with `1 + 1/(0 + 1/(1 + 1/(0 + …)))`. -/
def exSlow (l : L) : Click L := ⟨[[1], [0]], [[1]], l, 0, none⟩

/-- **C101 (violated).** For a click with the continued fraction `1 + 1/(0 + 1/(1 + 1/(0 + …)))` the filter drops it, but with
`print_surprising_nonexp_contfracs` it raises ZeroDivisionError, and the search ends there. -/
theorem C101_print_violated (A : Analysis) (l : L) :
    filterExp fastNew (reportNew A) false [exSlow l] = ([], .ok ()) ∧
    filterExp fastNew (reportNew A) true [exSlow l] = ([exSlow l], .error .zeroDivision) := by
  have hf : fastNew [[1], [0]] [[1]] = .ok false := by decide +kernel
  have hr : reportNew A [[1], [0]] [[1]] = .error .zeroDivision := by
    obtain ⟨s₀, s', h0, h1⟩ := C89_documented_raises_violated A
    rw [reportNew, h0]
    simp only
    obtain ⟨lg, ms, n, h⟩ := frame_fast 600 200 50 s₀
    rw [h]
    have : estimateApproachObj A 600 200 50 { s₀ with logs := lg, mats := ms, executed := n } = estimateApproachObj A 600 200 50 s₀ := rfl
    rw [this, h1]
  constructor
  · rw [filterExp, filterExp.loop, exSlow, hf]; rfl
  · rw [filterExp, filterExp.loop, exSlow, hf]
    simp only
    rw [if_pos trivial, hr]

/-- The hypotheses of the partial theorem hold for a list with a fast and a slow click, if the estimator does not raise. -/
example : (∀ c ∈ [(⟨[[1]], [[1]], (), 0, none⟩ : Click Unit), exSlow ()], ∃ v, fastNew c.a c.b = .ok v) ∧
    fastNew [[1]] [[1]] = .ok true ∧ fastNew [[1], [0]] [[1]] = .ok false := by
  have h1 : fastNew [[1]] [[1]] = .ok true := by decide +kernel
  have h2 : fastNew [[1], [0]] [[1]] = .ok false := by decide +kernel
  refine ⟨?_, h1, h2⟩
  intro c hc
  rcases List.mem_cons.1 hc with rfl | hc
  · exact ⟨_, h1⟩
  · rw [List.mem_singleton.1 hc]; exact ⟨_, h2⟩

end PiCF.Mitm

namespace PiCF.ContFrac
open PiCF.Process PiCF.Spec PiCF.Mitm

/-! ### C102: reusing an object -/

/-- The same object with another stored approach. -/
def withApproach (t : ApproachType) (ps : Option (ℚ × ℚ)) (s : CF) : CF := { s with approachType := t, approachParams := ps }

/-- `m` does not look at the stored approach (results may contain it). -/
def Blind {α : Type} (R : α → α → Prop) (t : ApproachType) (ps : Option (ℚ × ℚ)) (m m' : PyM CF α) : Prop :=
  ∀ s, (m' (withApproach t ps s)).1 = withApproach t ps (m s).1 ∧ RelE R (m s).2 (m' (withApproach t ps s)).2

section Blind
variable {α β : Type} {R : α → α → Prop} {Q : β → β → Prop} {t : ApproachType} {ps : Option (ℚ × ℚ)}

theorem Blind.bind {m m' : PyM CF α} {f f' : α → PyM CF β} (hm : Blind R t ps m m') (hf : ∀ x y, R x y → Blind Q t ps (f x) (f' y)) :
    Blind Q t ps (m >>= f) (m' >>= f') := by
  intro s
  obtain ⟨h1, h2⟩ := hm s
  rcases e : m s with ⟨u, r⟩
  rcases e' : m' (withApproach t ps s) with ⟨u', r'⟩
  rw [e, e'] at h1 h2
  simp only at h1
  cases h2 with
  | error err => rw [PyM.bind_error e, PyM.bind_error e']; exact ⟨h1, .error err⟩
  | ok hr =>
    rw [PyM.bind_ok e, PyM.bind_ok e', h1]
    exact hf _ _ hr u

theorem Blind.pure {x y : α} (h : R x y) : Blind R t ps (Pure.pure x) (Pure.pure y) := fun _ => ⟨rfl, .ok h⟩

theorem Blind.get : Blind (fun x y => y = withApproach t ps x) t ps (PyM.get : PyM CF CF) PyM.get := fun _ => ⟨rfl, .ok rfl⟩

theorem Blind.raise (e : PyErr) : Blind R t ps (PyM.raise e) (PyM.raise e) := fun _ => ⟨rfl, .error e⟩

theorem RelE.refl (x : Except PyErr α) : RelE Eq x x := by
  cases x with
  | error e => exact .error e
  | ok x => exact .ok rfl

theorem addLoop_blind : ∀ (k i : ℕ) (q : Params) (m : Mat), Blind Eq t ps (addLoop k i q m) (addLoop k i q m)
  | 0, _, _, _ => fun _ => ⟨rfl, .ok rfl⟩
  | k + 1, i, q, m => by
    intro s
    have e : iterationAlgorithm (withApproach t ps s).avoidZeroB (withApproach t ps s).logging q m (i + (withApproach t ps s).executed) =
      iterationAlgorithm s.avoidZeroB s.logging q m (i + s.executed) := rfl
    rw [addLoop, addLoop, e]
    rcases iterationAlgorithm s.avoidZeroB s.logging q m (i + s.executed) with e | ⟨q', m'⟩
    · exact ⟨rfl, .error e⟩
    · simp only
      have := addLoop_blind k (i + 1) q' m' (if s.logging then { s with logs := s.logs ++ [q'], mats := s.mats ++ [m'] } else s)
      have e2 : (if (withApproach t ps s).logging then { withApproach t ps s with
            logs := (withApproach t ps s).logs ++ [q'], mats := (withApproach t ps s).mats ++ [m'] } else withApproach t ps s) =
          withApproach t ps (if s.logging then { s with logs := s.logs ++ [q'], mats := s.mats ++ [m'] } else s) := by
        by_cases hl : s.logging = true
        · rw [if_pos hl, if_pos (show (withApproach t ps s).logging = true from hl)]; rfl
        · rw [if_neg hl, if_neg (show ¬ (withApproach t ps s).logging = true from hl)]
      rw [e2]
      exact this

theorem add_blind (n : ℤ) (fin : Bool) : Blind Eq t ps (addIterations n fin) (addIterations n fin) := by
  intro s
  obtain ⟨h1, h2⟩ := addLoop_blind (t := t) (ps := ps) n.toNat 0 (s.logs.getLastD s.params) (s.mats.getLastD s.first) s
  rw [addIterations, addIterations]
  rcases e1 : addLoop n.toNat 0 (s.logs.getLastD s.params) (s.mats.getLastD s.first) s with ⟨u, r⟩
  rcases e2 : addLoop n.toNat 0 (s.logs.getLastD s.params) (s.mats.getLastD s.first) (withApproach t ps s) with ⟨u', r'⟩
  rw [e1, e2] at h1 h2
  simp only at h1
  have e2' : addLoop n.toNat 0 ((withApproach t ps s).logs.getLastD (withApproach t ps s).params)
    ((withApproach t ps s).mats.getLastD (withApproach t ps s).first) (withApproach t ps s) = (u', r') := e2
  rw [e2']
  cases h2 with
  | error e => exact ⟨h1, .error e⟩
  | @ok x y hr =>
    subst hr h1
    obtain ⟨q, m⟩ := x
    simp only
    cases hl : u.logging
    · refine ⟨?_, .ok rfl⟩
      simp [withApproach, hl]
    · refine ⟨?_, .ok rfl⟩
      simp [withApproach, hl]

theorem gen_blind (n : ℤ) (fin : Bool) : Blind Eq t ps (genIterations n fin) (genIterations n fin) := fun s =>
  add_blind n fin s.reset

theorem fastLoop_blind (step : ℤ) : ∀ k, Blind Eq t ps (fastLoop step k) (fastLoop step k)
  | 0 => Blind.pure rfl
  | k + 1 => by
    rw [fastLoop]
    refine Blind.get.bind fun s0 t0 h0 => (add_blind 1 false).bind fun _ _ _ => ?_
    refine Blind.get.bind fun s1 t1 h1 => (add_blind 1 false).bind fun _ _ _ => ?_
    refine Blind.get.bind fun s2 t2 h2 => (add_blind 1 false).bind fun _ _ _ => ?_
    refine Blind.get.bind fun s3 t3 h3 => (add_blind 1 false).bind fun _ _ _ => ?_
    refine Blind.get.bind fun s4 t4 h4 => (add_blind 1 false).bind fun _ _ _ => ?_
    refine Blind.get.bind fun s5 t5 h5 => ?_
    subst h0 h1 h2 h3 h4 h5
    have e : ∀ s, getPQ (withApproach t ps s) = getPQ s := fun _ => rfl
    simp only [e]
    split
    · exact Blind.pure rfl
    · exact (add_blind _ false).bind fun _ _ _ => fastLoop_blind step k

theorem fast_blind (iters cutoff step : ℤ) : Blind Eq t ps (isConvergenceFast iters cutoff step) (isConvergenceFast iters cutoff step) := by
  rw [isConvergenceFast]
  refine (gen_blind _ _).bind fun _ _ _ => Blind.bind (R := Eq) ?_ fun x y h => (gen_blind 0 true).bind fun _ _ _ => Blind.pure h
  rw [fastFor]
  split
  · exact Blind.raise _
  · exact fastLoop_blind _ _

theorem six_blind : Blind Eq t ps sixResults sixResults := by
  rw [sixResults]
  have e : ∀ s, getResult (withApproach t ps s) = getResult s := fun _ => rfl
  refine Blind.get.bind fun s0 t0 h0 => (add_blind _ _).bind fun _ _ _ => ?_
  refine Blind.get.bind fun s1 t1 h1 => (add_blind _ _).bind fun _ _ _ => ?_
  refine Blind.get.bind fun s2 t2 h2 => (add_blind _ _).bind fun _ _ _ => ?_
  refine Blind.get.bind fun s3 t3 h3 => (add_blind _ _).bind fun _ _ _ => ?_
  refine Blind.get.bind fun s4 t4 h4 => (add_blind _ _).bind fun _ _ _ => ?_
  refine Blind.get.bind fun s5 t5 h5 => ?_
  subst h0 h1 h2 h3 h4 h5
  exact Blind.pure rfl

theorem sampleLoop_blind (step : ℤ) : ∀ k i, Blind Eq t ps (sampleLoop step k i) (sampleLoop step k i)
  | 0, _ => Blind.pure rfl
  | k + 1, i => by
    rw [sampleLoop]
    exact (add_blind _ _).bind fun _ _ _ => six_blind.bind fun x y h => (sampleLoop_blind step k _).bind fun u v h' =>
      Blind.pure (by rw [h, h'])

theorem samples_blind (iters cutoff step : ℤ) : Blind Eq t ps (estimateSamples iters cutoff step) (estimateSamples iters cutoff step) := by
  rw [estimateSamples]
  refine (gen_blind _ _).bind fun _ _ _ => six_blind.bind fun x y h => Blind.bind (R := Eq) ?_ fun u v h' => Blind.pure (by rw [h, h'])
  rw [sampleFor]
  split
  · exact Blind.raise _
  · exact sampleLoop_blind _ _ _

theorem inner_blind (A : Analysis) (iters cutoff step : ℤ) :
    Blind Eq t ps (innerAlg A iters cutoff step) (innerAlg A iters cutoff step) := by
  rw [innerAlg]
  refine (samples_blind _ _ _).bind fun x y h => ?_
  subst h
  exact fun s => ⟨rfl, RelE.refl _⟩

end Blind

theorem reinit_eq {a₀ b₀ a b : Coeffs} {z l : Bool} {s₀ s₁ : CF}
    (hinit : init a₀ b₀ z none l = .ok s₀) (hinit₁ : init a b z none l = .ok s₁) (ops : List CFOp) :
    ∃ lg ms n, reinitialize (some a) (some b) none (runOps ops s₀) =
      (withApproach .undefined none { s₁ with logs := lg, mats := ms, executed := n }, .ok ()) := by
  have hg := reachable_good hinit ops
  obtain ⟨hw, rfl⟩ := init_fresh hinit₁
  generalize runOps ops s₀ = s at hg
  have hka : keepOr (some a) s.params.a = a := by
    obtain ⟨x, xs, ys, rfl⟩ := hw.a_head; rfl
  have hkb : keepOr (some b) s.params.b = b := by
    have := hw.hb
    cases b with
    | nil => exact absurd rfl this
    | cons _ _ => rfl
  refine ⟨s.logs, s.mats, s.executed, ?_⟩
  rw [reinitialize]
  simp only
  rw [if_pos (by simp [hg.auto]), hka, hkb, autogen_wf hw]
  simp [withApproach, fresh, hg.res, hg.auto, hg.avoid, hg.logging]

/-- **C102 (partial).** After any history of calls, `reinitialize(a, b)` returns, and then `gen_iterations`, `is_convergence_fast` and
`estimate_approach_type_and_params` behave as for a new object `ContFrac(a, b)`: the same results, exceptions, number of
iterations, convergents and approach.
Missing with respect to C102: what the object shows before one of these calls (`C102_stale_violated`), a single polynomial as
a flat list (`C102_flat_violated`). -/
theorem C102_reinitialize_partial {a₀ b₀ a b : Coeffs} {z l : Bool} {s₀ s₁ : CF}
    (hinit : init a₀ b₀ z none l = .ok s₀) (hinit₁ : init a b z none l = .ok s₁) (ops : List CFOp) :
    ∃ s, reinitialize (some a) (some b) none (runOps ops s₀) = (s, .ok ()) ∧
      (∀ n fin, (genIterations n fin s).2 = (genIterations n fin s₁).2 ∧
        getResult (genIterations n fin s).1 = getResult (genIterations n fin s₁).1 ∧
        getPQ (genIterations n fin s).1 = getPQ (genIterations n fin s₁).1 ∧
        getNumOfExecutedIters (genIterations n fin s).1 = getNumOfExecutedIters (genIterations n fin s₁).1) ∧
      (∀ iters cutoff step, (isConvergenceFast iters cutoff step s).2 = (isConvergenceFast iters cutoff step s₁).2) ∧
      ∀ A iters cutoff step, (estimateApproachObj A iters cutoff step s).2 = (estimateApproachObj A iters cutoff step s₁).2 ∧
        ((estimateApproachObj A iters cutoff step s₁).2 = .ok () →
          (estimateApproachObj A iters cutoff step s).1.approachType = (estimateApproachObj A iters cutoff step s₁).1.approachType ∧
          (estimateApproachObj A iters cutoff step s).1.approachParams = (estimateApproachObj A iters cutoff step s₁).1.approachParams) := by
  obtain ⟨lg, ms, n0, e⟩ := reinit_eq hinit hinit₁ ops
  refine ⟨_, e, fun n fin => ?_, fun iters cutoff step => ?_, fun A iters cutoff step => ?_⟩
  · obtain ⟨h1, h2⟩ := gen_blind (t := .undefined) (ps := none) n fin { s₁ with logs := lg, mats := ms, executed := n0 }
    have e : genIterations n fin { s₁ with logs := lg, mats := ms, executed := n0 } = genIterations n fin s₁ := rfl
    rw [e] at h1 h2
    rw [h1, h2.eq]
    exact ⟨rfl, rfl, rfl, rfl⟩
  · obtain ⟨-, h2⟩ := fast_blind (t := .undefined) (ps := none) iters cutoff step { s₁ with logs := lg, mats := ms, executed := n0 }
    rw [h2.eq]
    rfl
  · have hin : innerOf A (withApproach .undefined none { s₁ with logs := lg, mats := ms, executed := n0 }) = innerOf A s₁ := by
      funext k args
      obtain ⟨-, h2⟩ := inner_blind (t := .undefined) (ps := none) A args.1 args.2.1 args.2.2 { s₁ with logs := lg, mats := ms, executed := n0 }
      rw [innerOf, innerOf, h2.eq]
      rfl
    have h1 := estimateApproachObj_spec A iters cutoff step (withApproach .undefined none { s₁ with logs := lg, mats := ms, executed := n0 })
    have h2 := estimateApproachObj_spec A iters cutoff step s₁
    rw [hin] at h1
    revert h1
    generalize withApproach .undefined none { s₁ with logs := lg, mats := ms, executed := n0 } = s2
    intro h1
    rcases hE : estimateApproach (innerOf A s₁) iters cutoff step with err | ⟨ans, k⟩ <;> rw [hE] at h1 h2
    · obtain ⟨_, _, _, h1⟩ := h1
      obtain ⟨_, _, _, h2⟩ := h2
      rw [h1, h2]
      exact ⟨rfl, nofun⟩
    · obtain ⟨_, _, _, h1⟩ := h1
      obtain ⟨_, _, _, h2⟩ := h2
      rw [h1, h2]
      exact ⟨rfl, fun _ => ⟨rfl, rfl⟩⟩

example : ∃ s₀ s₁, init [[1]] [[1]] true none false = .ok s₀ ∧ init [[3], [1, 2]] [[-2]] true none false = .ok s₁ := ⟨_, _, rfl, rfl⟩

/-- **C10 (violated).** What `get_approach_type_and_params()` returns tells the two objects apart, for all coefficients and
histories: `'undefined'` after `reinitialize`, `None` for a fresh object. -/
theorem C10_approach_violated {a₀ b₀ a b : Coeffs} {z l : Bool} {s₀ s₁ : CF}
    (hinit : init a₀ b₀ z none l = .ok s₀) (hinit₁ : init a b z none l = .ok s₁) (ops : List CFOp) (n : ℤ) (fin : Bool) :
    ((do reinitialize (some a) (some b); genIterations n fin : PyM CF Unit) (runOps ops s₀)).1.approachType = .undefined ∧
    (genIterations n fin s₁).1.approachType = .none := by
  refine ⟨by rw [C10_history_independence_partial hinit hinit₁ ops n fin], ?_⟩
  obtain ⟨hw, rfl⟩ := init_fresh hinit₁
  obtain ⟨lg, ms, k, h⟩ := frame_gen n fin (fresh a b z l)
  rw [h]
  rfl

/-- **C102 (violated).** After `ContFrac([[1]], [[1]])`, `gen_iterations(5)` and `reinitialize([[3]], [[1]])` the object still shows the
result of the old fraction, and `add_iterations(2)` continues with the old polynomials: it ends with 34/21, the seventh
convergent of the golden ratio. -/
theorem C102_stale_violated : ∃ s₀ s₁ s₂ s₃, init [[1]] [[1]] true none false = .ok s₀ ∧ genIterations 5 true s₀ = (s₁, .ok ()) ∧
    reinitialize (some [[3]]) (some [[1]]) none s₁ = (s₂, .ok ()) ∧ addIterations 2 true s₂ = (s₃, .ok ()) ∧
    getResult s₂ = .fin (13 / 8) ∧ getResult s₃ = .fin (34 / 21) ∧
    ∀ s, genIterations 7 true s₀ = (s, .ok ()) → getResult s = .fin (34 / 21) :=
  ⟨_, _, _, _, rfl, rfl, rfl, rfl, by decide +kernel, by decide +kernel, fun s h => by cases h; decide +kernel⟩

/-- **C102 (violated).** The constructor takes a single polynomial as a flat list, `reinitialize` raises TypeError for it. -/
theorem C102_flat_violated (x : ℤ) (xs : List ℤ) (b : Coeffs) (hb : b ≠ []) (z l : Bool) :
    ∃ s, init (CoeffArg.flat (x :: xs)).wrap b z none l = .ok s ∧ s.params.a = [x :: xs] ∧
      (reinitializeArg (.flat (x :: xs)) (some b) s).2 = .error .typeError :=
  ⟨_, by rw [init, if_neg (by simp [CoeffArg.wrap, hb])]; rfl, rfl, rfl⟩

/-! ### C103: comparing the result -/

/-- **C103 (partial).** After any history of calls followed by `gen_iterations(n)`, if the n-th convergent exists, `compare_result`
returns its difference to the given target value, to that of the object if none is given, or the absolute value of it; with no
target at all it raises ValueError.
Missing with respect to C103: objects without a generated result (`C103_fresh_violated`). -/
theorem C103_compare_partial {a₀ b₀ : Coeffs} {z l : Bool} {s₀ : CF} (hinit : init a₀ b₀ z none l = .ok s₀)
    (ops : List CFOp) (n : ℕ) (v : ℚ)
    (hv : nested (ratSeq (runOps ops s₀).params.a) (ratSeq (runOps ops s₀).params.b) 0 n = some v)
    (hz : z = true → ∀ j, 1 ≤ j → j ≤ n → seqAt (runOps ops s₀).params.b j ≠ 0) (hl : l = true → 0 < n) :
    ∃ s', genIterations (n : ℤ) true (runOps ops s₀) = (s', .ok ()) ∧
      (∀ own t, compareResultArgs own (some (.fin t)) true s' = .ok (.fin |v - t|) ∧
        compareResultArgs own (some (.fin t)) false s' = .ok (.fin (v - t))) ∧
      (∀ t, compareResultArgs (some (.fin t)) none true s' = .ok (.fin |v - t|) ∧
        compareResultArgs (some (.fin t)) none false s' = .ok (.fin (v - t))) ∧
      ∀ c, compareResultArgs none none c s' = .error .valueError := by
  obtain ⟨s', e, h, -⟩ := C08_convergent_value hinit ops n v hv hz hl
  refine ⟨s', e, fun own t => ?_, fun t => ?_, fun c => rfl⟩
  · constructor <;> simp [compareResultArgs, h, subNum, absNum]
  · constructor <;> simp [compareResultArgs, h, subNum, absNum]

-- 1 + 1/(1 + 1/(1 + 1/1)) = 5/3
example : ∃ s₀, init [[1]] [[1]] true none false = .ok s₀ ∧ nested (ratSeq (runOps [] s₀).params.a) (ratSeq (runOps [] s₀).params.b) 0 3 = some (5 / 3) ∧
    ∀ j, 1 ≤ j → j ≤ 3 → seqAt (runOps [] s₀).params.b j ≠ 0 :=
  ⟨_, rfl, by decide +kernel, fun j _ _ => by simp [runOps, seqAt_const]⟩

theorem addLoop_plain : ∀ (k i : ℕ) (ps : Params) (m : Mat) (s : CF), s.logging = false →
    (∃ e, addLoop k i ps m s = (s, .error e)) ∨ ∃ m', addLoop k i ps m s = (s, .ok (ps, m'))
  | 0, _, _, m, _, _ => .inr ⟨m, rfl⟩
  | k + 1, i, ps, m, s, hl => by
    rw [addLoop]
    rcases h : iterationAlgorithm s.avoidZeroB s.logging ps m (i + s.executed) with e | ⟨ps', m'⟩
    · exact .inl ⟨e, rfl⟩
    · have : ps' = ps := by
        rw [hl, iterationAlgorithm] at h
        simp only at h
        split at h
        · cases h
        · cases h; rfl
      subst this
      simp only
      rw [if_neg (by rw [hl]; decide)]
      exact addLoop_plain k (i + 1) ps' m' s hl

/-- **C103 (violated).** On a new object, and after `gen_iterations` without finalizing, `compare_result` does not raise: it compares
the target with the number 1, whatever the continued fraction. -/
theorem C103_fresh_violated {a b : Coeffs} {z : Bool} {s₀ : CF} (hinit : init a b z none false = .ok s₀) (own : Option Num) (t : ℚ) :
    compareResultArgs own (some (.fin t)) true s₀ = .ok (.fin |1 - t|) ∧
    ∀ n s', genIterations n false s₀ = (s', .ok ()) → compareResultArgs own (some (.fin t)) true s' = .ok (.fin |1 - t|) := by
  obtain ⟨hw, rfl⟩ := init_fresh hinit
  refine ⟨by simp [compareResultArgs, getResult, fresh, subNum, absNum], fun n s' h => ?_⟩
  have hres : getResult s' = .fin 1 := by
    rw [genIterations, addIterations] at h
    simp only at h
    rcases addLoop_plain n.toNat 0 ([(fresh a b z false).params].getLastD (fresh a b z false).params)
      ([(fresh a b z false).first].getLastD (fresh a b z false).first)
      { fresh a b z false with logs := [(fresh a b z false).params], mats := [(fresh a b z false).first], executed := 0 } rfl with ⟨e, h'⟩ | ⟨m', h'⟩
    · rw [h'] at h; simp at h
    · rw [h'] at h
      have := (congrArg Prod.fst h).symm
      simp only at this
      rw [this]
      rfl
  simp [compareResultArgs, hres, subNum, absNum]

example : ∃ s₀, init [[3], [1, 2]] [[-2]] true none false = .ok s₀ ∧ (genIterations 4 false s₀).2 = .ok () := ⟨_, rfl, rfl⟩

end PiCF.ContFrac
