import Mathlib.Tactic.Ring
import Mathlib.Tactic.Linarith
import Mathlib.Data.List.Forall2
import Verif.Model.Estimator
import Verif.Props.Utils

/-!
# C92: a continued fraction and the one with all `a` negated
-/

namespace PiCF.ContFrac

/-- `-x` for results; NaN stays NaN. -/
def negRes : Num → Num
  | .fin q => .fin (-q)
  | .inf => .inf
  | .nan => .nan

/-- The polynomials with all coefficients negated. -/
def mirrorCoeffs (a : Coeffs) : Coeffs := a.map fun p => p.map fun k => -k

theorem mirrorCoeffs_eq_nil (a : Coeffs) : mirrorCoeffs a = [] ↔ a = [] := by simp [mirrorCoeffs]

theorem subsInPolynom_neg {R : Type*} [CommRing R] (p : List R) (x : R) :
    Utils.subsInPolynom (p.map fun k => -k) x = -Utils.subsInPolynom p x := by
  induction p with
  | nil => simp
  | cons c p ih => rw [List.map_cons, Utils.subsInPolynom_cons, Utils.subsInPolynom_cons, ih]; ring

theorem coeffAt_neg (a : Coeffs) (i : ℤ) : coeffAt (mirrorCoeffs a) i = (coeffAt a i).map fun x => -x := by
  rw [coeffAt, coeffAt]
  by_cases h : a = []
  · rw [if_pos h, if_pos ((mirrorCoeffs_eq_nil a).2 h)]; rfl
  · rw [if_neg h, if_neg (mt (mirrorCoeffs_eq_nil a).1 h)]
    have hl : (mirrorCoeffs a).length = a.length := by simp [mirrorCoeffs]
    have hg : ∀ n, (mirrorCoeffs a).getD n [] = (a.getD n []).map fun k => -k := by
      intro n
      rw [mirrorCoeffs, List.getD_eq_getElem?_getD, List.getD_eq_getElem?_getD, List.getElem?_map]
      cases a[n]? <;> rfl
    rw [hl, hg, subsInPolynom_neg]
    rfl

/-- The mirrored parameters. -/
structure MirrorP (ps ps' : Params) : Prop where
  a : ps'.a = mirrorCoeffs ps.a
  b : ps'.b = ps.b
  res : ps'.res = negRes ps.res ∨ ps.res = .fin 1 ∧ ps'.res = .fin 1

/-- The mirrored matrix: `p` and the previous `q` are multiplied by a sign, the previous `p` and `q` by the other one. -/
def MirrorM (m m' : Mat) : Prop := ∃ e : ℤ, (e = 1 ∨ e = -1) ∧ m' = ((e * m.1.1, -e * m.1.2), (-e * m.2.1, e * m.2.2))

/-- The mirrored object. -/
structure Mirror (s s' : CF) : Prop where
  params : MirrorP s.params s'.params
  first : MirrorM s.first s'.first
  autoFirst : s'.autoFirst = s.autoFirst
  avoidZeroB : s'.avoidZeroB = s.avoidZeroB
  logging : s'.logging = s.logging
  approachType : s'.approachType = s.approachType
  approachParams : s'.approachParams = s.approachParams
  logs : List.Forall₂ MirrorP s.logs s'.logs
  mats : List.Forall₂ MirrorM s.mats s'.mats
  executed : s'.executed = s.executed

/-- The same exception, or results in relation `R`. -/
inductive RelE {α : Type} (R : α → α → Prop) : Except PyErr α → Except PyErr α → Prop
  | error (e : PyErr) : RelE R (.error e) (.error e)
  | ok {x y : α} : R x y → RelE R (.ok x) (.ok y)

theorem RelE.eq {α : Type} {x y : Except PyErr α} (h : RelE Eq x y) : y = x := by
  cases h with
  | error => rfl
  | ok h => rw [h]

/-- From mirrored objects, `m` leads to mirrored objects and results in relation `R`. -/
def Sim {α : Type} (R : α → α → Prop) (m m' : PyM CF α) : Prop :=
  ∀ s s', Mirror s s' → Mirror (m s).1 (m' s').1 ∧ RelE R (m s).2 (m' s').2

theorem Sim.bind {α β : Type} {R : α → α → Prop} {Q : β → β → Prop} {m m' : PyM CF α} {f f' : α → PyM CF β}
    (hm : Sim R m m') (hf : ∀ x y, R x y → Sim Q (f x) (f' y)) : Sim Q (m >>= f) (m' >>= f') := by
  intro s s' h
  obtain ⟨h1, h2⟩ := hm s s' h
  rcases e : m s with ⟨t, r⟩
  rcases e' : m' s' with ⟨t', r'⟩
  rw [e, e'] at h1 h2
  cases h2 with
  | error err => rw [PyM.bind_error e, PyM.bind_error e']; exact ⟨h1, .error err⟩
  | ok hr => rw [PyM.bind_ok e, PyM.bind_ok e']; exact hf _ _ hr t t' h1

theorem Sim.pure {α : Type} {R : α → α → Prop} {x y : α} (h : R x y) : Sim R (Pure.pure x) (Pure.pure y) :=
  fun _ _ hs => ⟨hs, .ok h⟩

theorem Sim.get : Sim Mirror (PyM.get : PyM CF CF) PyM.get := fun _ _ h => ⟨h, .ok h⟩

theorem Sim.raise {α : Type} {R : α → α → Prop} (e : PyErr) : Sim R (PyM.raise e) (PyM.raise e) := fun _ _ h => ⟨h, .error e⟩

theorem quotient_mirror (e p q : ℤ) (he : e = 1 ∨ e = -1) : quotient (e * p) (-e * q) = negRes (quotient p q) := by
  rw [quotient, quotient]
  by_cases hq : q = 0
  · rw [if_pos hq, if_pos (by rw [hq]; ring)]; rfl
  · rw [if_neg hq, if_neg (by rcases he with rfl | rfl <;> simpa using hq)]
    rw [negRes]
    congr 1
    rcases he with rfl | rfl <;> push_cast
    · rw [one_mul, neg_mul, one_mul, div_neg]
    · rw [one_mul, neg_mul, one_mul, neg_div]

theorem promo_mirror (z : Bool) (i : ℤ) (a b : Coeffs) :
    promoMatGen z i (mirrorCoeffs a) b = (promoMatGen z i a b).map fun x => (-x.1, x.2) := by
  rw [promoMatGen, promoMatGen, coeffAt_neg]
  cases coeffAt a i with
  | error => rfl
  | ok x =>
    cases coeffAt b i with
    | error => rfl
    | ok y =>
      simp only [Except.map]
      split <;> rfl

theorem iteration_mirror (z l : Bool) {ps ps' : Params} {m m' : Mat} (hp : MirrorP ps ps') (hm : MirrorM m m') (i : ℤ) :
    RelE (fun x y => MirrorP x.1 y.1 ∧ MirrorM x.2 y.2) (iterationAlgorithm z l ps m i) (iterationAlgorithm z l ps' m' i) := by
  obtain ⟨e, he, rfl⟩ := hm
  rw [iterationAlgorithm, iterationAlgorithm, hp.a, hp.b]
  simp only [promo_mirror]
  cases promoMatGen z (i + 1) ps.a ps.b with
  | error err => exact .error err
  | ok x =>
    obtain ⟨ai, bi⟩ := x
    have e1 : e * m.1.1 * -ai + -e * m.1.2 * bi = -e * (m.1.1 * ai + m.1.2 * bi) := by ring
    have e2 : -e * m.2.1 * -ai + e * m.2.2 * bi = - -e * (m.2.1 * ai + m.2.2 * bi) := by ring
    have hn : -e = 1 ∨ -e = -1 := by rcases he with rfl | rfl <;> simp
    simp only [Except.map]
    refine .ok ⟨?_, -e, hn, ?_⟩
    · split
      · refine ⟨rfl, rfl, .inl ?_⟩
        show quotient _ _ = _
        rw [e1, e2]
        exact quotient_mirror _ _ _ hn
      · exact hp
    · simp only
      rw [e1, e2, neg_neg]

theorem forall₂_getLastD {α : Type} {R : α → α → Prop} {l l' : List α} (h : List.Forall₂ R l l') {d d' : α} (hd : R d d') :
    R (l.getLastD d) (l'.getLastD d') := by
  induction h generalizing d d' with
  | nil => exact hd
  | cons h1 h2 ih =>
    rw [List.getLastD_cons, List.getLastD_cons]
    exact ih h1

theorem addLoop_sim : ∀ (k i : ℕ) (ps ps' : Params) (m m' : Mat), MirrorP ps ps' → MirrorM m m' →
    Sim (fun x y => MirrorP x.1 y.1 ∧ MirrorM x.2 y.2) (addLoop k i ps m) (addLoop k i ps' m')
  | 0, _, _, _, _, _, hp, hm => fun _ _ h => ⟨h, .ok ⟨hp, hm⟩⟩
  | k + 1, i, ps, ps', m, m', hp, hm => by
    intro s s' h
    have e : iterationAlgorithm s'.avoidZeroB s'.logging ps' m' (i + s'.executed) =
        iterationAlgorithm s.avoidZeroB s.logging ps' m' (i + s.executed) := by rw [h.avoidZeroB, h.logging, h.executed]
    rw [addLoop, addLoop, e]
    have := iteration_mirror s.avoidZeroB s.logging hp hm (i + s.executed)
    generalize iterationAlgorithm s.avoidZeroB s.logging ps m (i + s.executed) = r1 at this
    generalize iterationAlgorithm s.avoidZeroB s.logging ps' m' (i + s.executed) = r2 at this
    cases this with
    | error err => exact ⟨h, .error err⟩
    | @ok x y hr =>
      refine addLoop_sim k (i + 1) x.1 y.1 x.2 y.2 hr.1 hr.2 _ _ ?_
      by_cases hl : s.logging = true
      · rw [if_pos hl, if_pos (h.logging.trans hl)]
        exact { h with
          logs := List.rel_append h.logs (.cons hr.1 .nil)
          mats := List.rel_append h.mats (.cons hr.2 .nil) }
      · rw [if_neg hl, if_neg (by rw [h.logging]; exact hl)]
        exact h

theorem finalize_mirror {ps ps' : Params} {m m' : Mat} (hp : MirrorP ps ps') (hm : MirrorM m m') :
    MirrorP (finalizeIterations ps m) (finalizeIterations ps' m') := by
  obtain ⟨e, he, rfl⟩ := hm
  exact ⟨hp.a, hp.b, .inl (quotient_mirror _ _ _ he)⟩

theorem add_sim (n : ℤ) (fin : Bool) : Sim Eq (addIterations n fin) (addIterations n fin) := by
  intro s s' h
  rw [addIterations, addIterations]
  have := addLoop_sim n.toNat 0 _ _ _ _ (forall₂_getLastD h.logs h.params) (forall₂_getLastD h.mats h.first) s s' h
  rcases h1 : addLoop n.toNat 0 (s.logs.getLastD s.params) (s.mats.getLastD s.first) s with ⟨t, r⟩
  rcases h2 : addLoop n.toNat 0 (s'.logs.getLastD s'.params) (s'.mats.getLastD s'.first) s' with ⟨t', r'⟩
  rw [h1, h2] at this
  obtain ⟨ht, hr⟩ := this
  cases hr with
  | error e => exact ⟨ht, .error e⟩
  | @ok x y hr =>
    refine ⟨?_, .ok rfl⟩
    have hps : MirrorP (if fin = true then finalizeIterations x.1 x.2 else x.1) (if fin = true then finalizeIterations y.1 y.2 else y.1) := by
      split
      · exact finalize_mirror hr.1 hr.2
      · exact hr.1
    have ht : Mirror t t' := ht
    simp only
    revert hps
    generalize (if fin = true then finalizeIterations x.1 x.2 else x.1) = X
    generalize (if fin = true then finalizeIterations y.1 y.2 else y.1) = Y
    intro hps
    by_cases hl : t.logging = true
    · rw [if_pos hl, if_pos (ht.logging.trans hl)]
      exact { ht with executed := by simp [ht.executed] }
    · rw [if_neg hl, if_neg (by rw [ht.logging]; exact hl)]
      exact { ht with logs := .cons hps .nil, mats := .cons hr.2 .nil, executed := by simp [ht.executed] }

theorem gen_sim (n : ℤ) (fin : Bool) : Sim Eq (genIterations n fin) (genIterations n fin) := by
  intro s s' h
  rw [genIterations, genIterations]
  exact add_sim n fin _ _ { h with logs := .cons h.params .nil, mats := .cons h.first .nil, executed := rfl }

theorem getResult_mirror {s s' : CF} (h : Mirror s s') :
    getResult s' = negRes (getResult s) ∨ getResult s = .fin 1 ∧ getResult s' = .fin 1 :=
  (forall₂_getLastD h.logs h.params).res

/-- The pair returned by `get_p_q` has one sign changed. -/
def MirrorPQ (x x' : ℤ × ℤ) : Prop := ∃ e : ℤ, (e = 1 ∨ e = -1) ∧ x' = (-e * x.1, e * x.2)

theorem getPQ_mirror {s s' : CF} (h : Mirror s s') : MirrorPQ (getPQ s) (getPQ s') := by
  obtain ⟨e, he, hm⟩ := forall₂_getLastD h.mats h.first
  exact ⟨e, he, by rw [getPQ, hm]; rfl⟩

theorem slowTest_mirror {x0 x2 x4 y0 y2 y4 : ℤ × ℤ} (h0 : MirrorPQ x0 y0) (h2 : MirrorPQ x2 y2) (h4 : MirrorPQ x4 y4) :
    slowTest y0 y2 y4 = slowTest x0 x2 x4 := by
  obtain ⟨e0, h0, rfl⟩ := h0
  obtain ⟨e2, h2, rfl⟩ := h2
  obtain ⟨e4, h4, rfl⟩ := h4
  have a0 : |e0| = 1 := by rcases h0 with rfl | rfl <;> rfl
  have a2 : |e2| = 1 := by rcases h2 with rfl | rfl <;> rfl
  have a4 : |e4| = 1 := by rcases h4 with rfl | rfl <;> rfl
  have i1 : |e4 * x4.2 * (-e2 * x2.1 * (e0 * x0.2) - -e0 * x0.1 * (e2 * x2.2))| = |x4.2 * (x2.1 * x0.2 - x0.1 * x2.2)| := by
    rw [show e4 * x4.2 * (-e2 * x2.1 * (e0 * x0.2) - -e0 * x0.1 * (e2 * x2.2)) =
      -(e4 * (e2 * (e0 * (x4.2 * (x2.1 * x0.2 - x0.1 * x2.2))))) by ring, abs_neg, abs_mul, abs_mul, abs_mul e0, a0, a2, a4]
    simp
  have i2 : |e0 * x0.2 * (-e4 * x4.1 * (e2 * x2.2) - -e2 * x2.1 * (e4 * x4.2))| = |x0.2 * (x4.1 * x2.2 - x2.1 * x4.2)| := by
    rw [show e0 * x0.2 * (-e4 * x4.1 * (e2 * x2.2) - -e2 * x2.1 * (e4 * x4.2)) =
      -(e4 * (e2 * (e0 * (x0.2 * (x4.1 * x2.2 - x2.1 * x4.2))))) by ring, abs_neg, abs_mul, abs_mul, abs_mul e0, a0, a2, a4]
    simp
  rw [slowTest, slowTest]
  simp only
  rw [i1, i2]

theorem fastLoop_sim (step : ℤ) : ∀ k, Sim Eq (fastLoop step k) (fastLoop step k)
  | 0 => Sim.pure rfl
  | k + 1 => by
    rw [fastLoop]
    refine Sim.get.bind fun s0 t0 h0 => (add_sim 1 false).bind fun _ _ _ => ?_
    refine Sim.get.bind fun s1 t1 h1 => (add_sim 1 false).bind fun _ _ _ => ?_
    refine Sim.get.bind fun s2 t2 h2 => (add_sim 1 false).bind fun _ _ _ => ?_
    refine Sim.get.bind fun s3 t3 h3 => (add_sim 1 false).bind fun _ _ _ => ?_
    refine Sim.get.bind fun s4 t4 h4 => (add_sim 1 false).bind fun _ _ _ => ?_
    refine Sim.get.bind fun s5 t5 h5 => ?_
    simp only
    rw [slowTest_mirror (getPQ_mirror h0) (getPQ_mirror h2) (getPQ_mirror h4),
      slowTest_mirror (getPQ_mirror h1) (getPQ_mirror h3) (getPQ_mirror h5)]
    split
    · exact Sim.pure rfl
    · exact (add_sim _ false).bind fun _ _ _ => fastLoop_sim step k

theorem fast_sim (iters cutoff step : ℤ) : Sim Eq (isConvergenceFast iters cutoff step) (isConvergenceFast iters cutoff step) := by
  rw [isConvergenceFast]
  refine (gen_sim _ _).bind fun _ _ _ => Sim.bind (R := Eq) ?_ fun x y h => (gen_sim 0 true).bind fun _ _ _ => Sim.pure h
  rw [fastFor]
  split
  · exact Sim.raise _
  · exact fastLoop_sim _ _

/-! ### Results and estimates, without logging -/

/-- Mirrored objects without logging whose current results are negatives of each other. -/
structure Strict (s s' : CF) : Prop where
  mirror : Mirror s s'
  logging : s.logging = false
  res : getResult s' = negRes (getResult s)

/-- From objects in relation `P`, `m` leads to mirrored objects and results in relation `R`, with negated current results unless it
raises. -/
def SimS {α : Type} (P : CF → CF → Prop) (R : α → α → Prop) (m m' : PyM CF α) : Prop :=
  ∀ s s', P s s' → Mirror (m s).1 (m' s').1 ∧ RelE R (m s).2 (m' s').2 ∧ (∀ x, (m s).2 = .ok x → Strict (m s).1 (m' s').1)

theorem SimS.bind {α β : Type} {P : CF → CF → Prop} {R : α → α → Prop} {Q : β → β → Prop} {m m' : PyM CF α} {f f' : α → PyM CF β}
    (hm : SimS P R m m') (hf : ∀ x y, R x y → SimS Strict Q (f x) (f' y)) : SimS P Q (m >>= f) (m' >>= f') := by
  intro s s' h
  obtain ⟨h1, h2, h3⟩ := hm s s' h
  rcases e : m s with ⟨t, r⟩
  rcases e' : m' s' with ⟨t', r'⟩
  rw [e, e'] at h1 h2 h3
  cases h2 with
  | error err => rw [PyM.bind_error e, PyM.bind_error e']; exact ⟨h1, .error err, nofun⟩
  | ok hr => rw [PyM.bind_ok e, PyM.bind_ok e']; exact hf _ _ hr t t' (h3 _ rfl)

theorem SimS.pure {α : Type} {R : α → α → Prop} {x y : α} (h : R x y) : SimS Strict R (Pure.pure x) (Pure.pure y) :=
  fun _ _ hs => ⟨hs.mirror, .ok h, fun _ _ => hs⟩

theorem SimS.get : SimS Strict (fun x y => getResult y = negRes (getResult x)) (PyM.get : PyM CF CF) PyM.get :=
  fun _ _ h => ⟨h.mirror, .ok h.res, fun _ _ => h⟩

theorem SimS.raise {α : Type} {R : α → α → Prop} (e : PyErr) : SimS Strict R (PyM.raise e) (PyM.raise e) :=
  fun _ _ h => ⟨h.mirror, .error e, nofun⟩

theorem addLoop_logging : ∀ (k i : ℕ) (ps : Params) (m : Mat) (s : CF), (addLoop k i ps m s).1.logging = s.logging
  | 0, _, _, _, _ => rfl
  | k + 1, i, ps, m, s => by
    rw [addLoop]
    split
    · rfl
    · rw [addLoop_logging]
      split <;> rfl

theorem add_simS (n : ℤ) : SimS (fun s s' => Mirror s s' ∧ s.logging = false) Eq (addIterations n true) (addIterations n true) := by
  rintro s s' ⟨h, hlog⟩
  obtain ⟨h1, h2⟩ := add_sim n true s s' h
  refine ⟨h1, h2, fun x hx => ⟨h1, ?_, ?_⟩⟩
  · rw [addIterations]
    have := addLoop_logging n.toNat 0 (s.logs.getLastD s.params) (s.mats.getLastD s.first) s
    split
    · rename_i e; rw [e] at this; rw [← hlog]; exact this
    · rename_i e
      rw [e] at this
      simp only
      split
      · rw [← hlog]; exact this
      · rw [← hlog]; exact this
  · have hl := addLoop_logging n.toNat 0 (s.logs.getLastD s.params) (s.mats.getLastD s.first) s
    have hl' := addLoop_logging n.toNat 0 (s'.logs.getLastD s'.params) (s'.mats.getLastD s'.first) s'
    have hs := addLoop_sim n.toNat 0 _ _ _ _ (forall₂_getLastD h.logs h.params) (forall₂_getLastD h.mats h.first) s s' h
    rw [addIterations] at hx
    rw [addIterations, addIterations]
    rcases e1 : addLoop n.toNat 0 (s.logs.getLastD s.params) (s.mats.getLastD s.first) s with ⟨t, r⟩
    rcases e2 : addLoop n.toNat 0 (s'.logs.getLastD s'.params) (s'.mats.getLastD s'.first) s' with ⟨t', r'⟩
    rw [e1, e2] at hs
    rw [e1] at hx hl
    rw [e2] at hl'
    have hlt : t.logging = false := hl.trans hlog
    have hlt' : t'.logging = false := hl'.trans (h.logging.trans hlog)
    obtain ⟨ht, hr⟩ := hs
    cases hr with
    | error e => cases hx
    | @ok x y hr =>
      simp only
      rw [if_neg (c := t.logging = true) (by rw [hlt]; nofun), if_neg (c := t'.logging = true) (by rw [hlt']; nofun)]
      obtain ⟨e, he, hm⟩ := hr.2
      show quotient _ _ = negRes (quotient _ _)
      rw [hm]
      exact quotient_mirror _ _ _ he

theorem SimS.weaken {α : Type} {P P' : CF → CF → Prop} {R : α → α → Prop} {m m' : PyM CF α} (h : SimS P' R m m')
    (hP : ∀ s s', P s s' → P' s s') : SimS P R m m' := fun s s' hs => h s s' (hP s s' hs)

theorem add_strict (n : ℤ) : SimS Strict Eq (addIterations n true) (addIterations n true) :=
  (add_simS n).weaken fun _ _ h => ⟨h.mirror, h.logging⟩

theorem gen_simS (n : ℤ) : SimS (fun s s' => Mirror s s' ∧ s.logging = false) Eq (genIterations n true) (genIterations n true) := by
  rintro s s' ⟨h, hlog⟩
  rw [genIterations, genIterations]
  exact add_simS n _ _ ⟨{ h with logs := .cons h.params .nil, mats := .cons h.first .nil, executed := rfl }, hlog⟩

/-- Negated lists of results. -/
def NegList (l l' : List Num) : Prop := l' = l.map negRes

theorem six_simS : SimS Strict NegList sixResults sixResults := by
  rw [sixResults]
  refine SimS.get.bind fun s0 t0 h0 => (add_strict 1).bind fun _ _ _ => ?_
  refine SimS.get.bind fun s1 t1 h1 => (add_strict 1).bind fun _ _ _ => ?_
  refine SimS.get.bind fun s2 t2 h2 => (add_strict 1).bind fun _ _ _ => ?_
  refine SimS.get.bind fun s3 t3 h3 => (add_strict 1).bind fun _ _ _ => ?_
  refine SimS.get.bind fun s4 t4 h4 => (add_strict 1).bind fun _ _ _ => ?_
  refine SimS.get.bind fun s5 t5 h5 => SimS.pure ?_
  rw [NegList, h0, h1, h2, h3, h4, h5]
  rfl

/-- Samples with negated results. -/
def NegSamples (l l' : List (ℤ × List Num)) : Prop := l' = l.map fun s => (s.1, s.2.map negRes)

theorem sampleLoop_simS (step : ℤ) : ∀ k i, SimS Strict NegSamples (sampleLoop step k i) (sampleLoop step k i)
  | 0, _ => SimS.pure rfl
  | k + 1, i => by
    rw [sampleLoop]
    refine (add_strict _).bind fun _ _ _ => six_simS.bind fun x y hxy => (sampleLoop_simS step k _).bind fun l l' hl => SimS.pure ?_
    rw [NegSamples, hl, hxy]
    rfl

theorem samples_simS (iters cutoff step : ℤ) : SimS (fun s s' => Mirror s s' ∧ s.logging = false) NegSamples
    (estimateSamples iters cutoff step) (estimateSamples iters cutoff step) := by
  rw [estimateSamples]
  refine (gen_simS _).bind fun _ _ _ => six_simS.bind fun x y hxy => SimS.bind (R := NegSamples) ?_ fun l l' hl => SimS.pure ?_
  · rw [sampleFor]
    split
    · exact SimS.raise _
    · exact sampleLoop_simS _ _ _
  · rw [NegSamples, hl, hxy]
    rfl

theorem absDiff_neg (x y : Num) : absDiff (negRes x) (negRes y) = absDiff x y := by
  cases x <;> cases y <;> first | rfl | skip
  rename_i p q
  show some |-p - -q| = some |p - q|
  rw [show -p - -q = -(p - q) by ring, abs_neg]

theorem deltasOf_neg (s : ℤ × List Num) : deltasOf (s.1, s.2.map negRes) = deltasOf s := by
  have h : ∀ k, (s.2.map negRes).getD k .nan = negRes (s.2.getD k .nan) := by
    intro k
    rw [List.getD_eq_getElem?_getD, List.getD_eq_getElem?_getD, List.getElem?_map]
    cases s.2[k]? <;> rfl
  rw [deltasOf, deltasOf]
  simp only [h, absDiff_neg]

theorem deltas_neg {l l' : List (ℤ × List Num)} (h : NegSamples l l') : deltaPair l' = deltaPair l ∧ deltaOdd l' = deltaOdd l := by
  rw [NegSamples] at h
  subst h
  simp only [deltaPair, deltaOdd, List.flatMap_map, deltasOf_neg, and_self]

theorem inner_simS (A : Analysis) (iters cutoff step : ℤ) : SimS (fun s s' => Mirror s s' ∧ s.logging = false) Eq
    (innerAlg A iters cutoff step) (innerAlg A iters cutoff step) := by
  rw [innerAlg]
  refine (samples_simS _ _ _).bind fun x y h => ?_
  obtain ⟨h1, h2⟩ := deltas_neg h
  rw [h1, h2]
  intro s s' hs
  rw [liftE]
  refine ⟨hs.mirror, ?_, fun _ _ => hs⟩
  cases classify A (deltaPair x) (deltaOdd x) with
  | error e => exact .error e
  | ok v => exact .ok rfl

theorem loop1_simS (A : Analysis) : ∀ (k : ℕ) (iters cutoff step : ℤ) (ans : ApproachType × Option (ℚ × ℚ)), cutoff.toNat ≤ k →
    SimS Strict Eq (estObjLoop1 A iters cutoff step ans) (estObjLoop1 A iters cutoff step ans) := by
  intro k
  induction k with
  | zero =>
    intro iters cutoff step ans hk s s' h
    rw [estObjLoop1, estObjLoop1, dif_neg (by omega), dif_neg (by omega)]
    exact ⟨h.mirror, .ok rfl, fun _ _ => h⟩
  | succ k ih =>
    intro iters cutoff step ans hk s s' h
    by_cases hc : ans.1 = .fast ∧ cutoff > 0
    · rw [estObjLoop1, estObjLoop1, dif_pos hc, dif_pos hc]
      simp only
      have hk' : (cutoff.fdiv 2).toNat ≤ k := by
        rw [Int.fdiv_eq_ediv_of_nonneg _ (show (0:ℤ) ≤ 2 by decide)]
        omega
      revert hk'
      generalize cutoff.fdiv 2 = c'
      intro hk'
      generalize max 50 (iters.fdiv 2) = i'
      generalize max (truncDiv30 (i' - c')) (step.fdiv 2) = s2
      obtain ⟨h1, h2, h3⟩ := inner_simS A i' c' s2 s s' ⟨h.mirror, h.logging⟩
      rcases e : innerAlg A i' c' s2 s with ⟨t, r⟩
      rcases e' : innerAlg A i' c' s2 s' with ⟨t', r'⟩
      rw [e, e'] at h1 h2 h3
      cases h2 with
      | error err => exact ⟨h1, .error err, nofun⟩
      | ok hr => subst hr; exact ih _ _ _ _ hk' t t' (h3 _ rfl)
    · rw [estObjLoop1, estObjLoop1, dif_neg hc, dif_neg hc]
      exact ⟨h.mirror, .ok rfl, fun _ _ => h⟩

theorem loop2_simS (A : Analysis) : ∀ (k : ℕ) (iters : ℤ) (ans : ApproachType × Option (ℚ × ℚ)), (iters - 10).toNat ≤ k →
    SimS Strict Eq (estObjLoop2 A iters ans) (estObjLoop2 A iters ans) := by
  intro k
  induction k with
  | zero =>
    intro iters ans hk s s' h
    rw [estObjLoop2, estObjLoop2, dif_neg (by omega), dif_neg (by omega)]
    exact ⟨h.mirror, .ok rfl, fun _ _ => h⟩
  | succ k ih =>
    intro iters ans hk s s' h
    by_cases hc : ans.1 = .fast ∧ iters > 10
    · rw [estObjLoop2, estObjLoop2, dif_pos hc, dif_pos hc]
      simp only
      obtain ⟨h1, h2, h3⟩ := inner_simS A (iters - 5) 0 1 s s' ⟨h.mirror, h.logging⟩
      rcases e : innerAlg A (iters - 5) 0 1 s with ⟨t, r⟩
      rcases e' : innerAlg A (iters - 5) 0 1 s' with ⟨t', r'⟩
      rw [e, e'] at h1 h2 h3
      cases h2 with
      | error err => exact ⟨h1, .error err, nofun⟩
      | ok hr => subst hr; exact ih _ _ (by omega) t t' (h3 _ rfl)
    · rw [estObjLoop2, estObjLoop2, dif_neg hc, dif_neg hc]
      exact ⟨h.mirror, .ok rfl, fun _ _ => h⟩

theorem setApproach_simS (t : ApproachType) (ps : Option (ℚ × ℚ)) : SimS Strict Eq (setApproach t ps) (setApproach t ps) := by
  intro s s' h
  have hm : Mirror (setApproach t ps s).1 (setApproach t ps s').1 := { h.mirror with approachType := rfl, approachParams := rfl }
  exact ⟨hm, .ok rfl, fun _ _ => ⟨hm, h.logging, h.res⟩⟩

theorem estimate_simS (A : Analysis) (iters cutoff step : ℤ) : SimS (fun s s' => Mirror s s' ∧ s.logging = false) Eq
    (estimateApproachObj A iters cutoff step) (estimateApproachObj A iters cutoff step) := by
  rw [estimateApproachObj]
  refine (inner_simS A _ _ _).bind fun x y h => ?_
  subst h
  refine (loop1_simS A _ _ _ _ _ le_rfl).bind fun x y h => ?_
  subst h
  refine SimS.bind (R := Eq) ?_ fun u v h => ?_
  · split
    · exact loop2_simS A _ _ _ le_rfl
    · exact SimS.pure rfl
  · subst h
    exact setApproach_simS _ _

theorem genAcc_simS (required : ℚ → ℚ → Except PyErr ℤ) (n : ℤ) (accuracy : ℚ) :
    SimS (fun s s' => Mirror s s' ∧ s.logging = false) Eq (genIterationsAcc required n accuracy) (genIterationsAcc required n accuracy) := by
  intro s s' h
  rw [genIterationsAcc, genIterationsAcc, h.1.approachType, h.1.approachParams]
  by_cases hc : (s.approachType = .exp ∨ s.approachType = .superExp) ∧ accuracy ≠ 0
  · rw [if_pos hc, if_pos hc]
    rcases s.approachParams with _ | ⟨base, co⟩
    · exact gen_simS n s s' h
    · simp only
      rcases required accuracy base with e | r
      · exact ⟨h.1, .error e, nofun⟩
      · exact gen_simS _ s s' h
  · rw [if_neg hc, if_neg hc]
    exact gen_simS n s s' h

theorem init_mirror (a b : Coeffs) (z l : Bool) : RelE Mirror (init a b z none l) (init (mirrorCoeffs a) b z none l) := by
  rw [init, init]
  by_cases h : a = [] ∨ b = []
  · rw [if_pos h, if_pos (by rwa [mirrorCoeffs_eq_nil])]
    exact .error _
  · rw [if_neg h, if_neg (by rwa [mirrorCoeffs_eq_nil])]
    have hp : MirrorP ⟨a, b, .fin 1⟩ ⟨mirrorCoeffs a, b, .fin 1⟩ := ⟨rfl, rfl, .inr ⟨rfl, rfl⟩⟩
    rcases a with _ | ⟨_ | ⟨x, p⟩, a⟩
    · exact absurd (.inl rfl) h
    · exact .error _
    · have hm : MirrorM ((x, 1), (1, 0)) ((-x, 1), (1, 0)) := ⟨-1, .inr rfl, by simp⟩
      exact .ok ⟨hp, hm, rfl, rfl, rfl, rfl, rfl, .cons hp .nil, .cons hm .nil, rfl⟩

/-! ## The claims -/

/-- `ContFrac(a, b).is_convergence_fast(iters, cutoff, step)` on a new object. -/
def fastOf (a b : Coeffs) (z : Bool) (iters cutoff step : ℤ) : Except PyErr Bool :=
  (init a b z).bind fun s => (isConvergenceFast iters cutoff step s).2

/-- The approach type and parameters of a new object after `estimate_approach_type_and_params(iters, cutoff, step)`. -/
def approachOf (A : Analysis) (a b : Coeffs) (z : Bool) (iters cutoff step : ℤ) : Except PyErr (ApproachType × Option (ℚ × ℚ)) :=
  (init a b z).bind fun s =>
    let r := estimateApproachObj A iters cutoff step s
    r.2.map fun _ => (r.1.approachType, r.1.approachParams)

/-- The result of a new object after `gen_iterations(n)`. -/
def resultOf (a b : Coeffs) (z : Bool) (n : ℤ) : Except PyErr Num :=
  (init a b z).bind fun s =>
    let r := genIterations n true s
    r.2.map fun _ => getResult r.1

/-- The result of a new object after estimating its approach and `gen_iterations(n, accuracy)`. -/
def accurateResultOf (A : Analysis) (required : ℚ → ℚ → Except PyErr ℤ) (a b : Coeffs) (z : Bool) (iters cutoff step n : ℤ)
    (accuracy : ℚ) : Except PyErr Num :=
  (init a b z).bind fun s =>
    let r := (estimateApproachObj A iters cutoff step >>= fun _ => genIterationsAcc required n accuracy) s
    r.2.map fun _ => getResult r.1

theorem new_mirror {α : Type} (a b : Coeffs) (z : Bool) (f f' : CF → Except PyErr α) (g : α → α)
    (h : ∀ s s', init a b z = .ok s → Mirror s s' ∧ s.logging = false → f' s' = (f s).map g) :
    (init (mirrorCoeffs a) b z).bind f' = ((init a b z).bind f).map g := by
  have hi := init_mirror a b z false
  rcases e : init a b z with err | s
  · rw [e] at hi
    generalize init (mirrorCoeffs a) b z = X at hi
    cases hi
    rfl
  · rw [e] at hi
    generalize init (mirrorCoeffs a) b z = X at hi
    cases hi with
    | @ok _ s' hm =>
      refine h s s' e ⟨hm, ?_⟩
      rw [init] at e
      split at e
      · cases e
      · dsimp only at e
        split at e
        · cases e
        · cases e; rfl

theorem except_map_id {α : Type} (x : Except PyErr α) : x.map id = x := by cases x <;> rfl

/-- **C92, convergence test.** Whether the convergence of a continued fraction is fast does not depend on the common sign of the
`a` polynomials. -/
theorem C92_fast (a b : Coeffs) (z : Bool) (iters cutoff step : ℤ) :
    fastOf (a.map fun p => p.map fun k => -k) b z iters cutoff step = fastOf a b z iters cutoff step := by
  rw [fastOf, fastOf, ← except_map_id ((init a b z).bind _)]
  refine new_mirror a b z _ _ id fun s s' _ h => ?_
  rw [except_map_id]
  exact (fast_sim iters cutoff step s s' h.1).2.eq

/-- **C92, estimated approach.** The estimated type of convergence and its parameters do not depend on that sign either, whatever
the numerical library. -/
theorem C92_approach (A : Analysis) (a b : Coeffs) (z : Bool) (iters cutoff step : ℤ) :
    approachOf A (a.map fun p => p.map fun k => -k) b z iters cutoff step = approachOf A a b z iters cutoff step := by
  rw [approachOf, approachOf, ← except_map_id ((init a b z).bind _)]
  refine new_mirror a b z _ _ id fun s s' _ h => ?_
  rw [except_map_id]
  obtain ⟨h1, h2, -⟩ := estimate_simS A iters cutoff step s s' h
  simp only
  rw [h2.eq, h1.approachType, h1.approachParams]

theorem result_neg {m : PyM CF Unit} (hm : SimS (fun s s' => Mirror s s' ∧ s.logging = false) Eq m m) {s s' : CF}
    (h : Mirror s s' ∧ s.logging = false) :
    (m s').2.map (fun _ => getResult (m s').1) = ((m s).2.map fun _ => getResult (m s).1).map negRes := by
  obtain ⟨h1, h2, h3⟩ := hm s s' h
  rw [h2.eq]
  rcases e : (m s).2 with err | x
  · rfl
  · show Except.ok _ = Except.ok _
    rw [(h3 x e).res]

/-- Results, cf. C19. After any number of iterations the result of the continued fraction with negated `a` polynomials is the
negative of the result of the other one (NaN for NaN, exception for the same exception). -/
theorem mirror_result (a b : Coeffs) (z : Bool) (n : ℤ) :
    resultOf (a.map fun p => p.map fun k => -k) b z n = (resultOf a b z n).map negRes :=
  new_mirror a b z _ _ negRes fun _ _ _ h => result_neg (gen_simS n) h

/-- **C92, results at a requested accuracy.** -/
theorem C92_accurate_result (A : Analysis) (required : ℚ → ℚ → Except PyErr ℤ) (a b : Coeffs) (z : Bool)
    (iters cutoff step n : ℤ) (accuracy : ℚ) :
    accurateResultOf A required (a.map fun p => p.map fun k => -k) b z iters cutoff step n accuracy =
      (accurateResultOf A required a b z iters cutoff step n accuracy).map negRes :=
  new_mirror a b z _ _ negRes fun _ _ _ h => result_neg
    ((estimate_simS A iters cutoff step).bind fun _ _ _ => (genAcc_simS required n accuracy).weaken fun _ _ h => ⟨h.mirror, h.logging⟩) h

theorem evalLoop_neg : ∀ (l : List (ℚ × ℚ)) (r : ℚ),
    evalLoop (l.map fun x => (-x.1, x.2)) (-r) = (evalLoop l r).map fun x => -x
  | [], _ => rfl
  | (a, b) :: l, r => by
    rw [List.map_cons, evalLoop, evalLoop]
    by_cases h : r = 0
    · rw [if_pos h, if_pos (by rw [h, neg_zero])]; rfl
    · rw [if_neg h, if_neg (neg_ne_zero.2 h), ← evalLoop_neg l]
      congr 1
      rw [div_neg]; ring

/-- **C92, values in the hash table.** The same for the bottom-up evaluation to a positive depth. -/
theorem C92_eval (a b : Coeffs) (depth : ℕ) (hd : 1 ≤ depth) :
    evalByPolys (a.map fun p => p.map fun k => -k) b depth = (evalByPolys a b depth).map fun x => -x := by
  rw [evalByPolys, evalByPolys]
  have hn : (a.map (fun p => p.map fun k => -k) = [] ∨ b = []) ↔ (a = [] ∨ b = []) := by simp
  by_cases h : a = [] ∨ b = []
  · rw [if_pos h, if_pos (hn.2 h)]; rfl
  · rw [if_neg h, if_neg (mt hn.1 h)]
    have hl : (List.range depth).map (fun i => Utils.subsInPolynom
        (((a.map fun p => p.map fun k => -k).getD (i % (a.map fun p => p.map fun k => -k).length) []).map (Int.cast : ℤ → ℚ)) (i : ℚ)) =
        ((List.range depth).map fun i => Utils.subsInPolynom ((a.getD (i % a.length) []).map (Int.cast : ℤ → ℚ)) (i : ℚ)).map
          fun x => -x := by
      rw [List.map_map]
      refine List.map_congr_left fun i _ => ?_
      rw [Function.comp_apply, ← subsInPolynom_neg, List.length_map]
      congr 1
      rw [List.getD_eq_getElem?_getD, List.getD_eq_getElem?_getD, List.getElem?_map]
      cases a[i % a.length]? with
      | none => rfl
      | some p => simp
    rw [hl]
    generalize hX : (List.range depth).map (fun i => Utils.subsInPolynom ((a.getD (i % a.length) []).map (Int.cast : ℤ → ℚ)) (i : ℚ)) = X
    generalize hY : (List.range' 1 (depth - 1)).map (fun i => Utils.subsInPolynom ((b.getD (i % b.length) []).map (Int.cast : ℤ → ℚ)) (i : ℚ)) = Y
    have hXl : X.length = depth := by rw [← hX]; simp
    have hYl : Y.length = depth - 1 := by rw [← hY]; simp
    rw [evalContfrac, evalContfrac]
    simp only [List.length_map]
    rw [if_neg (show ¬X.length = Y.length by omega), if_pos (show X.length = Y.length + 1 by omega),
      if_neg (show ¬X.length = Y.length by omega), if_pos (show X.length = Y.length + 1 by omega), ← evalLoop_neg]
    congr 1
    · rw [← List.map_dropLast, ← List.map_reverse, List.zip_map_left]
      rfl
    · rw [List.getLastD_eq_getLast?, List.getLastD_eq_getLast?, List.getLast?_map]
      cases X.getLast? <;> simp

/-! The statements are not about exceptions only: `1 + 2·1/(3 + …)` and its mirror image. -/

theorem quotient_of {p q : ℤ} (h : q ≠ 0) : quotient p q = .fin ((p : ℚ) / q) := if_neg h

example : resultOf [[1, 2]] [[0, 0, 1]] true 3 = .ok (.fin (51 / 40)) ∧ resultOf [[-1, -2]] [[0, 0, 1]] true 3 = .ok (.fin (-(51 / 40))) := by
  constructor
  · rw [show resultOf [[1, 2]] [[0, 0, 1]] true 3 = .ok (quotient 204 160) from rfl, quotient_of (by decide)]
    norm_num
  · rw [show resultOf [[-1, -2]] [[0, 0, 1]] true 3 = .ok (quotient 204 (-160)) from rfl, quotient_of (by decide)]
    norm_num

example : fastOf [[1]] [[1]] true 300 100 50 = .ok true ∧ fastOf [[2]] [[-1]] true 300 100 50 = .ok false := by
  decide +kernel

example : (1 : ℕ) ≤ 3 ∧ evalByPolys [[1, 2]] [[0, 0, 1]] 3 = .ok (24 / 19) ∧ evalByPolys [[1, 2]] [[0, 0, 1]] 0 = .ok 1 := by
  refine ⟨by decide, ?_, ?_⟩
  · norm_num [evalByPolys, evalContfrac, evalLoop, List.range_succ, List.range', Utils.subsInPolynom]
  · norm_num [evalByPolys, evalContfrac, evalLoop, List.range']

end PiCF.ContFrac
