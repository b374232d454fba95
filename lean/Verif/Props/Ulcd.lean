import Mathlib.Tactic.FieldSimp
import Mathlib.Tactic.LinearCombination
import Mathlib.Algebra.Order.Ring.Abs
import Mathlib.Algebra.Order.Field.Basic
import Verif.Model.Ulcd
import Verif.Spec.Lhs
import Verif.Props.ContFracEval
import Verif.Props.EnumPoly

/-!
# C42, C46, C48 and the ULCD parts of C45, C50
-/

namespace PiCF
open PiCF.Spec PiCF.Lhs PiCF.EnumPoly PiCF.ContFrac

theorem ulcdVal_eq {x : ℚ} {p : ℤ × ℤ × ℤ × ℤ} (hx : x ≠ 0) (hp : UlcdLegal p) : ulcdVal x p = .ok (ulcdExpr p x) := by
  obtain ⟨u, l, c, d⟩ := p
  have h : ¬ (x = 0 ∨ l = 0 ∨ d = 0) := by
    rintro (h | h | h)
    · exact hx h
    · exact hp.1 h
    · exact hp.2 h
  simp only [ulcdVal, if_neg h, ulcdExpr]

theorem ulcdVal_ok {x v : ℚ} {p : ℤ × ℤ × ℤ × ℤ} (h : ulcdVal x p = .ok v) : x ≠ 0 ∧ UlcdLegal p ∧ v = ulcdExpr p x := by
  obtain ⟨u, l, c, d⟩ := p
  rw [ulcdVal] at h
  split at h
  · cases h
  · rename_i hn
    simp only [not_or] at hn
    exact ⟨hn.1, ⟨hn.2.1, hn.2.2⟩, (Except.ok.inj h).symm⟩

/-- An evaluator whose value is described by its parameters. -/
def UlcdOk (x : ℚ) (s : Ulcd) : Prop := s.x = x ∧ x ≠ 0 ∧ UlcdLegal s.params ∧ s.val = ulcdExpr s.params x

theorem Ulcd.init_ok {p : ℤ × ℤ × ℤ × ℤ} {x : ℚ} {s : Ulcd} (h : Ulcd.init p x = .ok s) : UlcdOk x s ∧ s.params = p := by
  rw [Ulcd.init] at h
  cases hv : ulcdVal x p with
  | error e => rw [hv] at h; cases h
  | ok v =>
    rw [hv] at h
    cases Except.ok.inj h
    obtain ⟨h1, h2, h3⟩ := ulcdVal_ok hv
    exact ⟨⟨rfl, h1, h2, h3⟩, rfl⟩

theorem Ulcd.assign_ok {x : ℚ} {s : Ulcd} {p : ℤ × ℤ × ℤ × ℤ} (hs : s.x = x) (hx : x ≠ 0) (hp : UlcdLegal p) :
    Ulcd.assign p s = (⟨p, x, ulcdExpr p x⟩, .ok ()) := by
  rw [Ulcd.assign, hs, ulcdVal_eq hx hp]

/-- The method called by an operation. -/
def ulcdCall : LhsOp → PyM Ulcd Unit
  | .flip => Ulcd.flipSign
  | .add n => Ulcd.addInt n
  | .canon => Ulcd.canonalizeParams

/-- A sequence of calls. -/
def ulcdRun : List LhsOp → PyM Ulcd Unit
  | [] => pure ()
  | op :: ops => do
    ulcdCall op
    ulcdRun ops

theorem ulcdCall_ok {x : ℚ} {s : Ulcd} (h : UlcdOk x s) (op : LhsOp) :
    ∃ s', ulcdCall op s = (s', .ok ()) ∧ UlcdOk x s' ∧ s'.val = op.effect s.val := by
  obtain ⟨⟨u, l, c, d⟩, y, v⟩ := s
  obtain ⟨rfl, hx, ⟨hl, hd⟩, hv⟩ := h
  simp only at hl hd hv
  have hdq : (d : ℚ) ≠ 0 := by exact_mod_cast hd
  cases op with
  | flip =>
    have hp : UlcdLegal (u, l, c, d * -1) := ⟨hl, by simpa using hd⟩
    refine ⟨⟨(u, l, c, d * -1), y, ulcdExpr (u, l, c, d * -1) y⟩, ?_, ⟨rfl, hx, hp, rfl⟩, ?_⟩
    · exact Ulcd.assign_ok (s := ⟨(u, l, c, d), y, v⟩) rfl hx hp
    · subst hv
      simp only [LhsOp.effect, ulcdExpr]
      push_cast
      rw [mul_neg_one, div_neg]
  | add n =>
    have hp : UlcdLegal (u, l, c + d * n, d) := ⟨hl, hd⟩
    refine ⟨⟨(u, l, c + d * n, d), y, ulcdExpr (u, l, c + d * n, d) y⟩, ?_, ⟨rfl, hx, hp, rfl⟩, ?_⟩
    · exact Ulcd.assign_ok (s := ⟨(u, l, c, d), y, v⟩) rfl hx hp
    · subst hv
      simp only [LhsOp.effect, ulcdExpr]
      push_cast
      field_simp
      ring
  | canon => exact ⟨_, rfl, ⟨rfl, hx, ⟨hl, hd⟩, hv⟩, rfl⟩

theorem ulcdRun_ok {x : ℚ} (ops : List LhsOp) : ∀ {s : Ulcd}, UlcdOk x s →
    ∃ s', ulcdRun ops s = (s', .ok ()) ∧ UlcdOk x s' ∧ s'.val = ops.foldl (fun v op => op.effect v) s.val := by
  induction ops with
  | nil => intro s h; exact ⟨s, rfl, h, rfl⟩
  | cons op ops ih =>
    intro s h
    obtain ⟨s1, e1, h1, v1⟩ := ulcdCall_ok h op
    obtain ⟨s2, e2, h2, v2⟩ := ih h1
    refine ⟨s2, ?_, h2, by rw [v2, v1]; rfl⟩
    rw [ulcdRun, PyM.bind_ok e1, e2]

/-- **C42.** Every sequence of `flip_sign()`, `add_int(i)` (and `canonalize_params()`) calls on a ULCD evaluator succeeds;
each call negates the value or adds exactly its argument, and the final value is the documented expression in the final
parameters. -/
theorem C42_ulcd_calls {p : ℤ × ℤ × ℤ × ℤ} {x : ℚ} {s : Ulcd} (hs : Ulcd.init p x = .ok s) (ops : List LhsOp) :
    ∃ s', ulcdRun ops s = (s', .ok ()) ∧ s'.val = ops.foldl (fun v op => op.effect v) (ulcdExpr p x) ∧
      s'.val = ulcdExpr s'.params x ∧ UlcdLegal s'.params := by
  obtain ⟨h, hp⟩ := Ulcd.init_ok hs
  obtain ⟨s', e, h', v⟩ := ulcdRun_ok ops h
  refine ⟨s', e, ?_, h'.2.2.2, h'.2.2.1⟩
  rw [v, h.2.2.2, hp]

example : Ulcd.init (1, 2, 3, 4) 2 = .ok ⟨(1, 2, 3, 4), 2, 9 / 8⟩ ∧
    ulcdRun [.flip, .add 3] ⟨(1, 2, 3, 4), 2, 9 / 8⟩ = (⟨(1, 2, -9, -4), 2, 15 / 8⟩, .ok ()) := by
  constructor
  · decide +kernel
  · decide +kernel

/-! ### C50, ULCD part -/

/-- Calls that change the parameters. -/
inductive UlcdCall where
  | op (o : LhsOp)
  | reinit (p : ℤ × ℤ × ℤ × ℤ)

/-- The method. -/
def UlcdCall.run : UlcdCall → PyM Ulcd Unit
  | .op o => ulcdCall o
  | .reinit p => Ulcd.reinitParams p

/-- A sequence of calls; an exception ends it. -/
def ulcdRunAll : List UlcdCall → PyM Ulcd Unit
  | [] => pure ()
  | c :: cs => do
    c.run
    ulcdRunAll cs

/-- **C50 (ULCD part).** After any sequence of `reinit_params`, `flip_sign`, `add_int`, `canonalize_params` none of
which raised, the value is the one described by the parameters, and a copy has the same parameters, constant and
value. -/
theorem C50_ulcd {p : ℤ × ℤ × ℤ × ℤ} {x : ℚ} {s : Ulcd} (hs : Ulcd.init p x = .ok s) (cs : List UlcdCall) {s' : Ulcd}
    (hrun : ulcdRunAll cs s = (s', .ok ())) : s'.val = ulcdExpr s'.params x ∧ Ulcd.copy s' = .ok s' := by
  have key : ∀ (cs : List UlcdCall) (s : Ulcd), UlcdOk x s → ulcdRunAll cs s = (s', .ok ()) → UlcdOk x s' := by
    intro cs
    induction cs with
    | nil => intro s h e; rw [ulcdRunAll] at e; cases e; exact h
    | cons c cs ih =>
      intro s h e
      rw [ulcdRunAll] at e
      cases c with
      | op o =>
        obtain ⟨s1, e1, h1, -⟩ := ulcdCall_ok h o
        rw [PyM.bind_ok (show UlcdCall.run (.op o) s = _ from e1)] at e
        exact ih s1 h1 e
      | reinit q =>
        cases hv : ulcdVal s.x q with
        | error err =>
          have e1 : UlcdCall.run (.reinit q) s = ({ s with params := q }, .error err) := by
            show Ulcd.assign q s = _
            rw [Ulcd.assign, hv]
          rw [PyM.bind_error e1] at e
          cases e
        | ok v =>
          have e1 : UlcdCall.run (.reinit q) s = ({ s with params := q, val := v }, .ok ()) := by
            show Ulcd.assign q s = _
            rw [Ulcd.assign, hv]
          rw [PyM.bind_ok e1] at e
          obtain ⟨a1, a2, a3⟩ := ulcdVal_ok hv
          exact ih { s with params := q, val := v } ⟨h.1, h.2.1, a2, by rw [← h.1]; exact a3⟩ e
  have h := key cs s (Ulcd.init_ok hs).1 hrun
  refine ⟨h.2.2.2, ?_⟩
  rw [Ulcd.copy, Ulcd.init, h.1, ulcdVal_eq h.2.1 h.2.2.1, ← h.2.2.2]
  cases s'; cases h.1; rfl

example : (ulcdRunAll [.reinit (0, 1, 0, 1), .op .flip] ⟨(1, 2, 3, 4), 2, 9 / 8⟩) = (⟨(0, 1, 0, -1), 2, -2⟩, .ok ()) := by
  decide +kernel

/-! ### C45, ULCD part -/

/-- A legal ULCD expression always depends on the constant: it takes different values at 1 and at 2, or at 1 and 3. -/
theorem ulcd_not_constant (p : ℤ × ℤ × ℤ × ℤ) (hp : UlcdLegal p) :
    ulcdExpr p 1 ≠ ulcdExpr p 2 ∨ ulcdExpr p 1 ≠ ulcdExpr p 3 := by
  obtain ⟨u, l, c, d⟩ := p
  have hl : (l : ℚ) ≠ 0 := by exact_mod_cast hp.1
  have hd : (d : ℚ) ≠ 0 := by exact_mod_cast hp.2
  by_contra h
  simp only [not_or, not_not, ulcdExpr, div_left_inj' hd] at h
  obtain ⟨h1, h2⟩ := h
  have h3 : (1 : ℚ) / l = u / 2 := by
    have : (2 : ℚ) / l = 2 * (1 / l) := by ring
    linarith
  have h4 : (2 : ℚ) * (1 / l) = 2 * u / 3 := by
    have : (3 : ℚ) / l = 3 * (1 / l) := by ring
    linarith
  have hu : (u : ℚ) = 0 := by linarith
  rw [hu] at h3
  simp [hl] at h3

/-- **C45 (negated, ULCD part).** `is_degenerate()` reports `1/x - x` although it depends on the constant.  In fact every
legal ULCD expression does (`ulcd_not_constant`), so every positive answer is wrong. -/
theorem C45_ulcd_degenerate_violated :
    (∃ s, Ulcd.init (1, -1, 0, 1) 2 = .ok s ∧ s.isDegenerate = true) ∧ ulcdExpr (1, -1, 0, 1) 1 ≠ ulcdExpr (1, -1, 0, 1) 2 ∧
    ∀ (s : Ulcd), UlcdLegal s.params → s.isDegenerate = true →
      ∃ x y : ℚ, x ≠ 0 ∧ y ≠ 0 ∧ ulcdExpr s.params x ≠ ulcdExpr s.params y := by
  refine ⟨⟨⟨(1, -1, 0, 1), 2, -3 / 2⟩, by decide +kernel, by decide +kernel⟩, by decide +kernel, ?_⟩
  intro s hs _
  rcases ulcd_not_constant s.params hs with h | h
  · exact ⟨1, 2, by norm_num, by norm_num, h⟩
  · exact ⟨1, 3, by norm_num, by norm_num, h⟩

/-! ### C46 -/

/-- What a positive answer amounts to, without divisions: equal results up to sign, by a positive rational
ratio. -/
def UlcdRel (r1 r2 : UlcdResult) : Prop :=
  (r1 = r2 ∧ r1.post ≠ 0) ∨
  (r1.post = 0 ∧ r2.post = 0 ∧ r1.b = r2.b ∧ (r1.a = r2.a ∨ r1.a = negTuple r2.a) ∧
    ∃ (t : ℚ) (s : ℚ), 0 < t ∧ (s = 1 ∨ s = -1) ∧ |(r1.params.2.2.2 : ℚ)| = t * |(r2.params.2.2.2 : ℚ)| ∧
      (r1.params.1 : ℚ) = s * t * r2.params.1 ∧ t * (r1.params.2.1 : ℚ) = s * r2.params.2.1 ∧
      (r1.params.2.2.1 : ℚ) = s * t * r2.params.2.2.1)

theorem negTuple_eq (ps : Polys) : negTuple ps = negCoeffs ps := rfl

theorem length_negTuple (ps : Polys) : (negTuple ps).length = ps.length := by simp [negTuple]

theorem negTuple_negTuple (ps : Polys) : negTuple (negTuple ps) = ps := by
  simp [negTuple]

theorem ulcdIsEquiv_iff (r1 r2 : UlcdResult) (h1 : r1.params.2.2.2 ≠ 0) (h2 : r2.params.2.2.2 ≠ 0) :
    ∃ b, ulcdIsEquiv r1 r2 = .ok b ∧ (b = true ↔ UlcdRel r1 r2) := by
  obtain ⟨a1, b1, ⟨u1, l1, c1, d1⟩, p1⟩ := r1
  obtain ⟨a2, b2, ⟨u2, l2, c2, d2⟩, p2⟩ := r2
  simp only at h1 h2
  by_cases hpost : p1 ≠ 0 ∨ p2 ≠ 0
  · refine ⟨_, by rw [ulcdIsEquiv, if_pos hpost], ?_⟩
    simp only [Bool.and_eq_true, decide_eq_true_eq, UlcdRel, UlcdResult.mk.injEq]
    constructor
    · rintro ⟨⟨⟨rfl, rfl⟩, e⟩, rfl⟩
      exact .inl ⟨⟨rfl, rfl, e, rfl⟩, by tauto⟩
    · rintro (⟨⟨rfl, rfl, e, rfl⟩, -⟩ | ⟨h, h', -⟩)
      · exact ⟨⟨⟨rfl, rfl⟩, e⟩, rfl⟩
      · tauto
  simp only [not_or, not_not] at hpost
  obtain ⟨rfl, rfl⟩ := hpost
  have hfirst : ¬ ((0 : ℕ) ≠ 0 ∨ (0 : ℕ) ≠ 0) := by simp
  by_cases hab : b1 = b2 ∧ (a1 = a2 ∨ a1 = negTuple a2)
  swap
  · refine ⟨false, ?_, ?_⟩
    · rw [ulcdIsEquiv]
      simp only [hfirst, if_false, hab]
      split <;> rfl
    · constructor
      · intro h; cases h
      · rintro (⟨-, h⟩ | ⟨-, -, h3, h4, -⟩)
        · exact absurd rfl h
        · exact absurd ⟨h3, h4⟩ hab
  have hlen : ¬ (a1.length ≠ a2.length ∨ b1.length ≠ b2.length) := by
    obtain ⟨rfl, rfl | rfl⟩ := hab
    · simp
    · simp [length_negTuple]
  rw [ulcdIsEquiv]
  dsimp only
  rw [if_neg hfirst, if_neg hlen, if_pos hab]
  have hd1 : (d1 : ℚ) ≠ 0 := by exact_mod_cast h1
  have hd2 : (d2 : ℚ) ≠ 0 := by exact_mod_cast h2
  set ratio : ℚ := |(d1 : ℚ) / d2| with hratio
  have hr0 : 0 < ratio := abs_pos.2 (div_ne_zero hd1 hd2)
  have hr1 : |(d1 : ℚ)| = ratio * |(d2 : ℚ)| := by
    rw [hratio, abs_div, div_mul_cancel₀ _ (abs_pos.2 hd2).ne']
  have hiff : UlcdRel ⟨a1, b1, (u1, l1, c1, d1), 0⟩ ⟨a2, b2, (u2, l2, c2, d2), 0⟩ ↔
      ∃ s : ℚ, (s = 1 ∨ s = -1) ∧ (u1 : ℚ) = s * ratio * u2 ∧ ratio * (l1 : ℚ) = s * l2 ∧ (c1 : ℚ) = s * ratio * c2 := by
    rw [UlcdRel]
    constructor
    · rintro (⟨-, h⟩ | ⟨-, -, -, -, t, s, ht, hs, hd, h⟩)
      · exact absurd rfl h
      · have : t = ratio := by
          have h3 := hd.symm.trans hr1
          exact mul_right_cancel₀ (abs_pos.2 hd2).ne' h3
        rw [this] at h
        exact ⟨s, hs, h⟩
    · rintro ⟨s, hs, h⟩
      exact .inr ⟨rfl, rfl, hab.1, hab.2, ratio, s, hr0, hs, hr1, h⟩
  have hdiv : ∀ a b : ℚ, a = b / ratio ↔ ratio * a = b := by
    intro a b
    rw [eq_div_iff hr0.ne', mul_comm]
  by_cases hfirst' : ([1, -1] : List ℤ).any (fun s => decide (u1 = u2 * s ∧ l1 = l2 * s ∧ c1 = c2 * s ∧ |d1| = |d2|)) = true
  · refine ⟨true, by rw [if_pos hfirst'], ?_⟩
    simp only [true_iff]
    rw [hiff]
    simp only [List.any_cons, List.any_nil, Bool.or_false, Bool.or_eq_true, decide_eq_true_eq] at hfirst'
    have hone : |d1| = |d2| → ratio = 1 := by
      intro h
      have : |(d1 : ℚ)| = |(d2 : ℚ)| := by exact_mod_cast h
      rw [hratio, abs_div, this, div_self (abs_pos.2 hd2).ne']
    rcases hfirst' with ⟨e1, e2, e3, e4⟩ | ⟨e1, e2, e3, e4⟩
    · refine ⟨1, .inl rfl, ?_⟩
      rw [hone e4, e1, e2, e3]; simp
    · refine ⟨-1, .inr rfl, ?_⟩
      rw [hone e4, e1, e2, e3]; simp
  · rw [if_neg hfirst', if_neg h2]
    have hz : ∀ q : ℚ, ¬ ((u1 : ℚ) = q ∧ ratio = 0) := fun q h => hr0.ne' h.2
    simp only [if_neg (hz _)]
    by_cases hc1 : (u1 : ℚ) = u2 * ratio ∧ (l1 : ℚ) = l2 / ratio ∧ (c1 : ℚ) = c2 * ratio
    · refine ⟨true, by rw [if_pos hc1], ?_⟩
      simp only [true_iff]
      rw [hiff]
      refine ⟨1, .inl rfl, by rw [hc1.1]; ring, ?_, by rw [hc1.2.2]; ring⟩
      rw [one_mul]; exact (hdiv _ _).1 hc1.2.1
    · rw [if_neg hc1]
      by_cases hc2 : (u1 : ℚ) = -u2 * ratio ∧ (l1 : ℚ) = -l2 / ratio ∧ (c1 : ℚ) = -c2 * ratio
      · refine ⟨true, by rw [if_pos hc2], ?_⟩
        simp only [true_iff]
        rw [hiff]
        refine ⟨-1, .inr rfl, by rw [hc2.1]; ring, ?_, by rw [hc2.2.2]; ring⟩
        rw [(hdiv _ _).1 hc2.2.1]; ring
      · refine ⟨false, by rw [if_neg hc2], ?_⟩
        rw [hiff]
        constructor
        · intro h; cases h
        · rintro ⟨s, rfl | rfl, e1, e2, e3⟩
          · exact absurd ⟨by rw [e1]; ring, (hdiv _ _).2 (by rw [e2]; ring), by rw [e3]; ring⟩ hc1
          · exact absurd ⟨by rw [e1]; ring, (hdiv _ _).2 (by rw [e2]; ring), by rw [e3]; ring⟩ hc2

theorem sameUpToSign_refl (a b : Polys) : SameUpToSign a b a b := fun _ => ⟨Iff.rfl, rfl⟩

theorem sameUpToSign_neg (a b : Polys) : SameUpToSign (negTuple a) b a b := by
  intro n
  have hfun : seqAt (negTuple a) = fun i => - seqAt a i := funext (seqAt_neg a)
  rw [hfun]
  have h := cont_neg (seqAt a) (seqAt b) n
  rw [h.1, h.2.1]
  constructor
  · simp
  · rw [show (-1) ^ n * contP (seqAt a) (seqAt b) n * contQ (seqAt a) (seqAt b) n =
      -(contP (seqAt a) (seqAt b) n * -((-1) ^ n * contQ (seqAt a) (seqAt b) n)) by ring, abs_neg]

/-- **C46 (soundness).** If two ULCD results are reported equivalent, the left hand sides have the same absolute value at
every non-zero constant, the post-processing functions are the same, and the continued fractions agree up to sign at
every depth. -/
theorem C46_sound (r1 r2 : UlcdResult) (h1 : UlcdLegal r1.params) (h2 : UlcdLegal r2.params)
    (h : ulcdIsEquiv r1 r2 = .ok true) :
    (∀ x : ℚ, x ≠ 0 → |ulcdExpr r1.params x| = |ulcdExpr r2.params x|) ∧ r1.post = r2.post ∧
    SameUpToSign r1.a r1.b r2.a r2.b := by
  obtain ⟨b, hb, hiff⟩ := ulcdIsEquiv_iff r1 r2 h1.2 h2.2
  rw [h] at hb
  cases Except.ok.inj hb
  rcases hiff.1 rfl with ⟨rfl, -⟩ | ⟨e1, e2, hb', ha, t, s, ht, hs, hd, hu, hl, hc⟩
  · exact ⟨fun _ _ => rfl, rfl, sameUpToSign_refl _ _⟩
  · refine ⟨?_, by rw [e1, e2], ?_⟩
    · intro x hx
      have hl1 : (r1.params.2.1 : ℚ) ≠ 0 := by exact_mod_cast h1.1
      have hl2 : (r2.params.2.1 : ℚ) ≠ 0 := by exact_mod_cast h2.1
      have hd2 : |(r2.params.2.2.2 : ℚ)| ≠ 0 := abs_ne_zero.2 (by exact_mod_cast h2.2)
      have hss : s * s = 1 := by rcases hs with rfl | rfl <;> norm_num
      have hls : x / (r1.params.2.1 : ℚ) = s * t * (x / r2.params.2.1) := by
        rw [← mul_div_assoc, div_eq_div_iff hl1 hl2]
        have : (r2.params.2.1 : ℚ) = s * t * r1.params.2.1 := by
          rw [mul_assoc, hl, ← mul_assoc, hss, one_mul]
        rw [this]; ring
      rw [ulcdExpr, ulcdExpr, abs_div, abs_div, hd, hu, hls, hc,
        show s * t * (r2.params.1 : ℚ) / x + s * t * (x / r2.params.2.1) + s * t * r2.params.2.2.1
          = s * t * (r2.params.1 / x + x / r2.params.2.1 + r2.params.2.2.1) by ring, abs_mul, abs_mul s t,
        abs_of_pos ht, show |s| = 1 by rcases hs with rfl | rfl <;> norm_num, one_mul,
        mul_div_mul_left _ _ ht.ne']
    · rw [hb']
      rcases ha with ha | ha
      · rw [ha]; exact sameUpToSign_refl _ _
      · rw [ha]; exact sameUpToSign_neg _ _

theorem ulcdRel_refl (r : UlcdResult) : UlcdRel r r := by
  by_cases h : r.post = 0
  · exact .inr ⟨h, h, rfl, .inl rfl, 1, 1, one_pos, .inl rfl, by simp, by simp, by simp, by simp⟩
  · exact .inl ⟨rfl, h⟩

theorem ulcdRel_symm {r1 r2 : UlcdResult} (h : UlcdRel r1 r2) : UlcdRel r2 r1 := by
  rcases h with ⟨rfl, h⟩ | ⟨e1, e2, hb, ha, t, s, ht, hs, hd, hu, hl, hc⟩
  · exact .inl ⟨rfl, h⟩
  · have hss : s * s = 1 := by rcases hs with rfl | rfl <;> norm_num
    have htt : t⁻¹ * t = 1 := inv_mul_cancel₀ ht.ne'
    refine .inr ⟨e2, e1, hb.symm, ?_, t⁻¹, s, inv_pos.2 ht, hs, ?_, ?_, ?_, ?_⟩
    · rcases ha with ha | ha
      · exact .inl ha.symm
      · exact .inr (by rw [ha, negTuple_negTuple])
    · rw [hd, ← mul_assoc, htt, one_mul]
    · rw [hu]; linear_combination (-(r2.params.1 : ℚ)) * (s * s * htt + hss)
    · have : (r2.params.2.1 : ℚ) = s * t * r1.params.2.1 := by
        rw [mul_assoc, hl, ← mul_assoc, hss, one_mul]
      rw [this]; linear_combination (s * (r1.params.2.1 : ℚ)) * htt
    · rw [hc]; linear_combination (-(r2.params.2.2.1 : ℚ)) * (s * s * htt + hss)

theorem ulcdRel_trans {r1 r2 r3 : UlcdResult} (h : UlcdRel r1 r2) (h' : UlcdRel r2 r3) : UlcdRel r1 r3 := by
  rcases h with ⟨rfl, h⟩ | ⟨e1, e2, hb, ha, t, s, ht, hs, hd, hu, hl, hc⟩
  · exact h'
  · rcases h' with ⟨rfl, h⟩ | ⟨e1', e2', hb', ha', t', s', ht', hs', hd', hu', hl', hc'⟩
    · exact absurd e2 h
    · refine .inr ⟨e1, e2', hb.trans hb', ?_, t * t', s * s', mul_pos ht ht', ?_, ?_, ?_, ?_, ?_⟩
      · rcases ha with ha | ha <;> rcases ha' with ha' | ha'
        · exact .inl (ha.trans ha')
        · exact .inr (ha.trans ha')
        · exact .inr (by rw [ha, ha'])
        · exact .inl (by rw [ha, ha', negTuple_negTuple])
      · rcases hs with rfl | rfl <;> rcases hs' with rfl | rfl <;> norm_num
      · rw [hd, hd', mul_assoc]
      · rw [hu, hu']; ring
      · linear_combination t' * hl + s * hl'
      · rw [hc, hc']; ring

/-- **C46 (equivalence relation).** On results with non-zero `d` the comparison never raises and is reflexive, symmetric
and transitive. -/
theorem C46_equivalence :
    (∀ r1 r2 : UlcdResult, r1.params.2.2.2 ≠ 0 → r2.params.2.2.2 ≠ 0 → ∃ b, ulcdIsEquiv r1 r2 = .ok b) ∧
    (∀ r : UlcdResult, r.params.2.2.2 ≠ 0 → ulcdIsEquiv r r = .ok true) ∧
    (∀ r1 r2 : UlcdResult, r1.params.2.2.2 ≠ 0 → r2.params.2.2.2 ≠ 0 → ulcdIsEquiv r1 r2 = .ok true →
      ulcdIsEquiv r2 r1 = .ok true) ∧
    (∀ r1 r2 r3 : UlcdResult, r1.params.2.2.2 ≠ 0 → r2.params.2.2.2 ≠ 0 → r3.params.2.2.2 ≠ 0 →
      ulcdIsEquiv r1 r2 = .ok true → ulcdIsEquiv r2 r3 = .ok true → ulcdIsEquiv r1 r3 = .ok true) := by
  have hiff : ∀ r1 r2 : UlcdResult, r1.params.2.2.2 ≠ 0 → r2.params.2.2.2 ≠ 0 →
      (ulcdIsEquiv r1 r2 = .ok true ↔ UlcdRel r1 r2) := by
    intro r1 r2 h1 h2
    obtain ⟨b, hb, h⟩ := ulcdIsEquiv_iff r1 r2 h1 h2
    rw [hb, ← h]
    simp
  refine ⟨fun r1 r2 h1 h2 => ?_, fun r h => (hiff r r h h).2 (ulcdRel_refl r), fun r1 r2 h1 h2 h => ?_,
    fun r1 r2 r3 h1 h2 h3 h h' => ?_⟩
  · obtain ⟨b, hb, -⟩ := ulcdIsEquiv_iff r1 r2 h1 h2
    exact ⟨b, hb⟩
  · exact (hiff r2 r1 h2 h1).2 (ulcdRel_symm ((hiff r1 r2 h1 h2).1 h))
  · exact (hiff r1 r3 h1 h3).2 (ulcdRel_trans ((hiff r1 r2 h1 h2).1 h) ((hiff r2 r3 h2 h3).1 h'))

/-- `(2/x + x/1 + 2)/2` and `(-1/x - x/2 - 1)/1` with opposite `a`. -/
example : ulcdIsEquiv ⟨[[1, 2]], [[3]], (2, 1, 2, 2), 0⟩ ⟨[[-1, -2]], [[3]], (-1, -2, -1, 1), 0⟩ = .ok true := by
  decide +kernel

/-- The restriction to non-zero `d` is needed: otherwise the comparison can raise. -/
example : ulcdIsEquiv ⟨[[1]], [[3]], (2, 1, 2, 2), 0⟩ ⟨[[1]], [[3]], (1, 2, 1, 0), 0⟩ = .error .zeroDivision := by
  decide +kernel

/-! ### C48 -/

theorem mem_product4 (u l c d : List ℤ) (p : ℤ × ℤ × ℤ × ℤ) :
    p ∈ product4 u l c d ↔ p.1 ∈ u ∧ p.2.1 ∈ l ∧ p.2.2.1 ∈ c ∧ p.2.2.2 ∈ d := by
  obtain ⟨u', l', c', d'⟩ := p
  simp only [product4, List.mem_flatMap, List.mem_map, Prod.mk.injEq]
  constructor
  · rintro ⟨_, h1, _, h2, _, h3, _, h4, rfl, rfl, rfl, rfl⟩
    exact ⟨h1, h2, h3, h4⟩
  · rintro ⟨h1, h2, h3, h4⟩
    exact ⟨_, h1, _, h2, _, h3, _, h4, rfl, rfl, rfl, rfl⟩

theorem nodup_product4 {u l c d : List ℤ} (hu : u.Nodup) (hl : l.Nodup) (hc : c.Nodup) (hd : d.Nodup) :
    (product4 u l c d).Nodup := by
  unfold product4
  refine List.nodup_flatMap.2 ⟨fun u' _ => List.nodup_flatMap.2 ⟨fun l' _ => List.nodup_flatMap.2 ⟨fun c' _ => ?_, ?_⟩, ?_⟩, ?_⟩
  · exact hd.map fun a b h => by simpa using h
  · refine hc.imp fun {a b} hab x hx hy => ?_
    simp only [List.mem_map] at hx hy
    obtain ⟨_, _, rfl⟩ := hx
    obtain ⟨_, _, e⟩ := hy
    simp only [Prod.mk.injEq] at e
    exact hab e.2.2.1.symm
  · refine hl.imp fun {a b} hab x hx hy => ?_
    simp only [List.mem_flatMap, List.mem_map] at hx hy
    obtain ⟨_, _, _, _, rfl⟩ := hx
    obtain ⟨_, _, _, _, e⟩ := hy
    simp only [Prod.mk.injEq] at e
    exact hab e.2.1.symm
  · refine hu.imp fun {a b} hab x hx hy => ?_
    simp only [List.mem_flatMap, List.mem_map] at hx hy
    obtain ⟨_, _, _, _, _, _, rfl⟩ := hx
    obtain ⟨_, _, _, _, _, _, e⟩ := hy
    simp only [Prod.mk.injEq] at e
    exact hab e.1.symm

theorem length_product4 (u l c d : List ℤ) :
    (product4 u l c d).length = u.length * l.length * c.length * d.length := by
  simp only [product4, List.length_flatMap, List.length_map, List.map_const', List.sum_replicate, smul_eq_mul, mul_assoc]

/-- Legal and within one unit of zero. -/
def keepUlcd (p : ℤ × ℤ × ℤ × ℤ) : Bool := decide (p.2.1 ≠ 0 ∧ p.2.2.2 ≠ 0 ∧ |p.2.2.1| < |p.2.2.2|)

theorem ulcdLoop_spec {x : ℚ} (hx : x ≠ 0) (ps : List (ℤ × ℤ × ℤ × ℤ)) : ∀ s : Ulcd, s.x = x →
    ulcdLoop ps s = ((ps.filter keepUlcd).map fun p => ⟨p, x, ulcdExpr p x⟩, .ok ()) := by
  induction ps with
  | nil => intro s _; rfl
  | cons p ps ih =>
    intro s hs
    obtain ⟨u, l, c, d⟩ := p
    rw [ulcdLoop]
    by_cases h1 : d = 0 ∨ l = 0
    · rw [if_pos h1, ih s hs, List.filter_cons_of_neg]
      rw [keepUlcd, decide_eq_true_eq]
      tauto
    · rw [if_neg h1]
      by_cases h2 : |c| ≥ |d|
      · rw [if_pos h2, ih s hs, List.filter_cons_of_neg]
        rw [keepUlcd, decide_eq_true_eq]
        rintro ⟨-, -, h⟩
        exact absurd h (not_lt.2 h2)
      · rw [if_neg h2, List.filter_cons_of_pos, List.map_cons]
        · rw [show Ulcd.reinitParams (u, l, c, d) s = _ from
            Ulcd.assign_ok hs hx (p := (u, l, c, d)) ⟨fun h => h1 (.inr h), fun h => h1 (.inl h)⟩]
          simp only [ih ⟨(u, l, c, d), x, ulcdExpr (u, l, c, d) x⟩ rfl]
        · rw [keepUlcd, decide_eq_true_eq]
          exact ⟨fun h => h1 (.inr h), fun h => h1 (.inl h), not_le.1 h2⟩

theorem pyRange3_nodup {lo hi step : ℤ} {l : List ℤ} (h : pyRange3 lo hi step = .ok l) : l.Nodup := by
  rw [pyRange3] at h
  split at h
  · cases h
  · rename_i hne
    have hinj : Function.Injective fun n : ℕ => lo + n * step := by
      intro a b e
      have e' : (a : ℤ) * step = b * step := by simpa using e
      exact_mod_cast mul_right_cancel₀ hne e'
    split at h <;> cases Except.ok.inj h <;> exact List.nodup_range.map hinj

/-- A range given as an explicit iterable has no repetitions. -/
def NoRep : RangeSpec → Prop
  | .iter l => l.Nodup
  | _ => True

theorem normRange_nodup {r : RangeSpec} {l : List ℤ} (hr : NoRep r) (h : normRange r = .ok l) : l.Nodup := by
  cases r with
  | num n => cases Except.ok.inj h; exact nodup_pyRange _
  | two lo hi => cases Except.ok.inj h; exact nodup_pyRange _
  | three lo hi step => exact pyRange3_nodup h
  | iter l' => cases Except.ok.inj h; exact hr

theorem normRangeD_nodup {r : RangeSpec} {l : List ℤ} (hr : NoRep r) (h : normRangeD r = .ok l) : l.Nodup := by
  cases r with
  | num n => cases Except.ok.inj h; exact nodup_pyRange _
  | two lo hi => exact normRange_nodup hr h
  | three lo hi step => exact normRange_nodup hr h
  | iter l' => exact normRange_nodup hr h

/-- The numbers described by a range argument (see the documentation of the class). -/
def rangeMem (forD : Bool) : RangeSpec → ℤ → Prop
  | .num n, i => (if forD then 1 else -n) ≤ i ∧ i ≤ n
  | .two lo hi, i => lo ≤ i ∧ i < hi
  | .three lo hi step, i => (∃ k : ℕ, i = lo + k * step) ∧ (if step > 0 then i < hi else i > hi)
  | .iter l, i => i ∈ l

theorem mem_pyRange3 {lo hi step : ℤ} {l : List ℤ} (h : pyRange3 lo hi step = .ok l) (i : ℤ) :
    i ∈ l ↔ (∃ k : ℕ, i = lo + k * step) ∧ (if step > 0 then i < hi else i > hi) := by
  rw [pyRange3] at h
  split at h
  · cases h
  · rename_i hne
    split at h
    · rename_i hp
      cases Except.ok.inj h
      simp only [List.mem_map, List.mem_range, hp, if_true]
      constructor
      · rintro ⟨k, hk, rfl⟩
        refine ⟨⟨k, rfl⟩, ?_⟩
        have h1 : (k : ℤ) + 1 ≤ (hi - lo + step - 1) / step := by omega
        have h2 := (Int.le_ediv_iff_mul_le hp).1 h1
        nlinarith
      · rintro ⟨⟨k, rfl⟩, hk⟩
        refine ⟨k, ?_, rfl⟩
        have h1 : (k : ℤ) + 1 ≤ (hi - lo + step - 1) / step := by
          rw [Int.le_ediv_iff_mul_le hp]; nlinarith
        omega
    · rename_i hp
      cases Except.ok.inj h
      have hn : 0 < -step := by omega
      simp only [List.mem_map, List.mem_range, hp, if_false]
      constructor
      · rintro ⟨k, hk, rfl⟩
        refine ⟨⟨k, rfl⟩, ?_⟩
        have h1 : (k : ℤ) + 1 ≤ (lo - hi - step - 1) / -step := by omega
        have h2 := (Int.le_ediv_iff_mul_le hn).1 h1
        nlinarith
      · rintro ⟨⟨k, rfl⟩, hk⟩
        refine ⟨k, ?_, rfl⟩
        have h1 : (k : ℤ) + 1 ≤ (lo - hi - step - 1) / -step := by
          rw [Int.le_ediv_iff_mul_le hn]; nlinarith
        omega

theorem mem_normRange {r : RangeSpec} {l : List ℤ} (h : normRange r = .ok l) (i : ℤ) : i ∈ l ↔ rangeMem false r i := by
  cases r with
  | num n =>
    cases Except.ok.inj h
    rw [mem_pyRange]
    simp only [rangeMem, Bool.false_eq_true, if_false]
    omega
  | two lo hi => cases Except.ok.inj h; rw [mem_pyRange]; rfl
  | three lo hi step => exact mem_pyRange3 h i
  | iter l' => cases Except.ok.inj h; rfl

theorem mem_normRangeD {r : RangeSpec} {l : List ℤ} (h : normRangeD r = .ok l) (i : ℤ) : i ∈ l ↔ rangeMem true r i := by
  cases r with
  | num n =>
    cases Except.ok.inj h
    rw [mem_pyRange]
    simp only [rangeMem, if_true]
    omega
  | two lo hi => exact mem_normRange (r := .two lo hi) h i
  | three lo hi step => exact mem_normRange (r := .three lo hi step) h i
  | iter l' => exact mem_normRange (r := .iter l') h i

theorem UlcdEnum.init_ok {ru rl rc rd : RangeSpec} {x : ℚ} {e : UlcdEnum} (h : UlcdEnum.init ru rl rc rd x = .ok e) :
    normRange ru = .ok e.u ∧ normRange rl = .ok e.l ∧ normRange rc = .ok e.c ∧ normRangeD rd = .ok e.d ∧ e.x = x ∧
      e.iterLen = e.u.length * e.l.length * e.c.length * e.d.length := by
  rw [UlcdEnum.init] at h
  cases hu : normRange ru with
  | error err => rw [hu] at h; cases h
  | ok u =>
    cases hl : normRange rl with
    | error err => rw [hu, hl] at h; cases h
    | ok l =>
      cases hc : normRange rc with
      | error err => rw [hu, hl, hc] at h; cases h
      | ok c =>
        cases hd : normRangeD rd with
        | error err => rw [hu, hl, hc, hd] at h; cases h
        | ok d =>
          rw [hu, hl, hc, hd] at h
          cases Except.ok.inj h
          exact ⟨rfl, rfl, rfl, rfl, rfl, rfl⟩

/-- **C48.** The enumerator ends normally; the parameters it yields are exactly the tuples with every entry in its
documented range, `l ≠ 0`, `d ≠ 0` and `|c| < |d|`, each once (if no range is an iterable with repetitions), in each
case with an evaluator of the documented value; `len()` is an upper bound. -/
theorem C48_ulcd_enumeration {ru rl rc rd : RangeSpec} {x : ℚ} {e : UlcdEnum} (h : UlcdEnum.init ru rl rc rd x = .ok e)
    (hx : x ≠ 0) :
    e.generator.2 = .ok () ∧
    (∀ p, p ∈ e.generator.1.map Ulcd.params ↔ rangeMem false ru p.1 ∧ rangeMem false rl p.2.1 ∧ rangeMem false rc p.2.2.1 ∧
      rangeMem true rd p.2.2.2 ∧ p.2.1 ≠ 0 ∧ p.2.2.2 ≠ 0 ∧ |p.2.2.1| < |p.2.2.2|) ∧
    (NoRep ru → NoRep rl → NoRep rc → NoRep rd → (e.generator.1.map Ulcd.params).Nodup) ∧
    (∀ s ∈ e.generator.1, s.x = x ∧ s.val = ulcdExpr s.params x) ∧
    e.generator.1.length ≤ e.iterLen := by
  obtain ⟨hu, hl, hc, hd, he, hlen⟩ := UlcdEnum.init_ok h
  have hgen : e.generator = (((product4 e.u e.l e.c e.d).filter keepUlcd).map fun p => ⟨p, x, ulcdExpr p x⟩, .ok ()) := by
    rw [UlcdEnum.generator, Ulcd.init, he, ulcdVal_eq hx (p := (1, 1, 1, 1)) ⟨by decide, by decide⟩]
    exact ulcdLoop_spec hx _ _ rfl
  have hpar : e.generator.1.map Ulcd.params = (product4 e.u e.l e.c e.d).filter keepUlcd := by
    rw [hgen, List.map_map]; exact List.map_id _
  refine ⟨by rw [hgen], ?_, ?_, ?_, ?_⟩
  · intro p
    rw [hpar, List.mem_filter, mem_product4, mem_normRange hu, mem_normRange hl, mem_normRange hc, mem_normRangeD hd,
      keepUlcd, decide_eq_true_eq]
    tauto
  · intro n1 n2 n3 n4
    rw [hpar]
    exact (nodup_product4 (normRange_nodup n1 hu) (normRange_nodup n2 hl) (normRange_nodup n3 hc)
      (normRangeD_nodup n4 hd)).filter _
  · intro s hs
    rw [hgen] at hs
    obtain ⟨p, -, rfl⟩ := List.mem_map.1 hs
    exact ⟨rfl, rfl⟩
  · rw [hgen, hlen, ← length_product4, List.length_map]
    exact List.length_filter_le _ _

/-- **C48 (nothing is lost up to an integer).** Every legal tuple agrees, at every constant, up to an integer with a
tuple that only differs in `c` and satisfies `|c| < |d|`. -/
theorem C48_up_to_integer (u l c d : ℤ) (hd : d ≠ 0) :
    ∃ c' k : ℤ, |c'| < |d| ∧ ∀ x : ℚ, ulcdExpr (u, l, c, d) x = ulcdExpr (u, l, c', d) x + k := by
  refine ⟨c % d, c / d, ?_, ?_⟩
  · rw [abs_of_nonneg (Int.emod_nonneg c hd)]
    exact Int.emod_lt_abs c hd
  · intro x
    have hdq : (d : ℚ) ≠ 0 := by exact_mod_cast hd
    have h : (c : ℚ) = (c % d : ℤ) + d * (c / d : ℤ) := by exact_mod_cast (Int.emod_add_mul_ediv c d).symm
    simp only [ulcdExpr]
    rw [h]
    field_simp
    ring

example : ∃ e, UlcdEnum.init (.num 1) (.two 1 3) (.three 0 4 2) (.num 3) 2 = .ok e ∧
    e.generator.1.map Ulcd.params = [(-1, 1, 0, 1), (-1, 1, 0, 2), (-1, 1, 0, 3), (-1, 1, 2, 3), (-1, 2, 0, 1), (-1, 2, 0, 2),
      (-1, 2, 0, 3), (-1, 2, 2, 3), (0, 1, 0, 1), (0, 1, 0, 2), (0, 1, 0, 3), (0, 1, 2, 3), (0, 2, 0, 1), (0, 2, 0, 2),
      (0, 2, 0, 3), (0, 2, 2, 3), (1, 1, 0, 1), (1, 1, 0, 2), (1, 1, 0, 3), (1, 1, 2, 3), (1, 2, 0, 1), (1, 2, 0, 2),
      (1, 2, 0, 3), (1, 2, 2, 3)] ∧ e.iterLen = 36 :=
  ⟨_, rfl, by decide +kernel, rfl⟩

end PiCF
