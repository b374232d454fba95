import Mathlib.Algebra.Polynomial.Degree.Operations
import Mathlib.Tactic.NormNum
import Verif.Lemmas.RationalFunc
import Verif.Props.Ulcd

/-!
# C43, C44, C47, C49 and the rational function parts of C45, C50
-/

namespace PiCF
open PiCF.Spec PiCF.Lhs PiCF.EnumPoly PiCF.ContFrac Polynomial

theorem ofCoeffs_eq_polyOf (l : List ℤ) : ofCoeffs l = polyOf l := by
  ext i
  rw [coeff_ofCoeffs, polyOf, finsetSum_coeff]
  simp only [coeff_C_mul_X_pow]
  rw [Finset.sum_ite_eq]
  split
  · rfl
  · rename_i h
    rw [Finset.mem_range, not_lt] at h
    exact List.getD_eq_default _ _ h

/-- The method called by an operation. -/
noncomputable def rfCall : LhsOp → PyM RF Unit
  | .flip => RF.flipSign
  | .add n => RF.addInt n
  | .canon => RF.canonalizeParams

/-- A sequence of calls. -/
noncomputable def rfRun : List LhsOp → PyM RF Unit
  | [] => pure ()
  | op :: ops => do
    rfCall op
    rfRun ops

/-- Legal parameters: coefficient lists that are not empty, and a denominator that is not the zero polynomial. -/
def RfLegal (p : List ℤ × List ℤ × ℤ) : Prop := p.1 ≠ [] ∧ ∃ c ∈ p.2.1, c ≠ 0

/-- The documented effect on a value that may be NaN. -/
def numEffect (op : LhsOp) : Num → Num
  | .fin v => .fin (op.effect v)
  | .inf => .inf
  | .nan => .nan

theorem RF.flipSign_val {s : RF} (h : s.Inv) : ∃ s', RF.flipSign s = (s', .ok ()) ∧ s'.Inv ∧ s'.x = s.x ∧
    s'.params = (s'.num, s'.den, s'.added) ∧ s'.val = numEffect .flip s.val := by
  obtain ⟨s', e, i, hx, hp, h1, h2, h3⟩ := RF.flipSign_inv h
  refine ⟨s', e, i, hx, hp, ?_⟩
  rw [i.val, h.val, RF.calcVal_eq, RF.calcVal_eq, h1, h2, h3, hx, RF.ofCoeffs_neg]
  have : (toQ (-ofCoeffs s.den)).eval s.x = -(toQ (ofCoeffs s.den)).eval s.x := by simp [toQ]
  rw [this]
  simp only [neg_eq_zero]
  split
  · rfl
  · rw [numEffect, LhsOp.effect, div_neg]
    push_cast
    congr 1
    ring

theorem RF.addInt_val {s : RF} (h : s.Inv) (n : ℤ) : ∃ s', RF.addInt n s = (s', .ok ()) ∧ s'.Inv ∧ s'.x = s.x ∧
    s'.params = (s'.num, s'.den, s'.added) ∧ s'.val = numEffect (.add n) s.val := by
  obtain ⟨s', e, i, hx, hp, h1, h2, h3⟩ := RF.addInt_inv h n
  refine ⟨s', e, i, hx, hp, ?_⟩
  rw [i.val, h.val, RF.calcVal_eq, RF.calcVal_eq, h1, h2, h3, hx]
  split
  · rfl
  · rw [numEffect, LhsOp.effect]
    push_cast
    congr 1
    ring

/-- `v` is an integer. -/
def IsInteger (v : ℚ) : Prop := ∃ k : ℤ, v = k

theorem RF.canon_val {s : RF} (h : s.Inv) : ∃ s', RF.canonalizeParams s = (s', .ok ()) ∧ s'.Inv ∧ s'.x = s.x ∧
    s'.params = (s'.num, s'.den, s'.added) ∧
    (∀ v, s.val = .fin v → s'.val = .fin v ∨ (s'.val = .nan ∧ IsInteger v)) ∧
    (s.val = .nan → s'.val = .nan ∨ ((toQ (ofCoeffs s.num)).eval s.x = 0 ∧ (toQ (ofCoeffs s.den)).eval s.x = 0)
      ∨ (toQ (ofCoeffs s.num)).eval s.x = 0 ∧ s'.val = .fin s.added) := by
  obtain ⟨s', n, d, e, i, hx, hp, hn, hd, hd0, h1, h2, h3⟩ := RF.canonalizeParams_eq h
  refine ⟨s', e, i, hx, hp, ?_⟩
  set k := ⌈(toQ n / toQ d).coeff 0⌉
  set g := polyGcd (ofCoeffs s.num) (ofCoeffs s.den)
  have e1 : (toQ (ofCoeffs s.num)).eval s.x = (toQ g).eval s.x * (toQ n).eval s.x := by rw [hn, toQ_mul, eval_mul]
  have e2 : (toQ (ofCoeffs s.den)).eval s.x = (toQ g).eval s.x * (toQ d).eval s.x := by rw [hd, toQ_mul, eval_mul]
  have e3 : (toQ (ofCoeffs s'.num)).eval s.x = (toQ n).eval s.x - k * (toQ d).eval s.x := by
    rw [h2, ofCoeffs_sympoly2poly, toQ_sub, toQ_mul, toQ_C, eval_sub, eval_mul, eval_C]
  have e4 : (toQ (ofCoeffs s'.den)).eval s.x = (toQ d).eval s.x := by rw [h3, ofCoeffs_sympoly2poly]
  rw [i.val, h.val, RF.calcVal_eq, RF.calcVal_eq, hx, e1, e2, e3, e4, h1]
  set G := (toQ g).eval s.x
  set N := (toQ n).eval s.x
  set D := (toQ d).eval s.x
  constructor
  · intro v hv
    split at hv
    · cases hv
    · rename_i hne
      simp only [not_or, mul_eq_zero] at hne
      obtain ⟨⟨hG, hD⟩, ⟨-, hN⟩⟩ := hne
      cases hv
      by_cases h0 : N - k * D = 0
      · right
        refine ⟨if_pos (.inr h0), k + s.added, ?_⟩
        have : N = k * D := by linarith
        rw [this]
        push_cast
        field_simp
      · left
        rw [if_neg (by simp [hD, h0])]
        congr 1
        push_cast
        field_simp
        ring
  · intro hv
    split at hv
    · rename_i hz
      simp only [mul_eq_zero] at hz ⊢
      by_cases hG : G = 0
      · exact .inr (.inl ⟨.inl hG, .inl hG⟩)
      · rcases hz with (h0 | hD) | (h0 | hN)
        · exact absurd h0 hG
        · left; rw [if_pos (.inl hD)]
        · exact absurd h0 hG
        · by_cases hD : D = 0
          · left; rw [if_pos (.inl hD)]
          · by_cases hk : N - k * D = 0
            · left; rw [if_pos (.inr hk)]
            · right; right
              refine ⟨.inr hN, ?_⟩
              rw [if_neg (by simp [hD, hk]), hN]
              congr 1
              push_cast
              field_simp
              ring
    · cases hv

/-- Reachable states satisfy the invariants. -/
theorem rfRun_inv (ops : List LhsOp) : ∀ {s : RF}, s.Inv → ∃ s', rfRun ops s = (s', .ok ()) ∧ s'.Inv ∧ s'.x = s.x ∧
    (s.params = (s.num, s.den, s.added) → s'.params = (s'.num, s'.den, s'.added)) ∧
    (ops ≠ [] → s'.params = (s'.num, s'.den, s'.added)) := by
  induction ops with
  | nil => intro s h; exact ⟨s, rfl, h, rfl, id, fun h => absurd rfl h⟩
  | cons op ops ih =>
    intro s h
    have : ∃ s1, rfCall op s = (s1, .ok ()) ∧ s1.Inv ∧ s1.x = s.x ∧ s1.params = (s1.num, s1.den, s1.added) := by
      cases op with
      | flip => obtain ⟨s1, a, b, c, d, -⟩ := RF.flipSign_val h; exact ⟨s1, a, b, c, d⟩
      | add n => obtain ⟨s1, a, b, c, d, -⟩ := RF.addInt_val h n; exact ⟨s1, a, b, c, d⟩
      | canon => obtain ⟨s1, a, b, c, d, -⟩ := RF.canon_val h; exact ⟨s1, a, b, c, d⟩
    obtain ⟨s1, e1, h1, x1, p1⟩ := this
    obtain ⟨s2, e2, h2, x2, p2, -⟩ := ih h1
    exact ⟨s2, by rw [rfRun, PyM.bind_ok e1, e2], h2, x2.trans x1, fun _ => p2 p1, fun _ => p2 p1⟩

/-! ### C43 -/

/-- **C43.** For an evaluator with legal parameters, any sequence of `flip_sign`, `add_int`, `canonalize_params` calls
succeeds, and at any point reached in this way `flip_sign()` negates the value and `add_int(n)` adds exactly `n` (NaN
stays NaN). -/
theorem C43_rational_calls {p : List ℤ × List ℤ × ℤ} (hp : RfLegal p) (x : ℚ) (ops : List LhsOp) :
    ∃ s, rfRun ops (RF.init p x) = (s, .ok ()) ∧
      (∃ s', RF.flipSign s = (s', .ok ()) ∧ s'.val = numEffect .flip s.val) ∧
      (∀ n, ∃ s', RF.addInt n s = (s', .ok ()) ∧ s'.val = numEffect (.add n) s.val) := by
  obtain ⟨s, e, h, -⟩ := rfRun_inv ops (RF.init_inv (x := x) hp.1 hp.2)
  refine ⟨s, e, ?_, fun n => ?_⟩
  · obtain ⟨s', a, -, -, -, b⟩ := RF.flipSign_val h; exact ⟨s', a, b⟩
  · obtain ⟨s', a, -, -, -, b⟩ := RF.addInt_val h n; exact ⟨s', a, b⟩

theorem effect_not_integer (op : LhsOp) {v : ℚ} (h : ¬ IsInteger v) : ¬ IsInteger (op.effect v) := by
  rintro ⟨k, hk⟩
  apply h
  cases op with
  | flip => exact ⟨-k, by push_cast; rw [← hk]; simp [LhsOp.effect]⟩
  | add n => exact ⟨k - n, by push_cast; rw [← hk]; simp [LhsOp.effect]⟩
  | canon => exact ⟨k, hk⟩

/-- **C43 (whole sequences).** If the value is not an integer (in particular not NaN), the value after any sequence of
calls is the initial one with the signs and integers applied in order. -/
theorem C43_rational_sequence (ops : List LhsOp) : ∀ {s : RF} {v : ℚ}, s.Inv → s.val = .fin v → ¬ IsInteger v →
    ∃ s', rfRun ops s = (s', .ok ()) ∧ s'.val = .fin (ops.foldl (fun v op => op.effect v) v) := by
  induction ops with
  | nil => intro s v _ hv _; exact ⟨s, rfl, hv⟩
  | cons op ops ih =>
    intro s v h hv hi
    have : ∃ s1, rfCall op s = (s1, .ok ()) ∧ s1.Inv ∧ s1.val = .fin (op.effect v) := by
      cases op with
      | flip =>
        obtain ⟨s1, a, b, -, -, c⟩ := RF.flipSign_val h
        exact ⟨s1, a, b, by rw [c, hv]; rfl⟩
      | add n =>
        obtain ⟨s1, a, b, -, -, c⟩ := RF.addInt_val h n
        exact ⟨s1, a, b, by rw [c, hv]; rfl⟩
      | canon =>
        obtain ⟨s1, a, b, -, -, c, -⟩ := RF.canon_val h
        exact ⟨s1, a, b, (c v hv).resolve_right fun h => hi h.2⟩
    obtain ⟨s1, e1, h1, v1⟩ := this
    obtain ⟨s2, e2, v2⟩ := ih h1 v1 (effect_not_integer op hi)
    exact ⟨s2, by rw [rfRun, PyM.bind_ok e1, e2], v2⟩

/-- `(1 + x)/(2 + x)` at 2, plus 5. -/
example : RfLegal ([1, 1], [2, 1], 5) ∧ (RF.init ([1, 1], [2, 1], 5) 2).val = .fin (23 / 4) ∧ ¬ IsInteger (23 / 4) := by
  refine ⟨⟨by simp, 2, by simp, by decide⟩, by decide +kernel, ?_⟩
  rintro ⟨k, hk⟩
  have : ((23 : ℤ) : ℚ) = ((4 * k : ℤ) : ℚ) := by push_cast; linarith
  have := Int.cast_injective this
  omega

/-! ### C44 -/

theorem coeff_zero_quotient (n d : ℤ[X]) (hd : d ≠ 0) (k : ℤ) :
    (toQ (n - C k * d) / toQ d).coeff 0 = (toQ n / toQ d).coeff 0 - k := by
  have h : toQ (n - C k * d) / toQ d = toQ n / toQ d - C (k : ℚ) := by
    have h1 := EuclideanDomain.div_add_mod (toQ n) (toQ d)
    have hd' := toQ_ne_zero hd
    have h2 := EuclideanDomain.div_add_mod (toQ (n - C k * d)) (toQ d)
    have h3 : toQ (n - C k * d) % toQ d = toQ n % toQ d := by
      apply mod_eq_of_dvd_sub
      rw [toQ_sub, toQ_mul]
      exact ⟨-toQ (C k), by ring⟩
    rw [h3] at h2
    have h4 : toQ (n - C k * d) = toQ n - C (k : ℚ) * toQ d := by rw [toQ_sub, toQ_mul, toQ_C]
    apply mul_left_cancel₀ hd'
    linear_combination h2 - h1 + h4
  rw [h, coeff_sub, coeff_C_zero]

/-- The canonical form is kept. -/
theorem RF.canon_idem {s : RF} (h : s.Inv) (hrel : IsRelPrime (ofCoeffs s.num) (ofCoeffs s.den))
    (hk : ⌈(toQ (ofCoeffs s.num) / toQ (ofCoeffs s.den)).coeff 0⌉ = 0) (hnum : ∃ q, s.num = sympoly2poly q)
    (hden : ∃ q, s.den = sympoly2poly q) :
    ∃ s', RF.canonalizeParams s = (s', .ok ()) ∧ s'.num = s.num ∧ s'.den = s.den ∧ s'.added = s.added ∧
      s'.params = (s.num, s.den, s.added) ∧ s'.val = s.val := by
  obtain ⟨s', n, d, e, i, hx, hp, hn, hd, hd0, h1, h2, h3⟩ := RF.canonalizeParams_eq h
  rw [polyGcd_eq_one hrel, one_mul] at hn hd
  rw [← hn, ← hd, hk] at h1 h2
  rw [← hd] at h3
  obtain ⟨q1, hq1⟩ := hnum
  obtain ⟨q2, hq2⟩ := hden
  have a1 : s'.num = s.num := by
    rw [h2, C_0, zero_mul, sub_zero, hq1, ofCoeffs_sympoly2poly]
  have a2 : s'.den = s.den := by rw [h3, hq2, ofCoeffs_sympoly2poly]
  have a3 : s'.added = s.added := by rw [h1, add_zero]
  refine ⟨s', e, a1, a2, a3, by rw [hp, a1, a2, a3], ?_⟩
  rw [i.val, h.val, a1, a2, a3, hx]

theorem isRelPrime_sub_mul {n d : ℤ[X]} (h : IsRelPrime n d) (k : ℤ[X]) : IsRelPrime (n - k * d) d := by
  intro c h1 h2
  refine h ?_ h2
  have := dvd_add h1 (Dvd.dvd.mul_left h2 k)
  rwa [sub_add_cancel] at this

/-- **C44 (partial).** For legal parameters and after any sequence of calls, `canonalize_params()` succeeds and
(1) describes the same rational function: `(num + added * den) / den` is unchanged as a fraction of polynomials;
(2) the new fraction is reduced: every common divisor of numerator and denominator in `ℤ[X]` is a unit;
(3) applying it again changes nothing;
(4) the value is unchanged if it is a number that is not an integer.
Missing from the full statement: integer values, which can become NaN (see `C44_canonical_violated`). -/
theorem C44_canonical_partial {p : List ℤ × List ℤ × ℤ} (hp : RfLegal p) (x : ℚ) (ops : List LhsOp) :
    ∃ s s' s'', rfRun ops (RF.init p x) = (s, .ok ()) ∧ RF.canonalizeParams s = (s', .ok ()) ∧
      RF.canonalizeParams s' = (s'', .ok ()) ∧
      (polyOf s.num + C s.added * polyOf s.den) * polyOf s'.den = (polyOf s'.num + C s'.added * polyOf s'.den) * polyOf s.den ∧
      IsRelPrime (polyOf s'.num) (polyOf s'.den) ∧
      (s''.params = s'.params ∧ s''.num = s'.num ∧ s''.den = s'.den ∧ s''.added = s'.added ∧ s''.val = s'.val) ∧
      (∀ v, s.val = .fin v → s'.val = .fin v ∨ (s'.val = .nan ∧ IsInteger v)) := by
  obtain ⟨s, e, h, -⟩ := rfRun_inv ops (RF.init_inv (x := x) hp.1 hp.2)
  obtain ⟨s', n, d, e', i, hx, hpar, hn, hd, hd0, h1, h2, h3⟩ := RF.canonalizeParams_eq h
  obtain ⟨s₂, e₂, -, -, -, hval, -⟩ := RF.canon_val h
  rw [e'] at e₂
  cases e₂
  have hrel := isRelPrime_of_gcd h.den_ne hn hd
  set k := ⌈(toQ n / toQ d).coeff 0⌉ with hk
  have hnum : ofCoeffs s'.num = n - C k * d := by rw [h2, ofCoeffs_sympoly2poly]
  have hden : ofCoeffs s'.den = d := by rw [h3, ofCoeffs_sympoly2poly]
  have hrel' : IsRelPrime (ofCoeffs s'.num) (ofCoeffs s'.den) := by
    rw [hnum, hden]; exact isRelPrime_sub_mul hrel _
  obtain ⟨s'', e'', a1, a2, a3, a4, a5⟩ := RF.canon_idem i hrel' (by
    rw [hnum, hden, coeff_zero_quotient n d hd0 k]
    rw [Int.ceil_sub_intCast, ← hk, sub_self]) ⟨_, h2⟩ ⟨_, h3⟩
  refine ⟨s, s', s'', e, e', e'', ?_, ?_, ⟨by rw [a4, hpar], a1, a2, a3, a5⟩, hval⟩
  · simp only [← ofCoeffs_eq_polyOf]
    rw [hnum, hden, hd, h1]
    generalize hG : polyGcd (ofCoeffs s.num) (ofCoeffs s.den) = g at hn
    rw [hn, C_add]
    ring
  · rw [← ofCoeffs_eq_polyOf, ← ofCoeffs_eq_polyOf]; exact hrel'

theorem canon_two : ∃ s', RF.canonalizeParams (RF.init ([2], [1], 0) 3) = (s', .ok ()) ∧ s'.val = .nan := by
  have hi : (RF.init ([2], [1], 0) 3).Inv := RF.init_inv (by simp) ⟨1, by simp, by decide⟩
  obtain ⟨s', n, d, e, i, hx, hpar, hn, hd, hd0, h1, h2, h3⟩ := RF.canonalizeParams_eq hi
  refine ⟨s', e, ?_⟩
  have c2 : ofCoeffs (RF.init ([2], [1], 0) 3).num = C 2 := by simp [RF.init, ofCoeffs]
  have c1 : ofCoeffs (RF.init ([2], [1], 0) 3).den = 1 := by simp [RF.init, ofCoeffs]
  rw [c2, c1, polyGcd_eq_one isRelPrime_one_right, one_mul] at hn hd
  subst hn
  subst hd
  have hk : ⌈(toQ (C 2) / toQ (1 : ℤ[X])).coeff 0⌉ = 2 := by
    rw [toQ_C, show toQ 1 = 1 by simp [toQ], EuclideanDomain.div_one, coeff_C_zero]
    simp
  rw [hk, mul_one, sub_self] at h2
  rw [i.val, RF.calcVal_eq, h2, ofCoeffs_sympoly2poly, toQ_zero, eval_zero]
  exact if_pos (.inr rfl)

/-- **C44 (negated).** Canonicalising the constant `2/1` turns the value 2 into NaN: the numerator becomes `[0]`, the
added integer 2, and a zero numerator evaluates to NaN. -/
theorem C44_canonical_violated :
    (RF.init ([2], [1], 0) 3).val = .fin 2 ∧
    ∃ s', RF.canonalizeParams (RF.init ([2], [1], 0) 3) = (s', .ok ()) ∧ s'.val = .nan :=
  ⟨by decide +kernel, canon_two⟩

/-! ### C45, rational function part -/

theorem natDegree_zero_of_dvd_C {p : ℤ[X]} {c : ℤ} (hc : c ≠ 0) (h : p ∣ C c) : p.natDegree = 0 := by
  obtain ⟨q, hq⟩ := h
  have hne : C c ≠ 0 := C_ne_zero.2 hc
  have hp : p ≠ 0 := by rintro rfl; rw [zero_mul] at hq; exact hne hq
  have hq0 : q ≠ 0 := by rintro rfl; rw [mul_zero] at hq; exact hne hq
  have := congrArg natDegree hq
  rw [natDegree_C, natDegree_mul hp hq0] at this
  omega

/-- **C45 (partial: rational functions).** `is_degenerate()` of a rational function LHS never raises for legal parameters
and is True exactly if the rational function is constant.  Missing: the ULCD part is false, see
`C45_ulcd_degenerate_violated`. -/
theorem C45_rational_degenerate_partial {p : List ℤ × List ℤ × ℤ} (hp : RfLegal p) (x : ℚ) (ops : List LhsOp) :
    ∃ s s' b, rfRun ops (RF.init p x) = (s, .ok ()) ∧ RF.isDegenerate s = (s', .ok b) ∧
      (b = true ↔ IsConstantFunc s.num s.den) := by
  obtain ⟨s, e, h, -⟩ := rfRun_inv ops (RF.init_inv (x := x) hp.1 hp.2)
  obtain ⟨s', n, d, e', i, hx, hpar, hn, hd, hd0, h1, h2, h3⟩ := RF.canonalizeParams_eq h
  refine ⟨s, s', decide ((s'.num.length = 1 ∧ s'.den.length = 1) ∨ s'.num.length = 0 ∨ s'.num = [0]), e, ?_, ?_⟩
  · rw [RF.isDegenerate, PyM.bind_ok e']; rfl
  rw [decide_eq_true_eq, IsConstantFunc, ← ofCoeffs_eq_polyOf, ← ofCoeffs_eq_polyOf]
  have hrel := isRelPrime_of_gcd h.den_ne hn hd
  set k := ⌈(toQ n / toQ d).coeff 0⌉
  have hg0 := polyGcd_ne_zero (p := ofCoeffs s.num) h.den_ne
  set g := polyGcd (ofCoeffs s.num) (ofCoeffs s.den)
  have hnum : ofCoeffs s'.num = n - C k * d := by rw [h2, ofCoeffs_sympoly2poly]
  have hl : s'.num.length = (n - C k * d).natDegree + 1 := by rw [h2, length_sympoly2poly]
  have hl' : s'.den.length = d.natDegree + 1 := by rw [h3, length_sympoly2poly]
  have hconst : (∃ a b : ℤ, b ≠ 0 ∧ C b * ofCoeffs s.num = C a * ofCoeffs s.den) ↔ ∃ a b : ℤ, b ≠ 0 ∧ C b * n = C a * d := by
    refine exists_congr fun a => exists_congr fun b => and_congr_right fun _ => ?_
    rw [hn, hd]
    constructor
    · intro e
      apply mul_left_cancel₀ hg0
      linear_combination e
    · intro e
      linear_combination g * e
  rw [hconst]
  constructor
  · rintro (⟨a1, a2⟩ | a1 | a1)
    · have d1 : (n - C k * d).natDegree = 0 := by omega
      have d2 : d.natDegree = 0 := by omega
      obtain ⟨u, hu⟩ := natDegree_eq_zero.1 d1
      obtain ⟨v, hv⟩ := natDegree_eq_zero.1 d2
      refine ⟨u + k * v, v, ?_, ?_⟩
      · rintro rfl; exact hd0 (by rw [← hv]; simp)
      · have : n = C u + C k * d := by rw [hu]; ring
        rw [this, ← hv, C_add, C_mul]
        ring
    · omega
    · have : n - C k * d = 0 := by rw [← hnum, a1]; simp [ofCoeffs]
      exact ⟨k, 1, one_ne_zero, by rw [C_1, one_mul]; exact sub_eq_zero.1 this⟩
  · rintro ⟨a, b, hb, hab⟩
    by_cases ha : a = 0
    · subst ha
      rw [C_0, zero_mul, mul_eq_zero] at hab
      have hn0 : n = 0 := hab.resolve_left (C_ne_zero.2 hb)
      left
      subst hn0
      have hdu : d.natDegree = 0 := by
        have hu : IsUnit d := hrel (dvd_zero d) dvd_rfl
        exact natDegree_eq_zero_of_isUnit hu
      refine ⟨?_, by omega⟩
      rw [hl, zero_sub, natDegree_neg]
      obtain ⟨v, hv⟩ := natDegree_eq_zero.1 hdu
      rw [← hv, ← C_mul, natDegree_C]
    · have hdn : d.natDegree = 0 := by
        apply natDegree_zero_of_dvd_C hb
        exact IsRelPrime.dvd_of_dvd_mul_right hrel.symm ⟨C a, by rw [hab, mul_comm]⟩
      have hnn : n.natDegree = 0 := by
        apply natDegree_zero_of_dvd_C ha
        exact IsRelPrime.dvd_of_dvd_mul_right hrel ⟨C b, by rw [← hab, mul_comm]⟩
      left
      refine ⟨?_, by omega⟩
      obtain ⟨u, hu⟩ := natDegree_eq_zero.1 hnn
      obtain ⟨v, hv⟩ := natDegree_eq_zero.1 hdn
      rw [hl, ← hu, ← hv, ← C_mul, ← C_sub, natDegree_C]

/-- `(2 + 2x)/(1 + x)` is constant, `x/1` is not. -/
example : IsConstantFunc [2, 2] [1, 1] ∧ ¬ IsConstantFunc [0, 1] [1] := by
  simp only [IsConstantFunc, ← ofCoeffs_eq_polyOf]
  constructor
  · refine ⟨2, 1, by decide, ?_⟩
    simp only [ofCoeffs, C_1]
    rw [show (C 2 : ℤ[X]) = 2 from rfl]
    ring
  · rintro ⟨a, b, hb, h⟩
    have := congrArg (fun q => coeff q 1) h
    simp only [ofCoeffs] at this
    rw [coeff_C_mul, coeff_C_mul] at this
    simp [coeff_one, coeff_X, -eq_intCast] at this
    exact hb this

/-! ### C47 -/

theorem rfIsEquiv_run {s1 s2 : RF} (h1 : s1.Inv) (h2 : s2.Inv) (a1 b1 a2 b2 : Polys) (post : ℕ) :
    ∃ s1' s2' n1 d1 n2 d2 k1 k2, RF.canonalizeParams s1 = (s1', .ok ()) ∧ RF.canonalizeParams s2 = (s2', .ok ()) ∧
      ofCoeffs s1.num = polyGcd (ofCoeffs s1.num) (ofCoeffs s1.den) * n1 ∧
      ofCoeffs s1.den = polyGcd (ofCoeffs s1.num) (ofCoeffs s1.den) * d1 ∧
      ofCoeffs s2.num = polyGcd (ofCoeffs s2.num) (ofCoeffs s2.den) * n2 ∧
      ofCoeffs s2.den = polyGcd (ofCoeffs s2.num) (ofCoeffs s2.den) * d2 ∧ d1 ≠ 0 ∧ d2 ≠ 0 ∧
      k1 = ⌈(toQ n1 / toQ d1).coeff 0⌉ ∧ k2 = ⌈(toQ n2 / toQ d2).coeff 0⌉ ∧
      s1'.den = sympoly2poly d1 ∧ s2'.den = sympoly2poly d2 ∧
      ∃ q1 r1 q2 r2, rrDiv (n1 - C k1 * d1) d1 = .ok (q1, r1) ∧ rrDiv (n2 - C k2 * d2) d2 = .ok (q2, r2) ∧
        ∃ b, (rfIsEquiv a1 b1 s1 post a2 b2 s2 post).2.2 = .ok b ∧
          (b = true ↔ b1 = b2 ∧ (a1 = a2 ∨ a1 = negTuple a2) ∧ q1 - C (q1.eval 0) = q2 - C (q2.eval 0) ∧ r1 = r2) := by
  obtain ⟨t1, n1, d1, e1, i1, -, -, hn1, hd1, hd1', -, p1, p1'⟩ := RF.canonalizeParams_eq h1
  obtain ⟨t2, n2, d2, e2, i2, -, -, hn2, hd2, hd2', -, p2, p2'⟩ := RF.canonalizeParams_eq h2
  refine ⟨t1, t2, n1, d1, n2, d2, _, _, e1, e2, hn1, hd1, hn2, hd2, hd1', hd2', rfl, rfl, p1', p2', ?_⟩
  obtain ⟨u1, f1, j1, -, g1, g1', -⟩ := RF.numeratorSym_eq i1
  obtain ⟨v1, f1', -⟩ := RF.denominatorSym_eq j1
  obtain ⟨u2, f2, j2, -, g2, g2', -⟩ := RF.numeratorSym_eq i2
  obtain ⟨v2, f2', -⟩ := RF.denominatorSym_eq j2
  rw [g1', p1', ofCoeffs_sympoly2poly] at f1'
  rw [g2', p2', ofCoeffs_sympoly2poly] at f2'
  rw [p1, ofCoeffs_sympoly2poly] at f1
  rw [p2, ofCoeffs_sympoly2poly] at f2
  have hinv : inversePair post post = false := by simp [inversePair]
  obtain ⟨⟨q1, r1⟩, hq1⟩ : ∃ qr, rrDiv (n1 - C ⌈(toQ n1 / toQ d1).coeff 0⌉ * d1) d1 = .ok qr := by
    rw [rrDiv, if_neg hd1']; exact ⟨_, rfl⟩
  obtain ⟨⟨q2, r2⟩, hq2⟩ : ∃ qr, rrDiv (n2 - C ⌈(toQ n2 / toQ d2).coeff 0⌉ * d2) d2 = .ok qr := by
    rw [rrDiv, if_neg hd2']; exact ⟨_, rfl⟩
  refine ⟨q1, r1, q2, r2, hq1, hq2, ?_⟩
  classical
  refine ⟨decide (b1 = b2 ∧ (a1 = a2 ∨ a1 = negTuple a2) ∧ q1 - C (q1.eval 0) = q2 - C (q2.eval 0) ∧ r1 = r2), ?_, ?_⟩
  · rw [rfIsEquiv, if_neg (by simp)]
    simp only [e1, e2, f1, f1', hq1, f2, f2', hinv, Bool.false_eq_true, if_false, hq2]
  · rw [decide_eq_true_eq]

/-- **C47 (partial).** If two rational function results with the same post-processing function are reported equivalent
and their reduced denominators are the same, then the rational functions differ by a constant (and the continued
fractions agree up to sign at every depth).
Missing: different reduced denominators, for which the claim is false (`C47_equivalence_violated`). -/
theorem C47_equivalence_partial {p1 p2 : List ℤ × List ℤ × ℤ} (hp1 : RfLegal p1) (hp2 : RfLegal p2) (x : ℚ)
    (a1 b1 a2 b2 : Polys) (post : ℕ)
    (h : (rfIsEquiv a1 b1 (RF.init p1 x) post a2 b2 (RF.init p2 x) post).2.2 = .ok true)
    (hden : (RF.canonalizeParams (RF.init p1 x)).1.den = (RF.canonalizeParams (RF.init p2 x)).1.den) :
    DifferByConstant p1.1 p1.2.1 p2.1 p2.2.1 ∧ SameUpToSign a1 b1 a2 b2 := by
  obtain ⟨t1, t2, n1, d1, n2, d2, k1, k2, e1, e2, hn1, hd1, hn2, hd2, hd1', hd2', -, -, p1', p2', q1, r1, q2, r2, hq1, hq2,
    b, hb, hiff⟩ := rfIsEquiv_run (RF.init_inv (x := x) hp1.1 hp1.2) (RF.init_inv (x := x) hp2.1 hp2.2) a1 b1 a2 b2 post
  rw [h] at hb
  cases Except.ok.inj hb
  obtain ⟨hbb, haa, hq, hr⟩ := hiff.1 rfl
  rw [e1, e2] at hden
  have hdd : d1 = d2 := by
    have := congrArg ofCoeffs hden
    rwa [p1', p2', ofCoeffs_sympoly2poly, ofCoeffs_sympoly2poly] at this
  have i1 := rrDiv_identity hq1
  have i2 := rrDiv_identity hq2
  constructor
  · refine ⟨q1.eval 0 - q2.eval 0 + k1 - k2, 1, one_ne_zero, ?_⟩
    simp only [← ofCoeffs_eq_polyOf]
    change ofCoeffs p1.1 = polyGcd (ofCoeffs p1.1) (ofCoeffs p1.2.1) * n1 at hn1
    change ofCoeffs p1.2.1 = polyGcd (ofCoeffs p1.1) (ofCoeffs p1.2.1) * d1 at hd1
    change ofCoeffs p2.1 = polyGcd (ofCoeffs p2.1) (ofCoeffs p2.2.1) * n2 at hn2
    change ofCoeffs p2.2.1 = polyGcd (ofCoeffs p2.1) (ofCoeffs p2.2.1) * d2 at hd2
    generalize polyGcd (ofCoeffs p1.1) (ofCoeffs p1.2.1) = g1 at hn1 hd1
    generalize polyGcd (ofCoeffs p2.1) (ofCoeffs p2.2.1) = g2 at hn2 hd2
    rw [hn1, hd1, hn2, hd2]
    subst hdd
    subst hr
    rw [C_1, one_mul, C_sub, C_add, C_sub]
    linear_combination (g1 * g2 * d1) * (i1 - i2) + g1 * g2 * d1 * d1 * hq
  · rw [hbb]
    rcases haa with haa | haa
    · rw [haa]; exact sameUpToSign_refl _ _
    · rw [haa]; exact sameUpToSign_neg _ _

theorem one_div_linear (c : ℤ) (x : ℚ) : ∃ s', RF.canonalizeParams (RF.init ([1], [c, 1], 0) x) = (s', .ok ()) ∧
    s'.den = [c, 1] ∧ ∀ n d k, ofCoeffs [1] = polyGcd (ofCoeffs [1]) (ofCoeffs [c, 1]) * n →
      ofCoeffs [c, 1] = polyGcd (ofCoeffs [1]) (ofCoeffs [c, 1]) * d → k = ⌈(toQ n / toQ d).coeff 0⌉ →
      rrDiv (n - C k * d) d = .ok (0, 1) := by
  have c1 : ofCoeffs [1] = 1 := by simp [ofCoeffs]
  have c2 : ofCoeffs [c, 1] = X + C c := by simp [ofCoeffs, add_comm]
  have hX : (X + C c : ℤ[X]) ≠ 0 := X_add_C_ne_zero c
  have hgcd : polyGcd (ofCoeffs [1]) (ofCoeffs [c, 1]) = 1 := by rw [c1]; exact polyGcd_eq_one isRelPrime_one_left
  have hdiv : (toQ (1 : ℤ[X]) / toQ (X + C c)) = 0 := by
    rw [Polynomial.div_eq_zero_iff (toQ_ne_zero hX)]
    have : toQ (X + C c) = X + C (c : ℚ) := by rw [toQ_add, toQ_C]; simp [toQ]
    rw [this, degree_X_add_C, show toQ (1 : ℤ[X]) = 1 by simp [toQ], degree_one]
    exact zero_lt_one
  have hrr : rrDiv (1 : ℤ[X]) (X + C c) = .ok (0, 1) := by
    rw [rrDiv, if_neg hX, natDegree_one, rrDivLoop, if_pos]
    right; left
    rw [natDegree_one, natDegree_X_add_C]
    exact zero_lt_one
  obtain ⟨s', n, d, e, i, hx, hpar, hn, hd, hd0, h1, h2, h3⟩ := RF.canonalizeParams_eq
    (RF.init_inv (p := ([1], [c, 1], 0)) (x := x) (by simp) ⟨1, by simp, by decide⟩)
  change ofCoeffs [1] = polyGcd (ofCoeffs [1]) (ofCoeffs [c, 1]) * n at hn
  change ofCoeffs [c, 1] = polyGcd (ofCoeffs [1]) (ofCoeffs [c, 1]) * d at hd
  rw [hgcd, one_mul] at hn hd
  refine ⟨s', e, ?_, ?_⟩
  · rw [h3, ← hd, c2, sympoly2poly, natDegree_X_add_C]
    simp [List.range_succ, coeff_X, coeff_C, -eq_intCast]
  · intro n d k hn hd hk
    rw [hgcd, one_mul] at hn hd
    rw [← hn, ← hd, c1, c2, hdiv, coeff_zero, Int.ceil_zero] at hk
    rw [hk, C_0, zero_mul, sub_zero, ← hn, ← hd, c1, c2, hrr]

/-- **C47 (negated).** `1/(1+x)` and `1/(2+x)` are reported equivalent (equal quotients and remainders; the denominators
are not compared), but their difference is not constant. -/
theorem C47_equivalence_violated :
    (rfIsEquiv [[1]] [[1]] (RF.init ([1], [1, 1], 0) 3) 0 [[1]] [[1]] (RF.init ([1], [2, 1], 0) 3) 0).2.2 = .ok true ∧
    ¬ DifferByConstant [1] [1, 1] [1] [2, 1] := by
  constructor
  · obtain ⟨t1, t2, n1, d1, n2, d2, k1, k2, e1, e2, hn1, hd1, hn2, hd2, hd1', hd2', hk1, hk2, p1', p2', q1, r1, q2, r2, hq1,
      hq2, b, hb, hiff⟩ := rfIsEquiv_run (RF.init_inv (p := ([1], [1, 1], 0)) (x := 3) (by simp) ⟨1, by simp, by decide⟩)
        (RF.init_inv (p := ([1], [2, 1], 0)) (x := 3) (by simp) ⟨1, by simp, by decide⟩) [[1]] [[1]] [[1]] [[1]] 0
    obtain ⟨-, -, -, f1⟩ := one_div_linear 1 3
    obtain ⟨-, -, -, f2⟩ := one_div_linear 2 3
    have g1 := f1 n1 d1 k1 hn1 hd1 hk1
    have g2 := f2 n2 d2 k2 hn2 hd2 hk2
    rw [hq1] at g1
    rw [hq2] at g2
    cases Except.ok.inj g1
    cases Except.ok.inj g2
    rw [hb, hiff.2 ⟨rfl, .inl rfl, rfl, rfl⟩]
  · simp only [DifferByConstant, ← ofCoeffs_eq_polyOf]
    rintro ⟨a, b, hb, h⟩
    have h1 := congrArg (fun q => eval (-1) q) h
    simp [ofCoeffs] at h1
    exact hb h1

/-- Two equivalent functions with the same denominator, `1/(1+x)` twice. -/
example : (rfIsEquiv [[1]] [[1]] (RF.init ([1], [1, 1], 0) 3) 0 [[1]] [[1]] (RF.init ([1], [1, 1], 0) 3) 0).2.2 = .ok true ∧
    (RF.canonalizeParams (RF.init ([1], [1, 1], 0) 3)).1.den = [1, 1] := by
  constructor
  · obtain ⟨t1, t2, n1, d1, n2, d2, k1, k2, e1, e2, hn1, hd1, hn2, hd2, hd1', hd2', hk1, hk2, p1', p2', q1, r1, q2, r2, hq1,
      hq2, b, hb, hiff⟩ := rfIsEquiv_run (RF.init_inv (p := ([1], [1, 1], 0)) (x := 3) (by simp) ⟨1, by simp, by decide⟩)
        (RF.init_inv (p := ([1], [1, 1], 0)) (x := 3) (by simp) ⟨1, by simp, by decide⟩) [[1]] [[1]] [[1]] [[1]] 0
    obtain ⟨-, -, -, f1⟩ := one_div_linear 1 3
    have g1 := f1 n1 d1 k1 hn1 hd1 hk1
    have g2 := f1 n2 d2 k2 hn2 hd2 hk2
    rw [hq1] at g1
    rw [hq2] at g2
    cases Except.ok.inj g1
    cases Except.ok.inj g2
    rw [hb, hiff.2 ⟨rfl, .inl rfl, rfl, rfl⟩]
  · obtain ⟨s', e, hd, -⟩ := one_div_linear 1 3
    rw [e]; exact hd

/-! ### C50, rational function part -/

/-- The value described by parameters `(num, den, added)` at `x`: `num(x)/den(x) + added`; NaN stands for a zero
numerator or denominator (these are the values the searches skip). -/
def rfDescribed (p : List ℤ × List ℤ × ℤ) (x : ℚ) : Num :=
  let n := horner (p.1.map (Int.cast : ℤ → ℚ)) x
  let d := horner (p.2.1.map (Int.cast : ℤ → ℚ)) x
  if n = 0 ∨ d = 0 then .nan else .fin (n / d + p.2.2)

theorem calcVal_described (n d : List ℤ) (a : ℤ) (x : ℚ) : RF.calcVal n d a x = rfDescribed (n, d, a) x := by
  rw [RF.calcVal, rfDescribed, Utils.subsInPolynom_eq_horner, Utils.subsInPolynom_eq_horner]
  simp only [or_comm]

/-- **C50 (partial).** (1) For the ULCD evaluator the full statement holds, see `C50_ulcd`.  (2) For a rational function
evaluator, after construction and any sequence of `flip_sign`, `add_int`, `canonalize_params`, the value is the one
described by the parameters, and a copy has the same parameters and value.  (3) The same holds after
`reinit_params` if at least one such call follows.
Missing: right after `reinit_params` the parameters of a rational function are those before the call
(`C50_params_violated`). -/
theorem C50_params_partial {p : List ℤ × List ℤ × ℤ} (hp : RfLegal p) (x : ℚ) (ops : List LhsOp) :
    (∃ s, rfRun ops (RF.init p x) = (s, .ok ()) ∧ s.val = rfDescribed s.params x ∧
      (RF.copy s).params = s.params ∧ (RF.copy s).val = s.val) ∧
    (∀ (p' : List ℤ × List ℤ × ℤ) (ops' : List LhsOp), RfLegal p' → ops' ≠ [] →
      ∃ s s' s'', rfRun ops (RF.init p x) = (s, .ok ()) ∧ RF.reinitParams p' s = (s', .ok ()) ∧
        rfRun ops' s' = (s'', .ok ()) ∧ s''.val = rfDescribed s''.params x ∧
        (RF.copy s'').params = s''.params ∧ (RF.copy s'').val = s''.val) := by
  have fin : ∀ s : RF, s.Inv → s.x = x → s.params = (s.num, s.den, s.added) →
      s.val = rfDescribed s.params x ∧ (RF.copy s).params = s.params ∧ (RF.copy s).val = s.val := by
    intro s h hx hp
    have hv : s.val = rfDescribed s.params x := by rw [h.val, calcVal_described, hp, hx]
    refine ⟨hv, rfl, ?_⟩
    show RF.calcVal s.params.1 s.params.2.1 s.params.2.2 s.x = s.val
    rw [calcVal_described, hv, hx]
  have h0 := RF.init_inv (x := x) hp.1 hp.2
  obtain ⟨s, e, h, hx, hpar, -⟩ := rfRun_inv ops h0
  have hps := hpar rfl
  constructor
  · exact ⟨s, e, fin s h hx hps⟩
  · intro p' ops' hp' hne
    have h' : (RF.reinitParams p' s).1.Inv :=
      ⟨nofun, nofun, rfl, rfl, hp'.1, (RF.ofCoeffs_ne_zero_iff _).2 hp'.2⟩
    obtain ⟨s'', e'', h'', hx'', -, hp''⟩ := rfRun_inv ops' h'
    exact ⟨s, (RF.reinitParams p' s).1, s'', e, rfl, e'', fin s'' h'' (hx''.trans hx) (hp'' hne)⟩

example : RfLegal ([1, 2], [3], 4) ∧ (RF.init ([1, 2], [3], 4) 2).val = .fin (17 / 3) :=
  ⟨⟨by simp, 3, by simp, by decide⟩, by decide +kernel⟩

/-- **C50 (negated).** After `reinit_params` the value (7) is that of the new parameters, `get_params()` still returns the
old ones (which describe 1), and a copy has the old value. -/
theorem C50_params_violated : ∃ s, RF.reinitParams ([7], [1], 0) (RF.init ([1], [1], 0) 3) = (s, .ok ()) ∧
    s.val = .fin 7 ∧ rfDescribed s.params 3 = .fin 1 ∧ (RF.copy s).val = .fin 1 :=
  ⟨_, rfl, by decide +kernel, by decide +kernel, by decide +kernel⟩

/-! ### C49 -/

theorem degreeLoop_dropWhile (p : Poly) : degreeLoop p p.length = (p.dropWhile (· == 0)).length := by
  induction p with
  | nil => rfl
  | cons c p ih =>
    rw [degreeLoop]
    by_cases hc : c = 0
    · rw [if_neg (by simpa using hc), List.dropWhile_cons_of_pos (by simp [hc]), ← ih]
      simp
    · rw [if_pos hc, List.dropWhile_cons_of_neg (by simpa using hc)]

theorem strippedLen_degree (p : List ℤ) : IsDegree p ((strippedLen p : ℤ) - 1) := by
  have := polynomDegree_spec p
  rw [polynomDegree, ← List.length_reverse (as := p), degreeLoop_dropWhile] at this
  exact this

/-- The conditions on a pair of coefficient lists. -/
def KeepPair (bigger : Bool) (x : ℚ) (n d : List ℤ) : Prop :=
  (∃ c ∈ n, c ≠ 0) ∧ (∃ c ∈ d, c ≠ 0) ∧
  (∀ dn dd, IsDegree n dn → IsDegree d dd → ¬ (dn ≤ 0 ∧ dd ≤ 0) ∧ (bigger = true → dd ≤ dn)) ∧
  horner (n.map (Int.cast : ℤ → ℚ)) x ≠ 0 ∧ horner (d.map (Int.cast : ℤ → ℚ)) x ≠ 0

theorem any_iff (l : List ℤ) : (!l.any (· != 0)) = true ↔ ¬ ∃ c ∈ l, c ≠ 0 := by
  simp

open Classical in
theorem body_eq (e : RFEnum) (n d : List ℤ) (hn : ∃ c ∈ n, c ≠ 0) :
    e.body n d = if KeepPair e.bigger e.x n d then [RF.init (n, d, 0) e.x] else [] := by
  rw [RFEnum.body]
  have hdn := strippedLen_degree n
  have hdd := strippedLen_degree d
  by_cases h1 : ∃ c ∈ d, c ≠ 0
  swap
  · rw [if_pos ((any_iff d).2 h1), if_neg fun h => h1 h.2.1]
  rw [if_neg fun h => (any_iff d).1 h h1]
  by_cases h2 : strippedLen n < 2 ∧ strippedLen d < 2
  · rw [if_pos h2, if_neg]
    intro h
    exact (h.2.2.1 _ _ hdn hdd).1 ⟨by omega, by omega⟩
  rw [if_neg h2]
  by_cases h3 : e.bigger = true ∧ strippedLen n < strippedLen d
  · rw [if_pos h3, if_neg]
    intro h
    have := (h.2.2.1 _ _ hdn hdd).2 h3.1
    omega
  rw [if_neg h3, Utils.subsInPolynom_eq_horner, Utils.subsInPolynom_eq_horner]
  by_cases h4 : horner (n.map (Int.cast : ℤ → ℚ)) e.x = 0 ∨ horner (d.map (Int.cast : ℤ → ℚ)) e.x = 0
  · rw [if_pos h4, if_neg]
    intro h
    rcases h4 with h4 | h4
    · exact h.2.2.2.1 h4
    · exact h.2.2.2.2 h4
  rw [if_neg h4, if_pos]
  simp only [not_or] at h4
  refine ⟨hn, h1, ?_, h4.1, h4.2⟩
  intro dn dd a b
  rw [isDegree_unique a hdn, isDegree_unique b hdd]
  refine ⟨fun h => h2 ⟨by omega, by omega⟩, fun hb => ?_⟩
  by_contra hlt
  exact h3 ⟨hb, by omega⟩

/-- Coefficients in half-open ranges. -/
def InRange (rs : List Rng) (p : List ℤ) : Prop := List.Forall₂ (fun r c => r.1 ≤ c ∧ c < r.2) rs p

theorem mem_coeffs (rs : List Rng) (p : List ℤ) : p ∈ product (rs.map pyRange) ↔ InRange rs p := by
  rw [mem_product, List.forall₂_map_left_iff, InRange]
  simp only [mem_pyRange]

theorem nodup_coeffs (rs : List Rng) : (product (rs.map pyRange)).Nodup := by
  apply nodup_product
  intro l hl
  obtain ⟨r, _, rfl⟩ := List.mem_map.1 hl
  exact nodup_pyRange r

theorem mem_generator (e : RFEnum) (s : RF) : s ∈ e.generator ↔
    ∃ n d, InRange e.num n ∧ InRange e.den d ∧ KeepPair e.bigger e.x n d ∧ s = RF.init (n, d, 0) e.x := by
  rw [RFEnum.generator, List.mem_flatMap]
  simp only [mem_coeffs]
  constructor
  · rintro ⟨n, hn, hs⟩
    by_cases h : ∃ c ∈ n, c ≠ 0
    · rw [if_neg fun h' => (any_iff n).1 h' h, List.mem_flatMap] at hs
      obtain ⟨d, hd, hs⟩ := hs
      rw [mem_coeffs] at hd
      rw [body_eq e n d h] at hs
      split at hs
      · rename_i hk
        exact ⟨n, d, hn, hd, hk, List.mem_singleton.1 hs⟩
      · simp at hs
    · rw [if_pos ((any_iff n).2 h)] at hs
      simp at hs
  · rintro ⟨n, d, hn, hd, hk, rfl⟩
    refine ⟨n, hn, ?_⟩
    rw [if_neg fun h' => (any_iff n).1 h' hk.1, List.mem_flatMap]
    refine ⟨d, (mem_coeffs _ _).2 hd, ?_⟩
    rw [body_eq e n d hk.1, if_pos hk]
    simp

/-- Number of combinations. -/
theorem reduceMul_eq (c : ℤ) (cs : List ℤ) : reduceMul (c :: cs) = .ok (c :: cs).prod := by
  rw [reduceMul]
  congr 1
  rw [List.prod_cons]
  induction cs generalizing c with
  | nil => simp
  | cons d cs ih => rw [List.foldl_cons, ih, List.prod_cons, mul_assoc]

theorem length_coeffs (rs : List Rng) (h : ∀ r ∈ rs, r.1 ≤ r.2) :
    ((product (rs.map pyRange)).length : ℤ) = (rs.map fun c => c.2 - c.1).prod := by
  rw [length_product]
  induction rs with
  | nil => rfl
  | cons r rs ih =>
    rw [List.map_cons, List.map_cons, List.prod_cons, List.map_cons, List.prod_cons, Nat.cast_mul,
      ih fun r hr => h r (by simp [hr]), length_pyRange]
    have := h r (by simp)
    congr 1
    omega

/-- **C49.** The enumerator yields exactly the pairs of coefficient lists in the ranges that are both non-zero, not both
constant, respect `force_bigger_numerator`, and are non-zero at the constant, each once, each as an evaluator with these
parameters and the documented value; `len()` is an upper bound. -/
theorem C49_rational_enumeration {num den : List Rng} {bigger : Bool} {x : ℚ} {e : RFEnum}
    (h : RFEnum.init num den bigger x = .ok e) :
    (∀ p, p ∈ e.generator.map RF.params ↔
      InRange num p.1 ∧ InRange den p.2.1 ∧ p.2.2 = 0 ∧ KeepPair bigger x p.1 p.2.1) ∧
    (e.generator.map RF.params).Nodup ∧
    (∀ s ∈ e.generator, s.val = .fin (horner (s.params.1.map (Int.cast : ℤ → ℚ)) x / horner (s.params.2.1.map (Int.cast : ℤ → ℚ)) x)) ∧
    ((∀ r ∈ num, r.1 ≤ r.2) → (∀ r ∈ den, r.1 ≤ r.2) → (e.generator.length : ℤ) ≤ e.iterLen) := by
  have hinit : e.num = num ∧ e.den = den ∧ e.bigger = bigger ∧ e.x = x ∧
      e.iterLen = (num.map fun c => c.2 - c.1).prod * (den.map fun c => c.2 - c.1).prod := by
    rw [RFEnum.init] at h
    match num, den with
    | [], _ => cases h
    | r :: num, [] => simp only [List.map_cons, reduceMul_eq, List.map_nil] at h; cases h
    | r :: num, r' :: den =>
      simp only [List.map_cons, reduceMul_eq] at h
      cases Except.ok.inj h
      exact ⟨rfl, rfl, rfl, rfl, by simp⟩
  obtain ⟨rfl, rfl, rfl, rfl, hlen⟩ := hinit
  refine ⟨?_, ?_, ?_, ?_⟩
  · intro p
    rw [List.mem_map]
    constructor
    · rintro ⟨s, hs, rfl⟩
      obtain ⟨n, d, hn, hd, hk, rfl⟩ := (mem_generator e s).1 hs
      exact ⟨hn, hd, rfl, hk⟩
    · obtain ⟨n, d, a⟩ := p
      rintro ⟨hn, hd, h0, hk⟩
      simp only at h0
      subst h0
      exact ⟨_, (mem_generator e _).2 ⟨n, d, hn, hd, hk, rfl⟩, rfl⟩
  · rw [RFEnum.generator, List.map_flatMap, List.nodup_flatMap]
    have hb : ∀ n d s, s ∈ e.body n d → s.params = (n, d, 0) := by
      intro n d s hs
      rw [RFEnum.body] at hs
      split at hs
      · simp at hs
      · split at hs
        · simp at hs
        · split at hs
          · simp at hs
          · split at hs
            · simp at hs
            · rw [List.mem_singleton.1 hs]; rfl
    constructor
    · intro n hn
      split
      · simp
      · rw [List.map_flatMap, List.nodup_flatMap]
        constructor
        · intro d _
          rw [RFEnum.body]
          split_ifs <;> simp
        · refine (nodup_coeffs _).imp fun {d d'} hdd x hx hx' => ?_
          obtain ⟨s, hs, rfl⟩ := List.mem_map.1 hx
          obtain ⟨s', hs', e'⟩ := List.mem_map.1 hx'
          rw [hb n d s hs, hb n d' s' hs'] at e'
          simp only [Prod.mk.injEq, true_and, and_true] at e'
          exact hdd e'.symm
    · refine (nodup_coeffs _).imp fun {n n'} hnn x hx hx' => ?_
      have key : ∀ n, x ∈ List.map RF.params (if (!n.any (· != 0)) = true then []
          else (product (e.den.map pyRange)).flatMap fun d => e.body n d) → x.1 = n := by
        intro n hx
        split at hx
        · simp at hx
        · obtain ⟨s, hs, rfl⟩ := List.mem_map.1 hx
          obtain ⟨d, _, hs⟩ := List.mem_flatMap.1 hs
          rw [hb n d s hs]
      exact hnn ((key n hx).symm.trans (key n' hx'))
  · intro s hs
    obtain ⟨n, d, hn, hd, hk, rfl⟩ := (mem_generator e s).1 hs
    show RF.calcVal n d 0 e.x = _
    rw [calcVal_described, rfDescribed]
    simp only [RF.init]
    rw [if_neg (by rintro (h | h); exacts [hk.2.2.2.1 h, hk.2.2.2.2 h])]
    simp
  · intro hn hd
    rw [hlen, ← length_coeffs _ hn, ← length_coeffs _ hd, RFEnum.generator, ← Nat.cast_mul]
    apply Int.ofNat_le.2
    rw [List.length_flatMap]
    have hbody : ∀ n d, (e.body n d).length ≤ 1 := by
      intro n d
      rw [RFEnum.body]
      split_ifs <;> simp
    have hinner : ∀ n, (if (!n.any (· != 0)) = true then []
        else (product (e.den.map pyRange)).flatMap fun d => e.body n d).length ≤ (product (e.den.map pyRange)).length := by
      intro n
      split
      · simp
      · rw [List.length_flatMap]
        calc _ ≤ ((product (e.den.map pyRange)).map fun d => (e.body n d).length).length * 1 := by
              apply List.sum_le_card_nsmul
              intro y hy
              obtain ⟨d, _, rfl⟩ := List.mem_map.1 hy
              exact hbody n d
          _ = _ := by simp
    calc _ ≤ ((product (e.num.map pyRange)).map _).length * (product (e.den.map pyRange)).length := by
          apply List.sum_le_card_nsmul
          intro y hy
          obtain ⟨n, _, rfl⟩ := List.mem_map.1 hy
          exact hinner n
      _ = _ := by rw [List.length_map]

example : ∃ e, RFEnum.init [(0, 2), (0, 2)] [(1, 2), (0, 2)] true 3 = .ok e ∧
    e.generator.map RF.params = [([0, 1], [1, 0], 0), ([0, 1], [1, 1], 0), ([1, 1], [1, 0], 0), ([1, 1], [1, 1], 0)] ∧
    e.iterLen = 8 := ⟨_, rfl, by decide +kernel, rfl⟩

end PiCF
