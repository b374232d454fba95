import Mathlib.Algebra.Polynomial.EraseLead
import Mathlib.Algebra.Polynomial.Eval.Degree
import Mathlib.Tactic.LinearCombination
import Mathlib.Tactic.FieldSimp
import Verif.Model.RationalFunc
import Verif.Spec.Lhs
import Verif.Lemmas.EnumPoly

/-!
# Lemmas about the rational function evaluator
-/

namespace PiCF.Lhs
open PiCF.EnumPoly PiCF.ContFrac PiCF.Spec Polynomial

/-! ## Polynomials -/

theorem coeff_ofCoeffs (l : List ℤ) (i : ℕ) : (ofCoeffs l).coeff i = l.getD i 0 := by
  induction l generalizing i with
  | nil => simp [ofCoeffs]
  | cons c cs ih =>
    rw [ofCoeffs]
    cases i with
    | zero => simp
    | succ i => rw [coeff_add, coeff_C_succ, zero_add, coeff_X_mul, ih]; rfl

theorem ofCoeffs_sympoly2poly (p : ℤ[X]) : ofCoeffs (sympoly2poly p) = p := by
  ext i
  rw [coeff_ofCoeffs, sympoly2poly]
  by_cases hi : i < p.natDegree + 1
  · rw [List.getD_eq_getElem _ _ (by simpa using hi)]; simp
  · rw [List.getD_eq_default _ _ (by simpa using hi), coeff_eq_zero_of_natDegree_lt (by omega)]

theorem length_sympoly2poly (p : ℤ[X]) : (sympoly2poly p).length = p.natDegree + 1 := by simp [sympoly2poly]

theorem coeff_toQ (p : ℤ[X]) (i : ℕ) : (toQ p).coeff i = (p.coeff i : ℚ) := by simp [toQ]

theorem toQ_inj {p q : ℤ[X]} : toQ p = toQ q ↔ p = q :=
  (map_injective _ (RingHom.injective_int (Int.castRingHom ℚ))).eq_iff

theorem toQ_zero : toQ 0 = 0 := by simp [toQ]
theorem toQ_mul (p q : ℤ[X]) : toQ (p * q) = toQ p * toQ q := by simp [toQ]
theorem toQ_add (p q : ℤ[X]) : toQ (p + q) = toQ p + toQ q := by simp [toQ]
theorem toQ_sub (p q : ℤ[X]) : toQ (p - q) = toQ p - toQ q := by simp [toQ]
theorem toQ_C (k : ℤ) : toQ (C k) = C (k : ℚ) := by simp [toQ]
theorem toQ_ne_zero {p : ℤ[X]} (h : p ≠ 0) : toQ p ≠ 0 := by rw [← toQ_zero, Ne, toQ_inj]; exact h

theorem sympoly2polyQ_toQ (p : ℤ[X]) : sympoly2polyQ (toQ p) = sympoly2poly p := by
  rw [sympoly2polyQ, sympoly2poly, show (toQ p).natDegree = p.natDegree from
    natDegree_map_eq_of_injective (RingHom.injective_int _) p]
  apply List.map_congr_left
  intro i _
  rw [coeff_toQ]
  simp

theorem eval_ofCoeffs (l : List ℤ) (x : ℚ) : (toQ (ofCoeffs l)).eval x = horner (l.map (Int.cast : ℤ → ℚ)) x := by
  induction l with
  | nil => simp [ofCoeffs, toQ, horner]
  | cons c cs ih =>
    rw [ofCoeffs, toQ_add, toQ_mul, toQ_C, eval_add, eval_mul, ih, List.map_cons, horner, eval_C]
    simp [toQ]

/-! ## sympy -/

theorem polyGcd_spec (p q : ℤ[X]) : polyGcd p q ∣ p ∧ polyGcd p q ∣ q ∧ (∀ h, h ∣ p → h ∣ q → h ∣ polyGcd p q) ∧
    0 ≤ (polyGcd p q).leadingCoeff := Classical.choose_spec (exists_polyGcd p q)

theorem polyGcd_ne_zero {p q : ℤ[X]} (h : q ≠ 0) : polyGcd p q ≠ 0 := by
  intro e
  have := (polyGcd_spec p q).2.1
  rw [e, zero_dvd_iff] at this
  exact h this

/-- A unit of `ℤ[X]` with non-negative leading coefficient is 1. -/
theorem eq_one_of_isUnit {g : ℤ[X]} (h : IsUnit g) (h0 : 0 ≤ g.leadingCoeff) : g = 1 := by
  obtain ⟨u, hu, rfl⟩ := Polynomial.isUnit_iff.1 h
  rw [leadingCoeff_C] at h0
  rcases Int.isUnit_iff.1 hu with rfl | rfl
  · simp
  · omega

theorem polyGcd_eq_one {p q : ℤ[X]} (h : IsRelPrime p q) : polyGcd p q = 1 :=
  eq_one_of_isUnit (h (polyGcd_spec p q).1 (polyGcd_spec p q).2.1) (polyGcd_spec p q).2.2.2

/-- Dividing by the gcd gives a reduced fraction. -/
theorem isRelPrime_of_gcd {p q p' q' : ℤ[X]} (hq : q ≠ 0) (h1 : p = polyGcd p q * p') (h2 : q = polyGcd p q * q') :
    IsRelPrime p' q' := by
  intro h hp hq'
  have hg := polyGcd_ne_zero (p := p) hq
  have h3 : polyGcd p q * h ∣ polyGcd p q :=
    (polyGcd_spec p q).2.2.1 _ (by conv_rhs => rw [h1]
                                   exact mul_dvd_mul_left _ hp) (by conv_rhs => rw [h2]
                                                                    exact mul_dvd_mul_left _ hq')
  obtain ⟨c, hc⟩ := h3
  have : (1 : ℤ[X]) = h * c := mul_left_cancel₀ hg (by rw [mul_one, ← mul_assoc]; exact hc)
  exact IsUnit.of_mul_eq_one c this.symm

theorem rrDivLoop_identity (g : ℤ[X]) (n : ℕ) : ∀ q r, (rrDivLoop g n q r).1 * g + (rrDivLoop g n q r).2 = q * g + r := by
  induction n with
  | zero => intro q r; rfl
  | succ n ih =>
    intro q r
    rw [rrDivLoop]
    split
    · rfl
    · rw [ih]; ring

theorem rrDiv_identity {f g q r : ℤ[X]} (h : rrDiv f g = .ok (q, r)) : f = q * g + r := by
  rw [rrDiv] at h
  split at h
  · cases h
  · have := rrDivLoop_identity g (f.natDegree + 1) 0 f
    rw [Except.ok.inj h] at this
    simpa using this.symm

theorem rrDivLoop_exact {g : ℤ[X]} (hg : g ≠ 0) (n : ℕ) : ∀ q h : ℤ[X], (h = 0 ∨ h.natDegree < n) →
    rrDivLoop g n q (g * h) = (q + h, 0) := by
  induction n with
  | zero =>
    intro q h hh
    rcases hh with rfl | hh
    · simp [rrDivLoop]
    · omega
  | succ n ih =>
    intro q h hh
    rw [rrDivLoop]
    by_cases h0 : h = 0
    · rw [if_pos (by simp [h0])]; simp [h0]
    · have hne : g * h ≠ 0 := mul_ne_zero hg h0
      have hdeg : (g * h).natDegree = g.natDegree + h.natDegree := natDegree_mul hg h0
      have hlc : (g * h).leadingCoeff = g.leadingCoeff * h.leadingCoeff := leadingCoeff_mul g h
      rw [if_neg (by
        rw [hdeg, hlc]
        rintro (h1 | h1 | h1)
        · exact hne h1
        · omega
        · exact h1 (dvd_mul_right _ _))]
      simp only
      rw [hdeg, hlc, Nat.add_sub_cancel_left, Int.mul_ediv_cancel_left _ (leadingCoeff_ne_zero.2 hg)]
      have e : g * h - monomial h.natDegree h.leadingCoeff * g = g * h.eraseLead := by
        have := eraseLead_add_monomial_natDegree_leadingCoeff h
        linear_combination (-g) * this
      rw [e, ih]
      · rw [add_assoc, add_comm (monomial _ _), eraseLead_add_monomial_natDegree_leadingCoeff]
      · by_cases h1 : h.eraseLead = 0
        · exact .inl h1
        · right
          have := (eraseLead_natDegree_lt_or_eraseLead_eq_zero h).resolve_right h1
          have := hh.resolve_left h0
          omega

theorem rrDiv_exact {g h : ℤ[X]} (hg : g ≠ 0) : rrDiv (g * h) g = .ok (h, 0) := by
  rw [rrDiv, if_neg hg, rrDivLoop_exact hg _ 0 h, zero_add]
  by_cases h0 : h = 0
  · exact .inl h0
  · right
    rw [natDegree_mul hg h0]
    omega

/-! ## The evaluator -/

namespace RF

/-- The cached polynomials are those of the coefficient lists whenever they are used. -/
structure Inv (s : RF) : Prop where
  numCache : s.numStale = false → s.numSym = some (ofCoeffs s.num)
  denCache : s.denStale = false → s.denSym = some (ofCoeffs s.den)
  canon : s.canon = false
  val : s.val = calcVal s.num s.den s.added s.x
  num_ne : s.num ≠ []
  den_ne : ofCoeffs s.den ≠ 0

theorem ofCoeffs_ne_zero_iff (l : List ℤ) : ofCoeffs l ≠ 0 ↔ ∃ c ∈ l, c ≠ 0 := by
  constructor
  · intro h
    by_contra hn
    apply h
    ext i
    rw [coeff_ofCoeffs, coeff_zero, List.getD_eq_getElem?_getD]
    cases hi : l[i]? with
    | none => rfl
    | some c =>
      by_contra hc
      exact hn ⟨c, List.mem_of_getElem? hi, hc⟩
  · rintro ⟨c, hc, hne⟩ h
    obtain ⟨i, hi, rfl⟩ := List.mem_iff_getElem.1 hc
    have := coeff_ofCoeffs l i
    rw [h, coeff_zero, List.getD_eq_getElem _ _ hi] at this
    exact hne this.symm

theorem Inv.den_ne_nil {s : RF} (h : Inv s) : s.den ≠ [] := by
  intro e
  exact h.den_ne (by rw [e]; rfl)

theorem calcVal_eq (num den : List ℤ) (added : ℤ) (x : ℚ) :
    calcVal num den added x = if (toQ (ofCoeffs den)).eval x = 0 ∨ (toQ (ofCoeffs num)).eval x = 0 then .nan
      else .fin ((toQ (ofCoeffs num)).eval x / (toQ (ofCoeffs den)).eval x + added) := by
  rw [calcVal, Utils.subsInPolynom_eq_horner, Utils.subsInPolynom_eq_horner, eval_ofCoeffs, eval_ofCoeffs]

theorem init_inv {p : List ℤ × List ℤ × ℤ} {x : ℚ} (hn : p.1 ≠ []) (hd : ∃ c ∈ p.2.1, c ≠ 0) : Inv (init p x) where
  numCache := by intro h; cases h
  denCache := by intro h; cases h
  canon := rfl
  val := rfl
  num_ne := hn
  den_ne := (ofCoeffs_ne_zero_iff _).2 hd

theorem numeratorSym_eq {s : RF} (h : Inv s) :
    ∃ s', numeratorSym s = (s', .ok (ofCoeffs s.num)) ∧ Inv s' ∧ s'.params = s.params ∧ s'.num = s.num ∧ s'.den = s.den ∧
      s'.added = s.added ∧ s'.x = s.x ∧ s'.val = s.val := by
  rw [numeratorSym]
  split
  · rename_i p h1 h2
    have := h.numCache h2
    rw [h1] at this
    cases this
    exact ⟨s, rfl, h, rfl, rfl, rfl, rfl, rfl, rfl⟩
  · rw [poly2sympoly, if_neg h.num_ne]
    exact ⟨_, rfl, ⟨fun _ => rfl, h.denCache, h.canon, h.val, h.num_ne, h.den_ne⟩, rfl, rfl, rfl, rfl, rfl, rfl⟩

theorem denominatorSym_eq {s : RF} (h : Inv s) :
    ∃ s', denominatorSym s = (s', .ok (ofCoeffs s.den)) ∧ Inv s' ∧ s'.params = s.params ∧ s'.num = s.num ∧ s'.den = s.den ∧
      s'.added = s.added ∧ s'.x = s.x ∧ s'.val = s.val := by
  rw [denominatorSym]
  split
  · rename_i p h1 h2
    have := h.denCache h2
    rw [h1] at this
    cases this
    exact ⟨s, rfl, h, rfl, rfl, rfl, rfl, rfl, rfl⟩
  · rw [poly2sympoly, if_neg h.den_ne_nil]
    exact ⟨_, rfl, ⟨h.numCache, fun _ => rfl, h.canon, h.val, h.num_ne, h.den_ne⟩, rfl, rfl, rfl, rfl, rfl, rfl⟩

theorem flipSign_eq (s : RF) : flipSign s =
    ({ s with den := s.den.map (fun c => -1 * c), added := s.added * -1,
              params := (s.num, s.den.map (fun c => -1 * c), s.added * -1), numStale := true, denStale := true,
              canon := false, val := calcVal s.num (s.den.map fun c => -1 * c) (s.added * -1) s.x }, .ok ()) := rfl

theorem addInt_eq (n : ℤ) (s : RF) : addInt n s =
    ({ s with added := s.added + n, params := (s.num, s.den, s.added + n), numStale := true, denStale := true,
              canon := false, val := calcVal s.num s.den (s.added + n) s.x }, .ok ()) := rfl

theorem ofCoeffs_neg (l : List ℤ) : ofCoeffs (l.map fun c => -1 * c) = -ofCoeffs l := by
  induction l with
  | nil => simp [ofCoeffs]
  | cons c cs ih => rw [List.map_cons, ofCoeffs, ih, ofCoeffs, neg_one_mul, C_neg]; ring

theorem flipSign_inv {s : RF} (h : Inv s) : ∃ s', flipSign s = (s', .ok ()) ∧ Inv s' ∧ s'.x = s.x ∧
    s'.params = (s'.num, s'.den, s'.added) ∧ s'.num = s.num ∧ s'.den = s.den.map (fun c => -1 * c) ∧ s'.added = -s.added := by
  refine ⟨_, flipSign_eq s, ⟨nofun, nofun, rfl, rfl, h.num_ne, ?_⟩, rfl, rfl, rfl, rfl, by simp⟩
  show ofCoeffs (s.den.map fun c => -1 * c) ≠ 0
  rw [ofCoeffs_neg]
  exact neg_ne_zero.2 h.den_ne

theorem addInt_inv {s : RF} (h : Inv s) (n : ℤ) : ∃ s', addInt n s = (s', .ok ()) ∧ Inv s' ∧ s'.x = s.x ∧
    s'.params = (s'.num, s'.den, s'.added) ∧ s'.num = s.num ∧ s'.den = s.den ∧ s'.added = s.added + n :=
  ⟨_, addInt_eq n s, ⟨nofun, nofun, rfl, rfl, h.num_ne, h.den_ne⟩, rfl, rfl, rfl, rfl, rfl⟩

/-- What `canonalize_params` does: divide by the gcd and move the rounded-up constant coefficient of the quotient to
the added integer. -/
theorem canonalizeParams_eq {s : RF} (h : Inv s) :
    ∃ (s' : RF) (n d : ℤ[X]), canonalizeParams s = (s', .ok ()) ∧ Inv s' ∧ s'.x = s.x ∧
      s'.params = (s'.num, s'.den, s'.added) ∧
      ofCoeffs s.num = polyGcd (ofCoeffs s.num) (ofCoeffs s.den) * n ∧
      ofCoeffs s.den = polyGcd (ofCoeffs s.num) (ofCoeffs s.den) * d ∧ d ≠ 0 ∧
      s'.added = s.added + ⌈(toQ n / toQ d).coeff 0⌉ ∧
      s'.num = sympoly2poly (n - C ⌈(toQ n / toQ d).coeff 0⌉ * d) ∧ s'.den = sympoly2poly d := by
  obtain ⟨s1, e1, i1, p1, n1, d1, a1, x1, v1⟩ := numeratorSym_eq h
  obtain ⟨s2, e2, i2, p2, n2, d2, a2, x2, v2⟩ := denominatorSym_eq i1
  rw [d1] at e2
  set g := polyGcd (ofCoeffs s.num) (ofCoeffs s.den) with hg
  have hg0 : g ≠ 0 := polyGcd_ne_zero h.den_ne
  obtain ⟨n, hn⟩ := (polyGcd_spec (ofCoeffs s.num) (ofCoeffs s.den)).1
  obtain ⟨d, hd⟩ := (polyGcd_spec (ofCoeffs s.num) (ofCoeffs s.den)).2.1
  rw [← hg] at hn hd
  have hd0 : d ≠ 0 := by rintro rfl; exact h.den_ne (by rw [hd, mul_zero])
  set k := ⌈(toQ n / toQ d).coeff 0⌉ with hk
  have hnum : (toQ n / toQ d - C (k : ℚ)) * toQ d + toQ n % toQ d = toQ (n - C k * d) := by
    rw [toQ_sub, toQ_mul, toQ_C]
    have := EuclideanDomain.div_add_mod (toQ n) (toQ d)
    linear_combination this
  have hrun : canonalizeParams s =
      ({ s2 with added := s2.added + k, num := sympoly2poly (n - C k * d), den := sympoly2poly d,
                 params := (sympoly2poly (n - C k * d), sympoly2poly d, s2.added + k), numStale := true,
                 denStale := true, canon := false,
                 val := calcVal (sympoly2poly (n - C k * d)) (sympoly2poly d) (s2.added + k) s2.x }, .ok ()) := by
    rw [canonalizeParams, PyM.bind_ok (show PyM.get s = (s, .ok s) from rfl), h.canon]
    simp only [Bool.false_eq_true, if_false]
    rw [PyM.bind_ok e1, PyM.bind_ok e2]
    have r1 : rrDiv (ofCoeffs s.num) g = .ok (n, 0) := by rw [hn]; exact rrDiv_exact hg0
    have r2 : rrDiv (ofCoeffs s.den) g = .ok (d, 0) := by rw [hd]; exact rrDiv_exact hg0
    have r3 : qqDiv n d = .ok (toQ n / toQ d, toQ n % toQ d) := by rw [qqDiv, if_neg hd0]
    rw [← hg, r1, r2]
    rw [PyM.bind_ok (show lift (Except.ok (n, (0 : ℤ[X]))) s2 = (s2, .ok (n, 0)) from rfl),
      PyM.bind_ok (show lift (Except.ok (d, (0 : ℤ[X]))) s2 = (s2, .ok (d, 0)) from rfl)]
    dsimp only
    rw [r3, PyM.bind_ok (show lift (Except.ok (toQ n / toQ d, toQ n % toQ d)) s2 = (s2, .ok (toQ n / toQ d, toQ n % toQ d)) from rfl)]
    dsimp only
    rw [← hk, hnum, sympoly2polyQ_toQ]
    rfl
  refine ⟨_, n, d, hrun, ?_, ?_, rfl, hn, hd, hd0, ?_, rfl, rfl⟩
  · refine ⟨nofun, nofun, rfl, rfl, ?_, ?_⟩
    · intro e
      have := congrArg List.length e
      rw [length_sympoly2poly] at this
      cases this
    · show ofCoeffs (sympoly2poly d) ≠ 0
      rw [ofCoeffs_sympoly2poly]; exact hd0
  · show s2.x = s.x
    rw [x2, x1]
  · show s2.added + k = s.added + k
    rw [a2, a1]

end RF
end PiCF.Lhs
