import Verif.Spec.Margin
import Verif.Model.RoundedInfo
import Verif.Props.Limit
import Verif.Props.Rounded

/-!
# C130: what the refinement with convergence info decides, with explicit margins
-/

namespace PiCF.DecStr
open PiCF.Hashtable PiCF.PyStr PiCF.Mitm PiCF.Spec

/-- A Decimal near a number that keeps clear of all numbers with `n` digits. -/
theorem clear_plain {κ ε : ℝ} {n : ℕ} {k : ℤ} (hε : 0 ≤ ε) (h0 : 1 / 10 ^ 6 + ε ≤ κ) (hlo : (k : ℝ) / 10 ^ n < κ - ε) (hhi : κ + ε < (k + 1) / 10 ^ n)
    (hk : (k + 1 : ℝ) / 10 ^ n ≤ 1) (d : Dec) (hd : d.neg = false) (hdv : |(d.value : ℝ) - κ| ≤ ε) :
    Plain d n ∧ ⌊d.value * 10 ^ n⌋ = ⌊κ * 10 ^ n⌋ := by
  have hp : (0 : ℝ) < 10 ^ n := by positivity
  obtain ⟨v1, v2⟩ := abs_le.1 hdv
  have f1 : (k : ℝ) < (d.value : ℝ) * 10 ^ n := by rw [← div_lt_iff₀ hp]; linarith
  have f2 : (d.value : ℝ) * 10 ^ n < k + 1 := by rw [← lt_div_iff₀ hp]; linarith
  have e2 : ⌊κ * 10 ^ n⌋ = k := by
    rw [Int.floor_eq_iff]
    constructor
    · rw [← div_le_iff₀ hp]; linarith
    · rw [← lt_div_iff₀ hp]; linarith
  have e1 : ⌊d.value * 10 ^ n⌋ = k := by
    rw [Int.floor_eq_iff]
    constructor
    · have : ((k : ℚ) : ℝ) ≤ ((d.value * 10 ^ n : ℚ) : ℝ) := by push_cast; exact f1.le
      exact_mod_cast this
    · have : ((d.value * 10 ^ n : ℚ) : ℝ) < ((k + 1 : ℚ) : ℝ) := by push_cast; exact f2
      exact_mod_cast this
  have hexp : d.exp < -(n : ℤ) := by
    by_contra hc
    obtain ⟨j, hj⟩ : ∃ j : ℕ, d.exp + n = j := ⟨(d.exp + n).toNat, by omega⟩
    have hv : d.value * 10 ^ n = ((d.coef * 10 ^ j : ℕ) : ℚ) := by
      rw [Dec.value, hd]
      simp only [Bool.false_eq_true, if_false, one_mul]
      rw [mul_assoc, ← zpow_natCast (10 : ℚ) n, ← zpow_add₀ (by norm_num), hj]
      push_cast
      rw [zpow_natCast]
    have hv' : (d.value : ℝ) * 10 ^ n = ((d.coef * 10 ^ j : ℕ) : ℝ) := by
      have := congrArg (Rat.cast : ℚ → ℝ) hv
      push_cast at this ⊢
      exact this
    rw [hv'] at f1 f2
    have g1 : k < ((d.coef * 10 ^ j : ℕ) : ℤ) := by exact_mod_cast f1
    have g2 : ((d.coef * 10 ^ j : ℕ) : ℤ) < k + 1 := by exact_mod_cast f2
    omega
  refine ⟨⟨?_, hd, by omega, by omega, .inl ?_⟩, e1.trans e2.symm⟩
  · have : (d.value : ℝ) < ((1 : ℚ) : ℝ) := by push_cast; linarith
    exact_mod_cast this
  · have : ((1 / 10 ^ 6 : ℚ) : ℝ) ≤ (d.value : ℝ) := by push_cast; linarith
    exact_mod_cast this

theorem clear_side {l δ : ℝ} {n : ℕ} (hδ : 0 ≤ δ) (h : KeepsClear n (2 * δ) l) {eng : EngN} {y : ℚ} (hE : Prints eng δ) (hy : |(y : ℝ) - l| ≤ δ) :
    y ≠ 0 ∧ ∃ d : Dec, eng (.fin (Int.fract |y|)) = .ok d.eng ∧ Plain d n ∧ ⌊d.value * 10 ^ n⌋ = ⌊Int.fract |l| * 10 ^ n⌋ := by
  obtain ⟨hc, h0⟩ := h
  have hp : (0 : ℝ) < 10 ^ n := by positivity
  set A : ℝ := |l|
  set K : ℤ := ⌊A * 10 ^ n⌋
  have hK1 : (K : ℝ) / 10 ^ n ≤ A := by rw [div_le_iff₀ hp]; exact Int.floor_le _
  have hK2 : A < ((K + 1 : ℤ) : ℝ) / 10 ^ n := by rw [lt_div_iff₀ hp]; push_cast; exact Int.lt_floor_add_one _
  have c1 := hc K
  have c2 := hc (K + 1)
  rw [abs_of_nonneg (by linarith)] at c1
  rw [abs_of_neg (by linarith)] at c2
  push_cast at c2 hK2
  -- the integer part
  set F : ℤ := ⌊A⌋
  have hF1 : (F : ℝ) ≤ A := Int.floor_le _
  have hF2 : A < F + 1 := Int.lt_floor_add_one _
  have hFK : F * 10 ^ n ≤ K := by
    apply Int.le_floor.2
    push_cast
    gcongr
  have hFK' : K + 1 ≤ (F + 1) * 10 ^ n := by
    have : (K : ℝ) < (F + 1) * 10 ^ n := by
      have := mul_lt_mul_of_pos_right hF2 hp
      exact (Int.floor_le (A * 10 ^ n)).trans_lt this
    have : K < (F + 1) * 10 ^ n := by exact_mod_cast this
    omega
  have gF1 : (F : ℝ) ≤ K / 10 ^ n := by rw [le_div_iff₀ hp]; exact_mod_cast hFK
  have gF2 : ((K : ℝ) + 1) / 10 ^ n ≤ F + 1 := by rw [div_le_iff₀ hp]; exact_mod_cast hFK'
  have hyA : abs (|(y : ℝ)| - A) ≤ δ := (abs_abs_sub_abs_le _ _).trans hy
  obtain ⟨y1, y2⟩ := abs_le.1 hyA
  have hfy : ⌊|(y : ℝ)|⌋ = F := Int.floor_eq_iff.2 ⟨by linarith, by linarith⟩
  have hfr : Int.fract |(y : ℝ)| = |(y : ℝ)| - F := by rw [Int.fract, hfy]
  have hfl : Int.fract A = A - F := rfl
  have q0 : (0 : ℚ) < Int.fract |y| := by
    have : (0 : ℝ) < ((Int.fract |y| : ℚ) : ℝ) := by
      rw [cast_fract, hfr]
      have : (0 : ℝ) < 1 / 10 ^ 6 := by positivity
      linarith
    exact_mod_cast this
  obtain ⟨d, hd, hn, hdv⟩ := hE.near (Int.fract |y|) q0 (Int.fract_lt_one _)
  refine ⟨by rintro rfl; simp at q0, d, hd, ?_⟩
  rw [cast_fract, hfr] at hdv
  have hFn : ((F : ℝ) * 10 ^ n) / 10 ^ n = F := by field_simp
  refine clear_plain (ε := 2 * δ) (k := K - F * 10 ^ n) (by linarith) h0 ?_ ?_ ?_ d hn ?_
  · push_cast
    rw [sub_div, hFn, hfl]
    linarith
  · push_cast
    rw [sub_add_eq_add_sub, sub_div, hFn, hfl]
    linarith
  · push_cast
    rw [sub_add_eq_add_sub, sub_div, hFn]
    linarith
  · rw [hfl]
    obtain ⟨z1, z2⟩ := abs_le.1 hdv
    rw [abs_le]
    constructor <;> linarith

end PiCF.DecStr

namespace PiCF
open PiCF.Spec PiCF.Mitm PiCF.Lhs PiCF.ContFrac PiCF.DecStr PiCF.Rounded

variable {L : Type}

theorem sides_clear {x : ℝ × ℝ} {n : ℕ} {δ : ℝ} (hδ : 0 ≤ δ) (h1 : KeepsClear n (2 * δ) x.1) (h2 : KeepsClear n (2 * δ) x.2) (C : LhsClass L)
    (Inv : L → Prop) (env : RefineEnv) (c : Click L) (ht : env.trunc = true) (ha : env.accuracy = n) (hE : Prints env.eng δ)
    (hc : Approximates C Inv env δ x c) : SidesAgree C env c ↔ DigitsAgree n x.1 x.2 := by
  obtain ⟨-, ⟨f, v, y, h2', h3, h4, h5⟩, w, h6, h7⟩ := hc
  obtain ⟨hy0, d, d1, d2, d3⟩ := clear_side hδ h1 hE h5.le
  obtain ⟨-, e, g1, g2, g3⟩ := clear_side hδ h2 hE h7.le
  obtain ⟨r, hr, hiff'⟩ := C79_digits_partial d1 g1 d2 g2
  have hiff : r = true ↔ DigitsAgree n x.1 x.2 := by rw [hiff', SameDigits, DigitsAgree, d3, g3]
  obtain ⟨s, s', e1, e2, e3⟩ := compareDec_ok hr
  rw [← hiff, e3, SidesAgree, ha, ht, h6]
  constructor
  · rintro ⟨f', v', y', t, r', t', g1, g2, g3, g4, g5, g6, g7, g8⟩
    rw [h2'] at g1; cases g1
    rw [h3] at g2; cases g2
    rw [h4] at g3; cases g3
    rw [HasSearchKey] at g6
    simp only [searchKey, if_true] at g5 g6
    subst g6
    rw [e1] at g5; cases g5
    rw [e2] at g7; cases g7
    exact g8
  · intro h
    exact ⟨f, v, y, s, .fin (Int.fract |w|), s', h2', h3, h4, hy0, by simpa [searchKey] using e1, by simp [HasSearchKey, searchKey], e2, h⟩

open Classical in
/-- **C130 (margins).** If the sides are evaluated and printed with errors below `δ`, and their true values keep a distance of more than `2δ` from
every number with `n` digits after the point (and from 0 to `10^-6`), the refinement returns and keeps exactly the clicks whose true values have
the same first `n` digits.  The true values may be rational. -/
theorem C130_margin (xs : List (ℝ × ℝ)) {n : ℕ} {δ : ℝ} (hδ : 0 ≤ δ) (hxs : ∀ x ∈ xs, KeepsClear n (2 * δ) x.1 ∧ KeepsClear n (2 * δ) x.2)
    (C : LhsClass L) (Inv : L → Prop) (env : RefineEnv) (cs : List (Click L)) (laws : LhsTotal C Inv) (ht : env.trunc = true) (ha : env.accuracy = n)
    (hE : Prints env.eng δ) (h : List.Forall₂ (Approximates C Inv env δ) xs cs) :
    ∃ kept, refineClicks C env (none, cs) = ((none, kept), .ok ()) ∧
      List.Forall₂ SameClick (((xs.zip cs).filter fun p => decide (DigitsAgree n p.1.1 p.1.2)).map Prod.snd) kept := by
  have key : (∀ c ∈ cs, Evaluable C Inv env c) ∧ cs.filter (fun c => decide (SidesAgree C env c)) =
      ((xs.zip cs).filter fun p => decide (DigitsAgree n p.1.1 p.1.2)).map Prod.snd := by
    induction h with
    | nil => simp
    | cons h hs ih =>
      rename_i x c xs cs
      obtain ⟨g1, g2⟩ := ih fun x hx => hxs x (List.mem_cons_of_mem _ hx)
      obtain ⟨k1, k2⟩ := hxs x List.mem_cons_self
      have g3 := sides_clear hδ k1 k2 C Inv env c ht ha hE h
      refine ⟨fun c' hc' => ?_, ?_⟩
      · rcases List.mem_cons.1 hc' with rfl | hc'
        · exact h.evaluable
        · exact g1 c' hc'
      · rw [List.zip_cons_cons, List.filter_cons, List.filter_cons]
        simp only [decide_eq_decide.2 g3]
        split
        · rw [List.map_cons, g2]
        · exact g2
  obtain ⟨g1, g2⟩ := key
  obtain ⟨kept, hk⟩ := C56_refine_returns laws hE.total g1
  exact ⟨kept, hk, by rw [← g2]; exact C56_refine_partial hk⟩

/-- The stored parameters bound the error: `|x_m - ρ| ≤ coeff · base^(-m)` for all convergents. -/
def ErrorBound (a b : EnumPoly.Polys) (base coeff : ℚ) (ρ : ℝ) : Prop :=
  ∀ m, contQ (seqAt a) (seqAt b) (m + 1) ≠ 0 →
    |(contP (seqAt a) (seqAt b) (m + 1) : ℝ) / contQ (seqAt a) (seqAt b) (m + 1) - ρ| ≤ coeff / base ^ m

/-- What is assumed about a pair of polynomials and its convergence info: the base is above 1, line 141 of basic_representation_types.py gives a number
of iterations `r` with `base^(-r) ≤ 10^(-n-100) / base` that is not above the bound `N`, and the continued fraction can be evaluated there. -/
structure InfoOk (required : ℚ → ℚ → Except PyErr ℤ) (N n : ℕ) (a b : EnumPoly.Polys) (base : ℚ) (r : ℕ) : Prop where
  head : ∃ a₀ rest polys, a = (a₀ :: rest) :: polys
  hb : b ≠ []
  gt : 1 < base
  req : required (10 ^ (-((n : ℤ) + 100))) base = .ok r
  enough : base ≤ 10 ^ (-((n : ℤ) + 100)) * base ^ r
  le : r ≤ N
  zero : ∀ j, 1 ≤ j → j ≤ r → seqAt b j ≠ 0
  den : contQ (seqAt a) (seqAt b) (r + 1) ≠ 0

theorem InfoOk.run {required : ℚ → ℚ → Except PyErr ℤ} {N n r : ℕ} {a b : EnumPoly.Polys} {base coeff : ℚ} (h : InfoOk required N n a b base r)
    {t : ApproachType} (ht : t = .exp ∨ t = .superExp) : ∃ s',
    genIterationsAcc required N (10 ^ (-((n : ℤ) + 100))) true { fresh a b true false with approachType := t, approachParams := some (base, coeff) } =
      (s', .ok ()) ∧ getResult s' = .fin ((contP (seqAt a) (seqAt b) (r + 1) : ℚ) / contQ (seqAt a) (seqAt b) (r + 1)) ∧
      (s'.mats.getLastD s'.first).1.1 = contP (seqAt a) (seqAt b) (r + 1) ∧ (s'.mats.getLastD s'.first).2.1 = contQ (seqAt a) (seqAt b) (r + 1) := by
  set s : CF := { fresh a b true false with approachType := t, approachParams := some (base, coeff) }
  have hw : WF a b := ⟨h.head, h.hb⟩
  have hg : Good s true false := ⟨hw, rfl, rfl, rfl, rfl, rfl⟩
  obtain ⟨s', e, hs, -, hres⟩ := gen_ok hg r true (fun j h1 h2 h3 => h.zero j (by omega) (by omega) h3.2)
  have hv := hres (Or.inr ⟨rfl, rfl⟩)
  refine ⟨s', ?_, ?_, by rw [hs.hm]; rfl, by rw [hs.hm]; rfl⟩
  · rw [genIterationsAcc, if_pos ⟨ht, by positivity⟩]
    show (match required (10 ^ (-((n : ℤ) + 100))) base with | .error e => _ | .ok r => genIterations (min (N : ℤ) r) true s) = _
    rw [h.req]
    show genIterations (min (N : ℤ) r) true s = _
    rw [min_eq_right (by exact_mod_cast h.le), e]
  · rw [hv]
    show convVal a b r = _
    rw [convVal, quotient, if_neg h.den]

theorem InfoOk.error {required : ℚ → ℚ → Except PyErr ℤ} {N n r : ℕ} {a b : EnumPoly.Polys} {base coeff : ℚ} {ρ : ℝ} (h : InfoOk required N n a b base r)
    (he : ErrorBound a b base coeff ρ) :
    |(contP (seqAt a) (seqAt b) (r + 1) : ℝ) / contQ (seqAt a) (seqAt b) (r + 1) - ρ| ≤ coeff / base * 10 ^ (-((n : ℤ) + 100)) := by
  have h1 := he r h.den
  have hb : (0 : ℝ) < base := by exact_mod_cast one_pos.trans h.gt
  have hbr : (0 : ℝ) < (base : ℝ) ^ r := by positivity
  have hc : (0 : ℝ) ≤ coeff := by
    have := (abs_nonneg _).trans h1
    by_contra hn
    have := div_neg_of_neg_of_pos (not_le.1 hn) hbr
    linarith
  have hen : (base : ℝ) ≤ 10 ^ (-((n : ℤ) + 100)) * (base : ℝ) ^ r := by
    have : (base : ℝ) ≤ ((10 ^ (-((n : ℤ) + 100)) * base ^ r : ℚ) : ℝ) := Rat.cast_le.2 h.enough
    rw [Rat.cast_mul, Rat.cast_zpow, Rat.cast_pow, Rat.cast_ofNat] at this
    exact this
  refine h1.trans ?_
  rw [div_le_iff₀ hbr, div_mul_eq_mul_div, div_mul_eq_mul_div, le_div_iff₀ hb, mul_assoc]
  exact mul_le_mul_of_nonneg_left hen hc

/-- **C130 (values).** The evaluation by convergence info: if the stored base and coefficient bound the error of the convergents, the result differs from the
limit by at most `coeff/base · 10^(-n-100)`, whatever the size of the coefficient; with rounding, by a factor `(1-u)^(-3)` more and three roundings of
the limit. -/
theorem C130_value {required : ℚ → ℚ → Except PyErr ℤ} {N n r : ℕ} {a b : EnumPoly.Polys} {base coeff : ℚ} {ρ : ℝ}
    (h : InfoOk required N n a b base r) (he : ErrorBound a b base coeff ρ) {t : ApproachType} (ht : t = .exp ∨ t = .superExp) :
    (∃ x : ℚ, evalInfo required N n a b (some (t, some (base, coeff))) = .ok (.fin x) ∧
      |(x : ℝ) - ρ| ≤ coeff / base * 10 ^ (-((n : ℤ) + 100))) ∧
    ∀ {rnd : ℚ → ℚ} {u : ℚ} {M : ℤ}, RoundOk rnd u M → ∃ x : ℚ, evalInfoR rnd required N n a b (some (t, some (base, coeff))) = .ok (.fin x) ∧
      |(x : ℝ) - ρ| ≤ (1 - u : ℝ)⁻¹ ^ 3 * (coeff / base * 10 ^ (-((n : ℤ) + 100))) + ((1 - u : ℝ)⁻¹ ^ 3 - 1) * |ρ| := by
  obtain ⟨s', e, hres, hp, hq⟩ := h.run (coeff := coeff) ht
  have herr := h.error he
  have hw : WF a b := ⟨h.head, h.hb⟩
  refine ⟨⟨(contP (seqAt a) (seqAt b) (r + 1) : ℚ) / contQ (seqAt a) (seqAt b) (r + 1), ?_, by push_cast; exact herr⟩, fun {rnd u M} hR => ?_⟩
  · rw [evalInfo, init_wf hw]
    show (match genIterationsAcc required N (10 ^ (-((n : ℤ) + 100))) true
      { fresh a b true false with approachType := t, approachParams := some (base, coeff) } with
      | (_, .error e) => (.error e : Except PyErr Num) | (s, .ok ()) => .ok (getResult s)) = _
    rw [e]
    show Except.ok (getResult s') = _
    rw [hres]
  · obtain ⟨-, -, hθ⟩ := C118_get_result (init_wf hw true false) [] r (fun _ => h.zero) hR
    obtain ⟨θ, q1, q2, q3⟩ := hθ h.den
    refine ⟨θ * ((contP (seqAt a) (seqAt b) (r + 1) : ℚ) / contQ (seqAt a) (seqAt b) (r + 1)), ?_, ?_⟩
    · rw [evalInfoR, init_wf hw]
      show (match genIterationsAcc required N (10 ^ (-((n : ℤ) + 100))) true
        { fresh a b true false with approachType := t, approachParams := some (base, coeff) } with
        | (_, .error e) => (.error e : Except PyErr Num)
        | (s, .ok ()) => .ok (quotientR rnd (s.mats.getLastD s.first).1.1 (s.mats.getLastD s.first).2.1)) = _
      rw [e]
      show Except.ok (quotientR rnd (s'.mats.getLastD s'.first).1.1 (s'.mats.getLastD s'.first).2.1) = _
      rw [hp, hq]
      exact congrArg Except.ok q1
    · show |((θ * ((contP (seqAt a) (seqAt b) (r + 1) : ℚ) / contQ (seqAt a) (seqAt b) (r + 1)) : ℚ) : ℝ) - ρ| ≤ _
      push_cast
      set x : ℝ := (contP (seqAt a) (seqAt b) (r + 1) : ℝ) / contQ (seqAt a) (seqAt b) (r + 1)
      set E : ℝ := coeff / base * 10 ^ (-((n : ℤ) + 100))
      have q2' : (1 - u : ℝ) ^ 3 ≤ θ := by exact_mod_cast q2
      have q3' : (θ : ℝ) ≤ (1 - u : ℝ)⁻¹ ^ 3 := by exact_mod_cast q3
      have hu : (0 : ℝ) < 1 - u := by have := hR.u1; have : (u : ℝ) < 1 := by exact_mod_cast this
                                      linarith
      set T : ℝ := (1 - u : ℝ) ^ 3
      have hT : 0 < T := by positivity
      rw [inv_pow] at q3' ⊢
      have hTT : 2 ≤ T + T⁻¹ := by
        have h1 : T * T⁻¹ = 1 := mul_inv_cancel₀ hT.ne'
        have h2 : 0 < T⁻¹ := inv_pos.2 hT
        nlinarith [sq_nonneg (T - T⁻¹), sq_nonneg (T + T⁻¹)]
      have hθ1 : |(θ : ℝ) - 1| ≤ T⁻¹ - 1 := abs_le.2 ⟨by linarith, by linarith⟩
      have hθ0 : (0 : ℝ) ≤ θ := hT.le.trans q2'
      calc |(θ : ℝ) * x - ρ| = |θ * (x - ρ) + (θ - 1) * ρ| := by ring_nf
        _ ≤ |θ * (x - ρ)| + |(θ - 1) * ρ| := abs_add_le _ _
        _ = θ * |x - ρ| + |(θ : ℝ) - 1| * |ρ| := by rw [abs_mul, abs_mul, abs_of_nonneg hθ0]
        _ ≤ T⁻¹ * E + (T⁻¹ - 1) * |ρ| := by
          gcongr

/-- A click that the refinement can decide: its info bounds the error of its continued fraction, with limit `ρ`; the function maps all numbers that the evaluation can give to
numbers near `x.1`; the value of the LHS is near `x.2`.  `F` is the factor by which rounding may change a result. -/
def Described (C : LhsClass L) (Inv : L → Prop) (funcs : List (Num → Except PyErr Num)) (required : ℚ → ℚ → Except PyErr ℤ) (N n : ℕ) (F δ : ℝ)
    (x : ℝ × ℝ) (c : Click L) : Prop :=
  ∃ (ρ : ℝ) (base coeff : ℚ) (r : ℕ) (t : ApproachType) (f : Num → Except PyErr Num) (w : ℚ), c.conv = some (t, some (base, coeff)) ∧
    (t = .exp ∨ t = .superExp) ∧ InfoOk required N n c.a c.b base r ∧ ErrorBound c.a c.b base coeff ρ ∧ funcs[c.post]? = some f ∧
    (∀ q : ℚ, |(q : ℝ) - ρ| ≤ F * (coeff / base * 10 ^ (-((n : ℤ) + 100))) + (F - 1) * |ρ| → ∃ y : ℚ, f (.fin q) = .ok (.fin y) ∧ |(y : ℝ) - x.1| < δ) ∧
    Inv c.lhs ∧ C.val c.lhs = .fin w ∧ |(w : ℝ) - x.2| < δ

open Classical in
/-- **C130 (partial).** `refine_clicks_with_convergence_info(accuracy=n)` with rounding: clicks whose infos bound the errors, whose functions are continuous enough
and whose sides keep clear of the numbers with `n` digits are decided correctly: exactly those are kept whose true values have the same first `n` digits.
Missing: clicks for which the bound on the number of iterations is too small, see `C130_bound_violated`; `mpf` numbers have neither `ln` nor `to_eng_string`. -/
theorem C130_refine_partial (xs : List (ℝ × ℝ)) {n N : ℕ} {δ : ℝ} (hδ : 0 ≤ δ) (hxs : ∀ x ∈ xs, KeepsClear n (2 * δ) x.1 ∧ KeepsClear n (2 * δ) x.2)
    (C : LhsClass L) (Inv : L → Prop) (laws : LhsTotal C Inv) (funcs : List (Num → Except PyErr Num)) (eng : EngN) (hE : Prints eng δ)
    (required : ℚ → ℚ → Except PyErr ℤ) {rnd : ℚ → ℚ} {u : ℚ} {M : ℤ} (hR : RoundOk rnd u M) (cs : List (Click L))
    (h : List.Forall₂ (Described C Inv funcs required N n ((1 - u : ℝ)⁻¹ ^ 3) δ) xs cs) :
    ∃ kept, refineClicks C ⟨funcs, true, n, eng, evalInfoR rnd required N n⟩ (none, cs) = ((none, kept), .ok ()) ∧
      List.Forall₂ SameClick (((xs.zip cs).filter fun p => decide (DigitsAgree n p.1.1 p.1.2)).map Prod.snd) kept := by
  refine C130_margin xs hδ hxs C Inv _ cs laws rfl rfl hE (h.imp ?_)
  rintro x c ⟨ρ, base, coeff, r, t, f, w, hconv, ht, hi, he, hf, hm, hinv, hw, hwx⟩
  obtain ⟨q, e, hq⟩ := (C130_value hi he ht).2 hR
  obtain ⟨y, hy1, hy2⟩ := hm q hq
  exact ⟨hinv, ⟨f, _, y, hf, by rw [hconv]; exact e, hy1, hy2⟩, w, hw, hwx⟩

open Classical in
/-- The same for exact results. -/
theorem C130_exact_partial (xs : List (ℝ × ℝ)) {n N : ℕ} {δ : ℝ} (hδ : 0 ≤ δ) (hxs : ∀ x ∈ xs, KeepsClear n (2 * δ) x.1 ∧ KeepsClear n (2 * δ) x.2)
    (C : LhsClass L) (Inv : L → Prop) (laws : LhsTotal C Inv) (funcs : List (Num → Except PyErr Num)) (eng : EngN) (hE : Prints eng δ)
    (required : ℚ → ℚ → Except PyErr ℤ) (cs : List (Click L)) (h : List.Forall₂ (Described C Inv funcs required N n 1 δ) xs cs) :
    ∃ kept, refineClicks C ⟨funcs, true, n, eng, evalInfo required N n⟩ (none, cs) = ((none, kept), .ok ()) ∧
      List.Forall₂ SameClick (((xs.zip cs).filter fun p => decide (DigitsAgree n p.1.1 p.1.2)).map Prod.snd) kept := by
  refine C130_margin xs hδ hxs C Inv _ cs laws rfl rfl hE (h.imp ?_)
  rintro x c ⟨ρ, base, coeff, r, t, f, w, hconv, ht, hi, he, hf, hm, hinv, hw, hwx⟩
  obtain ⟨q, e, hq⟩ := (C130_value hi he ht).1
  obtain ⟨y, hy1, hy2⟩ := hm q (by linarith)
  exact ⟨hinv, ⟨f, _, y, hf, by rw [hconv]; exact e, hy1, hy2⟩, w, hw, hwx⟩

/-! ### An example -/

theorem seqAt_four (c : ℤ) (n : ℕ) : seqAt [[c]] n = c := by simp [seqAt, horner, Nat.mod_one]

theorem four_conv (n : ℕ) : 2 * contP (seqAt [[4]]) (seqAt [[-3]]) n = 3 ^ (n + 1) - 1 ∧ 2 * contQ (seqAt [[4]]) (seqAt [[-3]]) n = 3 ^ n - 1 := by
  induction n using Nat.strong_induction_on with
  | _ n ih =>
    match n with
    | 0 => simp [contP, contQ]
    | 1 => simp [contP, contQ, seqAt_four]
    | n + 2 =>
      obtain ⟨h1, h2⟩ := ih n (by omega)
      obtain ⟨h3, h4⟩ := ih (n + 1) (by omega)
      rw [contP, contQ, seqAt_four, seqAt_four]
      constructor
      · rw [show 2 * (4 * contP (seqAt [[4]]) (seqAt [[-3]]) (n + 1) + -3 * contP (seqAt [[4]]) (seqAt [[-3]]) n) =
          4 * (2 * contP (seqAt [[4]]) (seqAt [[-3]]) (n + 1)) + -3 * (2 * contP (seqAt [[4]]) (seqAt [[-3]]) n) by ring, h1, h3]
        ring
      · rw [show 2 * (4 * contQ (seqAt [[4]]) (seqAt [[-3]]) (n + 1) + -3 * contQ (seqAt [[4]]) (seqAt [[-3]]) n) =
          4 * (2 * contQ (seqAt [[4]]) (seqAt [[-3]]) (n + 1)) + -3 * (2 * contQ (seqAt [[4]]) (seqAt [[-3]]) n) by ring, h2, h4]
        ring

/-- `|x_m - 3| ≤ 3^(-m)` for `4 - 3/(4 - 3/(4 - …))`. -/
theorem four_bound : ErrorBound [[4]] [[-3]] 3 1 3 := by
  intro m hm
  obtain ⟨h1, h2⟩ := four_conv (m + 1)
  have h1' : (2 : ℝ) * contP (seqAt [[4]]) (seqAt [[-3]]) (m + 1) = 3 ^ (m + 1 + 1) - 1 := by exact_mod_cast h1
  have h2' : (2 : ℝ) * contQ (seqAt [[4]]) (seqAt [[-3]]) (m + 1) = 3 ^ (m + 1) - 1 := by exact_mod_cast h2
  have hy : (1 : ℝ) ≤ 3 ^ m := one_le_pow₀ (by norm_num)
  rw [show (contP (seqAt [[4]]) (seqAt [[-3]]) (m + 1) : ℝ) = (3 ^ (m + 1 + 1) - 1) / 2 by linarith,
    show (contQ (seqAt [[4]]) (seqAt [[-3]]) (m + 1) : ℝ) = (3 ^ (m + 1) - 1) / 2 by linarith,
    show (3 : ℝ) ^ (m + 1 + 1) = 9 * 3 ^ m by ring, show (3 : ℝ) ^ (m + 1) = 3 * 3 ^ m by ring]
  push_cast
  generalize (3 : ℝ) ^ m = y at *
  have h1 : 0 < 3 * y - 1 := by linarith
  have e : (9 * y - 1) / 2 / ((3 * y - 1) / 2) - 3 = 2 / (3 * y - 1) := by
    rw [div_div_div_cancel_right₀ (by norm_num), div_sub' h1.ne']
    congr 1
    ring
  rw [e, abs_of_pos (by positivity), div_le_div_iff₀ h1 (by linarith)]
  linarith

theorem four_ok {N : ℕ} (hN : 240 ≤ N) : InfoOk (fun _ _ => .ok 240) N 10 [[4]] [[-3]] 3 240 where
  head := ⟨4, [], [], rfl⟩
  hb := by simp
  gt := by norm_num
  req := rfl
  enough := by norm_num
  le := hN
  zero := fun j _ _ => by rw [seqAt_four]; norm_num
  den := by
    intro h0
    have := (four_conv (240 + 1)).2
    rw [h0] at this
    norm_num at this

theorem third_clear : KeepsClear 10 (2 * (1 / 10 ^ 40)) (1 / 3) := by
  have e3 : |(1 / 3 : ℝ)| = 1 / 3 := abs_of_pos (by norm_num)
  rw [KeepsClear, e3]
  refine ⟨fun k => ?_, ?_⟩
  · have h1 : (1 : ℤ) ≤ |10 ^ 10 - 3 * k| := Int.one_le_abs (by omega)
    have h2 : (1 : ℝ) ≤ |10 ^ 10 - 3 * (k : ℝ)| := by exact_mod_cast h1
    have e : (1 / 3 : ℝ) - k / 10 ^ 10 = (10 ^ 10 - 3 * k) / (3 * 10 ^ 10) := by field_simp
    rw [e, abs_div, abs_of_pos (show (0 : ℝ) < 3 * 10 ^ 10 by norm_num), lt_div_iff₀ (by norm_num)]
    refine lt_of_lt_of_le ?_ h2
    norm_num
  · rw [Int.fract_eq_self.2 ⟨by norm_num, by norm_num⟩]
    norm_num

theorem thirteenth_clear : KeepsClear 10 (2 * (1 / 10 ^ 40)) (4 / 13) := by
  have e3 : |(4 / 13 : ℝ)| = 4 / 13 := abs_of_pos (by norm_num)
  rw [KeepsClear, e3]
  refine ⟨fun k => ?_, ?_⟩
  · have h1 : (1 : ℤ) ≤ |4 * 10 ^ 10 - 13 * k| := Int.one_le_abs (by omega)
    have h2 : (1 : ℝ) ≤ |4 * 10 ^ 10 - 13 * (k : ℝ)| := by exact_mod_cast h1
    have e : (4 / 13 : ℝ) - k / 10 ^ 10 = (4 * 10 ^ 10 - 13 * k) / (13 * 10 ^ 10) := by field_simp
    rw [e, abs_div, abs_of_pos (show (0 : ℝ) < 13 * 10 ^ 10 by norm_num), lt_div_iff₀ (by norm_num)]
    refine lt_of_lt_of_le ?_ h2
    norm_num
  · rw [Int.fract_eq_self.2 ⟨by norm_num, by norm_num⟩]
    norm_num

/-- `1/x` as in postprocfuncs.py. -/
def invNum : Num → Except PyErr Num
  | .fin q => if q = 0 then .error .zeroDivision else .ok (.fin q⁻¹)
  | x => .ok x

/-- `1/(4 - 3/(4 - …))` against `1/3`, evaluated with 50 decimal digits: kept, for every bound of at least 240 iterations. -/
example {N : ℕ} (hN : 240 ≤ N) : ∃ c', refineClicks ulcdClass ⟨[invNum], true, 10, cutEng 50, evalInfoR (roundBin 169) (fun _ _ => .ok 240) N 10⟩
    (none, [⟨[[4]], [[-3]], exUlcd (1 / 3), 0, some (.exp, some (3, 1))⟩]) = ((none, [c']), .ok ()) := by
  have hR := roundBin_ok 169 (by norm_num)
  have h := C130_refine_partial (L := Ulcd) (n := 10) (N := N) (δ := 1 / 10 ^ 40) [((1 / 3 : ℝ), (1 / 3 : ℝ))] (by positivity)
    (by simpa using third_clear) ulcdClass (UlcdOk (1 / 3)) (ulcd_laws (1 / 3)).total [invNum] (cutEng 50)
    (Prints.mono (cutEng_prints 50) (by norm_num)) (fun _ _ => .ok 240) hR [⟨[[4]], [[-3]], exUlcd (1 / 3), 0, some (.exp, some (3, 1))⟩]
    (.cons ⟨3, 3, 1, 240, .exp, invNum, 1 / 3, rfl, .inl rfl, four_ok hN, four_bound, rfl, ?_, exUlcd_ok (by norm_num), rfl, by norm_num⟩ .nil)
  · obtain ⟨kept, k1, k2⟩ := h
    rw [List.zip_cons_cons, List.zip_nil_right, List.filter_cons, if_pos (by simpa using (digitsAgree_cases 10 _ _).1 rfl), List.filter_nil] at k2
    cases k2 with
    | cons h h' =>
      cases h'
      exact ⟨_, k1⟩
  · intro q hq
    have hq' : |(q : ℝ) - 3| ≤ 1 / 10 ^ 49 := by
      refine hq.trans ?_
      norm_num
    obtain ⟨q1, q2⟩ := abs_le.1 hq'
    have q3 : (2 : ℝ) < q := by norm_num at q1 ⊢; linarith
    have q0 : q ≠ 0 := by rintro rfl; norm_num at q3
    refine ⟨q⁻¹, by rw [invNum, if_neg q0], ?_⟩
    push_cast
    have e : (q : ℝ)⁻¹ - 1 / 3 = (3 - q) / (3 * q) := by field_simp
    rw [e, abs_div, abs_sub_comm, abs_of_pos (show (0 : ℝ) < 3 * q by linarith), div_lt_iff₀ (by linarith)]
    refine hq'.trans_lt ?_
    norm_num
    linarith

/-- **C130 (violated).** A bound on the number of iterations that is too small is not noticed: with `num_of_iterations = 1` (here; every bound below the number that
the accuracy needs cuts the computation short) the click of the example, whose stored parameters are right and whose sides have the same limit `1/3`, is dropped, and
`1/(4 - 3/4) = 4/13` is accepted instead. -/
theorem C130_bound_violated : ErrorBound [[4]] [[-3]] 3 1 3 ∧
    refineClicks ulcdClass ⟨[invNum], true, 10, cutEng 50, evalInfo (fun _ _ => .ok 240) 1 10⟩
      (none, [⟨[[4]], [[-3]], exUlcd (1 / 3), 0, some (.exp, some (3, 1))⟩]) = ((none, []), .ok ()) ∧
    ∃ c, refineClicks ulcdClass ⟨[invNum], true, 10, cutEng 50, evalInfo (fun _ _ => .ok 240) 1 10⟩
      (none, [⟨[[4]], [[-3]], exUlcd (4 / 13), 0, some (.exp, some (3, 1))⟩]) = ((none, [c]), .ok ()) := by
  classical
  have hev : evalInfo (fun _ _ => .ok 240) 1 10 [[4]] [[-3]] (some (.exp, some (3, 1))) = .ok (.fin (13 / 4)) := by decide +kernel
  have hin : invNum (.fin (13 / 4)) = .ok (.fin (4 / 13)) := by decide +kernel
  have key := fun (w : ℚ) (hw : w ≠ 0) (hc : KeepsClear 10 (2 * (1 / 10 ^ 40)) w) =>
    C130_margin (L := Ulcd) (n := 10) (δ := 1 / 10 ^ 40) [((4 / 13 : ℝ), (w : ℝ))] (by positivity) (List.forall_mem_singleton.2 ⟨thirteenth_clear, hc⟩) ulcdClass (UlcdOk w)
      ⟨[invNum], true, 10, cutEng 50, evalInfo (fun _ _ => .ok 240) 1 10⟩ [⟨[[4]], [[-3]], exUlcd w, 0, some (.exp, some (3, 1))⟩] (ulcd_laws w).total rfl rfl
      (Prints.mono (cutEng_prints 50) (by norm_num)) (.cons ⟨exUlcd_ok hw, ⟨invNum, _, _, rfl, hev, hin, by norm_num⟩, w, rfl, by norm_num⟩ .nil)
  refine ⟨four_bound, ?_, ?_⟩
  · obtain ⟨kept, k1, k2⟩ := key (1 / 3) (by norm_num) (by push_cast; exact third_clear)
    rw [List.zip_cons_cons, List.zip_nil_right, List.filter_cons, if_neg, List.filter_nil] at k2
    · cases k2
      exact k1
    · refine fun h => (digitsAgree_cases 10 (4 / 13) ((1 / 3 : ℚ) : ℝ)).2 ?_ (of_decide_eq_true h)
      have e1 : Int.fract |(4 / 13 : ℝ)| = 4 / 13 := by
        rw [abs_of_pos (by norm_num)]; exact Int.fract_eq_self.2 ⟨by norm_num, by norm_num⟩
      have e2 : Int.fract |((1 / 3 : ℚ) : ℝ)| = 1 / 3 := by
        push_cast
        rw [abs_of_pos (by norm_num)]; exact Int.fract_eq_self.2 ⟨by norm_num, by norm_num⟩
      rw [e1, e2, abs_of_neg (by norm_num)]
      norm_num
  · obtain ⟨kept, k1, k2⟩ := key (4 / 13) (by norm_num) (by push_cast; exact thirteenth_clear)
    rw [List.zip_cons_cons, List.zip_nil_right, List.filter_cons, if_pos (decide_eq_true ((digitsAgree_cases 10 _ _).1 (by push_cast; rfl))), List.filter_nil] at k2
    cases k2 with
    | cons h h' =>
      cases h'
      exact ⟨_, k1⟩

end PiCF
