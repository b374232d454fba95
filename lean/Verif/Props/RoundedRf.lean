import Mathlib.Topology.Algebra.Order.Field
import Mathlib.Analysis.Real.Pi.Irrational
import Verif.Model.RoundedRf
import Verif.Spec.RoundedRf
import Verif.Props.RoundedLhs
import Verif.Props.MitmLhs

/-!
# C125: rational functions with rounding
-/

namespace PiCF
open PiCF.Spec PiCF.Mitm PiCF.Lhs PiCF.ContFrac PiCF.DecStr PiCF.EnumPoly PiCF.Rounded Filter Topology Polynomial

/-! ### Limits of rounded computations -/

/-- A rounding and a value of the constant. -/
structure Setting where
  rnd : ℚ → ℚ
  u : ℚ
  M : ℤ
  x : ℚ

/-- The precision grows and the constant tends to `ξ`. -/
def precise (ξ : ℝ) : Filter Setting :=
  comap (fun t => (t.u : ℝ)) (𝓝 0) ⊓ comap (fun t => (t.x : ℝ)) (𝓝 ξ) ⊓ 𝓟 {t | RoundOk t.rnd t.u t.M}

theorem precise_ok (ξ : ℝ) : ∀ᶠ t in precise ξ, RoundOk t.rnd t.u t.M :=
  mem_inf_of_right (mem_principal_self _)

theorem precise_u (ξ : ℝ) : Tendsto (fun t : Setting => (t.u : ℝ)) (precise ξ) (𝓝 0) :=
  tendsto_comap.mono_left (inf_le_left.trans inf_le_left)

theorem precise_x (ξ : ℝ) : Tendsto (fun t : Setting => (t.x : ℝ)) (precise ξ) (𝓝 ξ) :=
  tendsto_comap.mono_left (inf_le_left.trans inf_le_right)

theorem precise_bounds {ξ : ℝ} {P : Setting → Prop} (h : ∀ᶠ t in precise ξ, P t) : ∃ δ > (0 : ℝ), ∃ δ' > (0 : ℚ),
    ∀ (rnd : ℚ → ℚ) (u : ℚ) (M : ℤ) (x : ℚ), RoundOk rnd u M → u ≤ δ' → |(x : ℝ) - ξ| < δ → P ⟨rnd, u, M, x⟩ := by
  have h' := mem_inf_principal.1 (show {t | P t} ∈ precise ξ from h)
  obtain ⟨⟨a, b⟩, ⟨ha, hb⟩, hs⟩ := (((Metric.nhds_basis_ball (x := (0 : ℝ))).comap (fun t : Setting => (t.u : ℝ))).inf
    ((Metric.nhds_basis_ball (x := ξ)).comap (fun t : Setting => (t.x : ℝ)))).mem_iff.1 h'
  obtain ⟨q, q0, q1⟩ := exists_rat_btwn ha
  refine ⟨b, hb, q, by exact_mod_cast q0, fun rnd u M x hr hu hx => hs ⟨?_, ?_⟩ hr⟩
  · show (u : ℝ) ∈ Metric.ball 0 a
    rw [Metric.mem_ball, Real.dist_eq, sub_zero, abs_of_nonneg (by exact_mod_cast hr.u0)]
    exact lt_of_le_of_lt (by exact_mod_cast hu) q1
  · show (x : ℝ) ∈ Metric.ball ξ b
    rwa [Metric.mem_ball, Real.dist_eq]

theorem tendsto_rnd {ξ : ℝ} {f : Setting → ℚ} {L : ℝ} (h : Tendsto (fun t => (f t : ℝ)) (precise ξ) (𝓝 L)) :
    Tendsto (fun t => (t.rnd (f t) : ℝ)) (precise ξ) (𝓝 L) := by
  have h1 : Tendsto (fun t : Setting => (t.u : ℝ) * |(f t : ℝ)|) (precise ξ) (𝓝 0) := by
    simpa using (precise_u ξ).mul h.abs
  have h2 : Tendsto (fun t => (t.rnd (f t) : ℝ) - f t) (precise ξ) (𝓝 0) := by
    refine squeeze_zero_norm' ?_ h1
    filter_upwards [precise_ok ξ] with t ht
    rw [Real.norm_eq_abs]
    exact_mod_cast ht.err (f t)
  simpa using h2.add h

theorem tendsto_foldl {ξ : ℝ} {f : ℕ → Setting → ℚ} {L : ℕ → ℝ} (h : ∀ j, Tendsto (fun t => (f j t : ℝ)) (precise ξ) (𝓝 (L j))) :
    ∀ (js : List ℕ) (acc : Setting → ℚ) (A : ℝ), Tendsto (fun t => (acc t : ℝ)) (precise ξ) (𝓝 A) →
      Tendsto (fun t => (((js.map fun j => f j t).foldl (fun a b => t.rnd (a + b)) (acc t) : ℚ) : ℝ)) (precise ξ) (𝓝 (A + (js.map L).sum))
  | [], acc, A, hA => by simpa using hA
  | j :: js, acc, A, hA => by
    have := tendsto_foldl h js (fun t => t.rnd (acc t + f j t)) (A + L j) (tendsto_rnd (by push_cast; exact hA.add (h j)))
    simpa [add_assoc] using this

theorem tendsto_subsAt (cs : List ℤ) (ξ : ℝ) : Tendsto (fun t => (subsAtR t.rnd cs t.x : ℝ)) (precise ξ) (𝓝 (polyReal cs ξ)) := by
  have h : ∀ j, Tendsto (fun t : Setting => ((t.rnd (cs.getD j 0 * t.rnd (t.x ^ j)) : ℚ) : ℝ)) (precise ξ) (𝓝 ((cs.getD j 0 : ℝ) * ξ ^ j)) := by
    intro j
    refine tendsto_rnd ?_
    push_cast
    exact (tendsto_rnd (by push_cast; exact (precise_x ξ).pow j)).const_mul _
  have := tendsto_foldl h (List.range cs.length) (fun _ => 0) 0 (by simpa using tendsto_const_nhds)
  rw [zero_add] at this
  have e : polyReal cs ξ = ((List.range cs.length).map fun j => (cs.getD j 0 : ℝ) * ξ ^ j).sum := by
    rw [polyReal, ← List.toFinset_range, List.sum_toFinset _ List.nodup_range]
  rw [e]
  exact this

theorem tendsto_calcVal {n d : List ℤ} (a : ℤ) {ξ : ℝ} (hn : polyReal n ξ ≠ 0) (hd : polyReal d ξ ≠ 0) :
    ∃ w : Setting → ℚ, (∀ᶠ t in precise ξ, calcValR t.rnd n d a t.x = .fin (w t)) ∧
      Tendsto (fun t => (w t : ℝ)) (precise ξ) (𝓝 (rfReal (n, d, a) ξ)) := by
  have h1 := tendsto_subsAt n ξ
  have h2 := tendsto_subsAt d ξ
  refine ⟨fun t => t.rnd (t.rnd (subsAtR t.rnd n t.x / subsAtR t.rnd d t.x) + a), ?_, ?_⟩
  · filter_upwards [h1.eventually_ne hn, h2.eventually_ne hd] with t g1 g2
    rw [calcValR, if_neg]
    rintro (h | h)
    · exact g2 (by rw [h]; simp)
    · exact g1 (by rw [h]; simp)
  · refine tendsto_rnd ?_
    push_cast
    refine Tendsto.add_const _ (tendsto_rnd ?_)
    push_cast
    exact h1.div h2 hd

/-! ### The calls -/

/-- The method called by an operation. -/
noncomputable def rfCallR (rnd : ℚ → ℚ) : LhsOp → PyM RF Unit
  | .flip => rfFlipR rnd
  | .add n => rfAddR rnd n
  | .canon => rfCanonR rnd

/-- A sequence of calls. -/
noncomputable def rfRunR (rnd : ℚ → ℚ) : List LhsOp → PyM RF Unit
  | [] => pure ()
  | op :: ops => do
    rfCallR rnd op
    rfRunR rnd ops

/-- What holds of an evaluator between calls; `p` are its coefficients. -/
structure RfOkR (rnd : ℚ → ℚ) (x : ℚ) (p : List ℤ × List ℤ × ℤ) (s : RF) : Prop where
  numCache : s.numStale = false → s.numSym = some (ofCoeffs s.num)
  denCache : s.denStale = false → s.denSym = some (ofCoeffs s.den)
  canon : s.canon = false
  const : s.x = x
  params : s.params = p
  coeffs : (s.num, s.den, s.added) = p
  legal : RfLegal p
  val : s.val = calcValR rnd p.1 p.2.1 p.2.2 x

theorem rfInitR_ok (rnd : ℚ → ℚ) {p : List ℤ × List ℤ × ℤ} (hp : RfLegal p) (x : ℚ) : RfOkR rnd x p (rfInitR rnd p x) :=
  ⟨nofun, nofun, rfl, rfl, rfl, rfl, hp, rfl⟩

theorem polyReal_eq (cs : List ℤ) (ξ : ℝ) : polyReal cs ξ = aeval ξ (ofCoeffs cs) := by
  rw [ofCoeffs_eq_polyOf, polyOf, map_sum, polyReal]
  simp

theorem polyReal_neg (cs : List ℤ) (ξ : ℝ) : polyReal (cs.map fun c => -1 * c) ξ = -polyReal cs ξ := by
  rw [polyReal_eq, polyReal_eq, RF.ofCoeffs_neg, map_neg]

/-- The symbolic polynomials do not depend on the value. -/
theorem numeratorSym_okR {rnd : ℚ → ℚ} {x : ℚ} {p : List ℤ × List ℤ × ℤ} {s : RF} (h : RfOkR rnd x p s) :
    ∃ s', RF.numeratorSym s = (s', .ok (ofCoeffs p.1)) ∧ RfOkR rnd x p s' := by
  obtain rfl := h.coeffs
  rw [RF.numeratorSym]
  split
  · rename_i q h1 h2
    have := h.numCache h2
    rw [h1] at this
    cases this
    exact ⟨s, rfl, h⟩
  · rw [poly2sympoly, if_neg h.legal.1]
    exact ⟨_, rfl, ⟨fun _ => rfl, h.denCache, h.canon, h.const, h.params, rfl, h.legal, h.val⟩⟩

theorem denominatorSym_okR {rnd : ℚ → ℚ} {x : ℚ} {p : List ℤ × List ℤ × ℤ} {s : RF} (h : RfOkR rnd x p s) :
    ∃ s', RF.denominatorSym s = (s', .ok (ofCoeffs p.2.1)) ∧ RfOkR rnd x p s' := by
  obtain rfl := h.coeffs
  rw [RF.denominatorSym]
  split
  · rename_i q h1 h2
    have := h.denCache h2
    rw [h1] at this
    cases this
    exact ⟨s, rfl, h⟩
  · have hne : s.den ≠ [] := by
      intro e
      obtain ⟨c, hc, -⟩ := h.legal.2
      rw [e] at hc
      cases hc
    rw [poly2sympoly, if_neg hne]
    exact ⟨_, rfl, ⟨h.numCache, fun _ => rfl, h.canon, h.const, h.params, rfl, h.legal, h.val⟩⟩

/-- What a call does to the coefficients; the same for every rounding and every value of the constant. -/
theorem rfCallR_ok (op : LhsOp) {p : List ℤ × List ℤ × ℤ} (hp : RfLegal p) : ∃ p',
    (∀ (rnd : ℚ → ℚ) (x : ℚ) (s : RF), RfOkR rnd x p s → ∃ s', rfCallR rnd op s = (s', .ok ()) ∧ RfOkR rnd x p' s') ∧
    ∀ ξ, polyReal p.2.1 ξ ≠ 0 → polyReal p'.2.1 ξ ≠ 0 ∧ rfReal p' ξ = op.realEffect (rfReal p ξ) := by
  obtain ⟨n, d, a⟩ := p
  obtain ⟨hn, hd⟩ := hp
  simp only at hn hd
  cases op with
  | flip =>
    refine ⟨(n, d.map fun c => -1 * c, a * -1), fun rnd x s h => ?_, fun ξ hξ => ?_⟩
    · have hc := h.coeffs
      have hx := h.const
      simp only [Prod.mk.injEq] at hc
      obtain ⟨rfl, rfl, rfl⟩ := hc
      subst hx
      refine ⟨_, rfl, ⟨nofun, nofun, rfl, rfl, rfl, rfl, ⟨hn, ?_⟩, rfl⟩⟩
      obtain ⟨c, hc, h0⟩ := hd
      exact ⟨-1 * c, List.mem_map_of_mem hc, by simpa using h0⟩
    · simp only at hξ
      refine ⟨by simpa only [polyReal_neg] using neg_ne_zero.2 hξ, ?_⟩
      simp only [rfReal, polyReal_neg, LhsOp.realEffect, div_neg]
      push_cast
      ring
  | add k =>
    refine ⟨(n, d, a + k), fun rnd x s h => ?_, fun ξ hξ => ⟨hξ, ?_⟩⟩
    · have hc := h.coeffs
      have hx := h.const
      simp only [Prod.mk.injEq] at hc
      obtain ⟨rfl, rfl, rfl⟩ := hc
      subst hx
      exact ⟨_, rfl, ⟨nofun, nofun, rfl, rfl, rfl, rfl, ⟨hn, hd⟩, rfl⟩⟩
    · simp only [rfReal, LhsOp.realEffect]
      push_cast
      ring
  | canon =>
    set g := polyGcd (ofCoeffs n) (ofCoeffs d) with hg
    have hd' : ofCoeffs d ≠ 0 := (RF.ofCoeffs_ne_zero_iff _).2 hd
    have hg0 : g ≠ 0 := polyGcd_ne_zero hd'
    obtain ⟨N, hN⟩ := (polyGcd_spec (ofCoeffs n) (ofCoeffs d)).1
    obtain ⟨D, hD⟩ := (polyGcd_spec (ofCoeffs n) (ofCoeffs d)).2.1
    rw [← hg] at hN hD
    have hD0 : D ≠ 0 := by rintro rfl; exact hd' (by rw [hD, mul_zero])
    set k := ⌈(toQ N / toQ D).coeff 0⌉ with hk
    have hnum : (toQ N / toQ D - C (k : ℚ)) * toQ D + toQ N % toQ D = toQ (N - C k * D) := by
      rw [toQ_sub, toQ_mul, toQ_C]
      have := EuclideanDomain.div_add_mod (toQ N) (toQ D)
      linear_combination this
    refine ⟨(sympoly2poly (N - C k * D), sympoly2poly D, a + k), fun rnd x s h => ?_, fun ξ hξ => ?_⟩
    · obtain ⟨s1, e1, h1⟩ := numeratorSym_okR h
      obtain ⟨s2, e2, h2⟩ := denominatorSym_okR h1
      have hx := h2.const
      have ha : s2.added = a := congrArg (fun q => q.2.2) h2.coeffs
      subst hx
      have hrun : rfCanonR rnd s =
          ({ s2 with added := s2.added + k, num := sympoly2poly (N - C k * D), den := sympoly2poly D,
                     params := (sympoly2poly (N - C k * D), sympoly2poly D, s2.added + k), numStale := true,
                     denStale := true, canon := false,
                     val := calcValR rnd (sympoly2poly (N - C k * D)) (sympoly2poly D) (s2.added + k) s2.x }, .ok ()) := by
        rw [rfCanonR, PyM.bind_ok (show PyM.get s = (s, .ok s) from rfl), h.canon]
        simp only [Bool.false_eq_true, if_false]
        rw [PyM.bind_ok e1, PyM.bind_ok e2]
        have r1 : rrDiv (ofCoeffs n) g = .ok (N, 0) := by rw [hN]; exact rrDiv_exact hg0
        have r2 : rrDiv (ofCoeffs d) g = .ok (D, 0) := by rw [hD]; exact rrDiv_exact hg0
        have r3 : RF.qqDiv N D = .ok (toQ N / toQ D, toQ N % toQ D) := by rw [RF.qqDiv, if_neg hD0]
        rw [← hg, r1, r2]
        rw [PyM.bind_ok (show RF.lift (Except.ok (N, (0 : ℤ[X]))) s2 = (s2, .ok (N, 0)) from rfl),
          PyM.bind_ok (show RF.lift (Except.ok (D, (0 : ℤ[X]))) s2 = (s2, .ok (D, 0)) from rfl)]
        dsimp only
        rw [r3, PyM.bind_ok (show RF.lift (Except.ok (toQ N / toQ D, toQ N % toQ D)) s2 = (s2, .ok (toQ N / toQ D, toQ N % toQ D)) from rfl)]
        dsimp only
        rw [← hk, hnum, sympoly2polyQ_toQ]
        rfl
      refine ⟨_, hrun, ?_⟩
      rw [ha]
      refine ⟨nofun, nofun, rfl, rfl, rfl, rfl, ⟨?_, (RF.ofCoeffs_ne_zero_iff _).1 ?_⟩, rfl⟩
      · intro e
        have := congrArg List.length e
        rw [length_sympoly2poly] at this
        cases this
      · show ofCoeffs (sympoly2poly D) ≠ 0
        rw [ofCoeffs_sympoly2poly]; exact hD0
    · simp only [polyReal_eq, rfReal, ofCoeffs_sympoly2poly, LhsOp.realEffect] at hξ ⊢
      rw [hD, map_mul] at hξ
      have hG : aeval ξ g ≠ 0 := left_ne_zero_of_mul hξ
      have hDξ : aeval ξ D ≠ 0 := right_ne_zero_of_mul hξ
      refine ⟨hDξ, ?_⟩
      have e1 : aeval ξ (ofCoeffs n) = aeval ξ g * aeval ξ N := by rw [hN, map_mul]
      have e2 : aeval ξ (ofCoeffs d) = aeval ξ g * aeval ξ D := by rw [hD, map_mul]
      rw [e1, e2, map_sub, map_mul, aeval_C]
      simp only [algebraMap_int_eq, eq_intCast]
      push_cast
      field_simp
      ring

theorem rfRunR_ok (ops : List LhsOp) : ∀ {p : List ℤ × List ℤ × ℤ}, RfLegal p → ∃ p', RfLegal p' ∧
    (∀ (rnd : ℚ → ℚ) (x : ℚ) (s : RF), RfOkR rnd x p s → ∃ s', rfRunR rnd ops s = (s', .ok ()) ∧ RfOkR rnd x p' s') ∧
    ∀ ξ, polyReal p.2.1 ξ ≠ 0 → polyReal p'.2.1 ξ ≠ 0 ∧ rfReal p' ξ = ops.foldl (fun v op => op.realEffect v) (rfReal p ξ) := by
  induction ops with
  | nil => exact fun {p} hp => ⟨p, hp, fun rnd x s h => ⟨s, rfl, h⟩, fun ξ h => ⟨h, rfl⟩⟩
  | cons op ops ih =>
    intro p hp
    obtain ⟨p1, f1, g1⟩ := rfCallR_ok op hp
    have hp1 : RfLegal p1 := by
      obtain ⟨s', -, h⟩ := f1 id 0 _ (rfInitR_ok id hp 0)
      exact h.legal
    obtain ⟨p2, hp2, f2, g2⟩ := ih hp1
    refine ⟨p2, hp2, fun rnd x s h => ?_, fun ξ h => ?_⟩
    · obtain ⟨s1, e1, h1⟩ := f1 rnd x s h
      obtain ⟨s2, e2, h2⟩ := f2 rnd x s1 h1
      exact ⟨s2, by rw [rfRunR, PyM.bind_ok e1, e2], h2⟩
    · obtain ⟨a1, a2⟩ := g1 ξ h
      obtain ⟨b1, b2⟩ := g2 ξ a1
      exact ⟨b1, by rw [b2, a2, List.foldl_cons]⟩

/-- **C125 (parameters).** Any sequence of calls succeeds, whatever the precision.  The parameters that result do not depend on the precision nor
on how precisely the constant is known, they describe the documented function of the true constant exactly, and the value is the one that a new
evaluator with these parameters would compute: rounding errors do not accumulate. -/
theorem C125_calls {p : List ℤ × List ℤ × ℤ} (hp : RfLegal p) (ops : List LhsOp) : ∃ p',
    (∀ (rnd : ℚ → ℚ) (x : ℚ), ∃ s, rfRunR rnd ops (rfInitR rnd p x) = (s, .ok ()) ∧ s.params = p' ∧ s.val = (rfInitR rnd p' x).val) ∧
    ∀ ξ, polyReal p.2.1 ξ ≠ 0 → rfReal p' ξ = ops.foldl (fun v op => op.realEffect v) (rfReal p ξ) := by
  obtain ⟨p', -, f, g⟩ := rfRunR_ok ops hp
  refine ⟨p', fun rnd x => ?_, fun ξ h => (g ξ h).2⟩
  obtain ⟨s, e, h⟩ := f rnd x _ (rfInitR_ok rnd hp x)
  exact ⟨s, e, h.params, h.val⟩

theorem rfVal_precise {p : List ℤ × List ℤ × ℤ} {ξ : ℝ} (hv : ∀ k : ℤ, rfReal p ξ ≠ k) {ε : ℝ} (hε : 0 < ε) :
    ∀ᶠ t in precise ξ, ∃ w, calcValR t.rnd p.1 p.2.1 p.2.2 t.x = .fin w ∧ |(w : ℝ) - rfReal p ξ| < ε := by
  have hn : polyReal p.1 ξ ≠ 0 := fun h => hv p.2.2 (by rw [rfReal, h]; simp)
  have hd : polyReal p.2.1 ξ ≠ 0 := fun h => hv p.2.2 (by rw [rfReal, h]; simp)
  obtain ⟨w, h1, h2⟩ := tendsto_calcVal p.2.2 hn hd
  filter_upwards [h1, Metric.tendsto_nhds.1 h2 ε hε] with t g1 g2
  rw [Real.dist_eq] at g2
  exact ⟨w t, g1, g2⟩

theorem realEffect_int (op : LhsOp) {v : ℝ} (h : ∀ k : ℤ, v ≠ k) (k : ℤ) : op.realEffect v ≠ k := by
  intro e
  cases op with
  | flip => exact h (-k) (by push_cast; rw [← e]; simp [LhsOp.realEffect])
  | add n => exact h (k - n) (by push_cast; rw [← e]; simp [LhsOp.realEffect])
  | canon => exact h k e

theorem foldl_int (ops : List LhsOp) : ∀ {v : ℝ}, (∀ k : ℤ, v ≠ k) → ∀ k : ℤ, ops.foldl (fun v op => op.realEffect v) v ≠ k := by
  induction ops with
  | nil => exact fun h => h
  | cons op ops ih => exact fun h => ih (realEffect_int op h)

/-- **C125 (precision).** If the function has a value at the true constant and it is not an integer, then after any sequence of calls the value of
the evaluator is a number (not NaN) as near as wanted to the documented one, provided that the precision is high enough and the constant is known
precisely enough. -/
theorem C125_precision {p : List ℤ × List ℤ × ℤ} (hp : RfLegal p) {ξ : ℝ} (hv : ∀ k : ℤ, rfReal p ξ ≠ k) (ops : List LhsOp) {ε : ℝ} (hε : 0 < ε) :
    ∃ δ > (0 : ℝ), ∃ δ' > (0 : ℚ), ∀ (rnd : ℚ → ℚ) (u : ℚ) (M : ℤ) (x : ℚ), RoundOk rnd u M → u ≤ δ' → |(x : ℝ) - ξ| < δ →
      ∃ s w, rfRunR rnd ops (rfInitR rnd p x) = (s, .ok ()) ∧ s.val = .fin w ∧
        |(w : ℝ) - ops.foldl (fun v op => op.realEffect v) (rfReal p ξ)| < ε := by
  have hd : polyReal p.2.1 ξ ≠ 0 := fun h => hv p.2.2 (by rw [rfReal, h]; simp)
  obtain ⟨p', -, f, g⟩ := rfRunR_ok ops hp
  obtain ⟨-, g⟩ := g ξ hd
  obtain ⟨δ, h1, δ', h2, h⟩ := precise_bounds (rfVal_precise (by rw [g]; exact foldl_int ops hv) hε (p := p') (ξ := ξ))
  refine ⟨δ, h1, δ', h2, fun rnd u M x hr hu hx => ?_⟩
  obtain ⟨w, e1, e2⟩ := h rnd u M x hr hu hx
  obtain ⟨s, e, hs⟩ := f rnd x _ (rfInitR_ok rnd hp x)
  exact ⟨s, w, e, by rw [hs.val, e1], by rw [← g]; exact e2⟩

/-! ### Enumeration -/

theorem subsAtR_id (cs : List ℤ) (x : ℚ) : subsAtR id cs x = Utils.subsInPolynom (cs.map (Int.cast : ℤ → ℚ)) x := by
  have h : ∀ (l : List ℚ) (a : ℚ), l.foldl (fun acc t => id (acc + t)) a = a + l.sum := by
    intro l
    induction l with
    | nil => simp
    | cons t l ih => intro a; rw [List.foldl_cons, ih, id, List.sum_cons, add_assoc]
  rw [subsAtR, h, zero_add, Utils.subsInPolynom, List.length_map]
  congr 1
  refine List.map_congr_left fun j hj => ?_
  rw [List.mem_range] at hj
  rw [List.getD_eq_getElem _ _ hj, List.getD_eq_getElem _ _ (by simpa using hj), List.getElem_map]
  rfl

theorem calcValR_id : calcValR id = RF.calcVal := by
  funext n d a x
  simp only [calcValR, RF.calcVal, subsAtR_id, id]

theorem rfIsDegenerateR_id : rfIsDegenerateR id = RF.isDegenerate := by
  have h : rfUpdateR id = RF.updateParams := by
    funext s
    rw [rfUpdateR, RF.updateParams, calcValR_id]
  have h' : rfCanonR id = RF.canonalizeParams := by
    rw [rfCanonR, RF.canonalizeParams, h]
  rw [rfIsDegenerateR, RF.isDegenerate, h']

/-- **C125 (degenerate functions).** After any sequence of calls, `is_degenerate()` answers the same with every precision and every value of
the constant, and the answer is True exactly if the rational function is constant. -/
theorem C125_degenerate {p : List ℤ × List ℤ × ℤ} (hp : RfLegal p) (ops : List LhsOp) : ∃ p' b,
    (∀ (rnd : ℚ → ℚ) (x : ℚ), ∃ s s', rfRunR rnd ops (rfInitR rnd p x) = (s, .ok ()) ∧ s.params = p' ∧ rfIsDegenerateR rnd s = (s', .ok b)) ∧
    (b = true ↔ IsConstantFunc p'.1 p'.2.1) := by
  obtain ⟨p₁, hp₁, f, -⟩ := rfRunR_ok ops hp
  obtain ⟨p₂, f₂, -⟩ := rfCallR_ok .canon hp₁
  have hb : ∀ (rnd : ℚ → ℚ) (x : ℚ) (s : RF), RfOkR rnd x p₁ s → ∃ s', rfIsDegenerateR rnd s =
      (s', .ok (decide ((p₂.1.length = 1 ∧ p₂.2.1.length = 1) ∨ p₂.1.length = 0 ∨ p₂.1 = [0]))) := by
    intro rnd x s h
    obtain ⟨s', e, h'⟩ := f₂ rnd x s h
    have e : rfCanonR rnd s = (s', .ok ()) := e
    refine ⟨s', ?_⟩
    rw [rfIsDegenerateR, PyM.bind_ok e, PyM.bind_ok (show PyM.get s' = (s', .ok s') from rfl), ← h'.coeffs]
    rfl
  refine ⟨p₁, decide ((p₂.1.length = 1 ∧ p₂.2.1.length = 1) ∨ p₂.1.length = 0 ∨ p₂.1 = [0]), fun rnd x => ?_, ?_⟩
  · obtain ⟨s, e, h⟩ := f rnd x _ (rfInitR_ok rnd hp x)
    obtain ⟨s', e'⟩ := hb rnd x s h
    exact ⟨s, s', e, h.params, e'⟩
  · obtain ⟨s, s', b, e, e', h⟩ := C45_rational_degenerate_partial hp₁ 0 []
    cases e
    obtain ⟨t, et⟩ := hb id 0 _ (rfInitR_ok id hp₁ 0)
    have hinit : rfInitR id p₁ 0 = RF.init p₁ 0 := by rw [rfInitR, RF.init, calcValR_id]
    rw [rfIsDegenerateR_id, hinit, e'] at et
    rw [← Except.ok.inj (Prod.mk.inj et).2]
    exact h

example : RfLegal ([2, 4], [1, 2], 3) := ⟨by decide, 1, by decide, by decide⟩

theorem rfBodyR_params {rnd : ℚ → ℚ} {e : RFEnum} {n d : List ℤ}
    (h : (∃ c ∈ d, c ≠ 0) → (subsAtR rnd n e.x ≠ 0 ∧ subsAtR rnd d e.x ≠ 0) ∧ subsAtR id n e.x ≠ 0 ∧ subsAtR id d e.x ≠ 0) :
    (rfBodyR rnd e n d).map RF.params = (e.body n d).map RF.params := by
  rw [rfBodyR, RFEnum.body]
  by_cases h1 : ∃ c ∈ d, c ≠ 0
  · obtain ⟨⟨a1, a2⟩, a3, a4⟩ := h h1
    rw [subsAtR_id] at a3 a4
    simp only [a1, a2, a3, a4, or_false, if_false]
    split
    · rfl
    split
    · rfl
    split <;> rfl
  · rw [if_pos ((any_iff d).2 h1), if_pos ((any_iff d).2 h1)]

theorem rfBodyR_mem {rnd : ℚ → ℚ} {e : RFEnum} {n d : List ℤ} {s : RF} (h : s ∈ rfBodyR rnd e n d) :
    s = rfInitR rnd (n, d, 0) e.x ∧ ∃ c ∈ d, c ≠ 0 := by
  rw [rfBodyR] at h
  split at h
  · cases h
  · rename_i h1
    split at h
    · cases h
    split at h
    · cases h
    split at h
    · cases h
    · refine ⟨List.mem_singleton.1 h, ?_⟩
      by_contra hc
      exact h1 ((any_iff d).2 hc)

theorem RFEnum.init_fields {num den : List Rng} {bigger : Bool} {x : ℚ} {e : RFEnum} (h : RFEnum.init num den bigger x = .ok e) :
    e.num = num ∧ e.den = den ∧ e.bigger = bigger ∧ e.x = x := by
  rw [RFEnum.init] at h
  match num, den with
  | [], _ => cases h
  | r :: num, [] => simp only [List.map_cons, reduceMul_eq, List.map_nil] at h; cases h
  | r :: num, r' :: den =>
    simp only [List.map_cons, reduceMul_eq] at h
    cases Except.ok.inj h
    exact ⟨rfl, rfl, rfl, rfl⟩

/-- **C125 (enumeration).** If no polynomial with coefficients in the ranges, except the zero polynomial, vanishes at the true constant (as for a
transcendental one), then with enough precision the enumerator yields exactly the pairs in the ranges that are not zero, not both constant and
respect `force_bigger_numerator`, each once, each with a value that is a number near the documented one. -/
theorem C125_enumeration {num den : List Rng} {bigger : Bool} {ξ : ℝ}
    (h0 : ∀ cs, InRange num cs ∨ InRange den cs → (∃ c ∈ cs, c ≠ 0) → polyReal cs ξ ≠ 0) {ε : ℝ} (hε : 0 < ε) :
    ∃ δ > (0 : ℝ), ∃ δ' > (0 : ℚ), ∀ (rnd : ℚ → ℚ) (u : ℚ) (M : ℤ) (x : ℚ), RoundOk rnd u M → u ≤ δ' → |(x : ℝ) - ξ| < δ →
      ∀ e, RFEnum.init num den bigger x = .ok e →
        (∀ p, p ∈ (rfGeneratorR rnd e).map RF.params ↔ InRange num p.1 ∧ InRange den p.2.1 ∧ p.2.2 = 0 ∧ (∃ c ∈ p.1, c ≠ 0) ∧ (∃ c ∈ p.2.1, c ≠ 0) ∧
          ∀ dn dd, IsDegree p.1 dn → IsDegree p.2.1 dd → ¬ (dn ≤ 0 ∧ dd ≤ 0) ∧ (bigger = true → dd ≤ dn)) ∧
        ((rfGeneratorR rnd e).map RF.params).Nodup ∧
        ∀ s ∈ rfGeneratorR rnd e, ∃ w, s.val = .fin w ∧ |(w : ℝ) - rfReal s.params ξ| < ε := by
  set ns := product (num.map pyRange) with hns
  set ds := product (den.map pyRange) with hds
  have ev : ∀ᶠ t in precise ξ, ∀ n ∈ ns, ∀ d ∈ ds, (∃ c ∈ n, c ≠ 0) → (∃ c ∈ d, c ≠ 0) →
      (subsAtR t.rnd n t.x ≠ 0 ∧ subsAtR t.rnd d t.x ≠ 0) ∧
        ∃ w, calcValR t.rnd n d 0 t.x = .fin w ∧ |(w : ℝ) - rfReal (n, d, 0) ξ| < ε := by
    refine (eventually_all_finite ns.finite_toSet).2 fun n hn => (eventually_all_finite ds.finite_toSet).2 fun d hd => ?_
    by_cases hn0 : ∃ c ∈ n, c ≠ 0
    swap
    · exact .of_forall fun t h => absurd h hn0
    by_cases hd0 : ∃ c ∈ d, c ≠ 0
    swap
    · exact .of_forall fun t _ h => absurd h hd0
    have n1 := h0 n (.inl ((mem_coeffs _ _).1 hn)) hn0
    have d1 := h0 d (.inr ((mem_coeffs _ _).1 hd)) hd0
    obtain ⟨w, w1, w2⟩ := tendsto_calcVal 0 n1 d1
    filter_upwards [(tendsto_subsAt n ξ).eventually_ne n1, (tendsto_subsAt d ξ).eventually_ne d1, w1, Metric.tendsto_nhds.1 w2 ε hε]
      with t g1 g2 g3 g4 _ _
    refine ⟨⟨fun h => g1 (by rw [h]; simp), fun h => g2 (by rw [h]; simp)⟩, w t, g3, ?_⟩
    rwa [Real.dist_eq] at g4
  obtain ⟨δ, e1, δ', e2, h⟩ := precise_bounds ev
  refine ⟨δ, e1, δ', e2, fun rnd u M x hr hu hx e he => ?_⟩
  have k1 := h rnd u M x hr hu hx
  have k2 := h id 0 0 x ⟨le_rfl, zero_lt_one, fun x => by simp, fun m _ => rfl⟩ e2.le hx
  obtain ⟨f1, f2, f3, f4⟩ := RFEnum.init_fields he
  have hpar : (rfGeneratorR rnd e).map RF.params = e.generator.map RF.params := by
    rw [rfGeneratorR, RFEnum.generator, List.map_flatMap, List.map_flatMap, f1, f2]
    refine List.flatMap_congr fun n hn => ?_
    by_cases hn0 : ∃ c ∈ n, c ≠ 0
    swap
    · rw [if_pos ((any_iff n).2 hn0), if_pos ((any_iff n).2 hn0)]
    rw [if_neg fun h' => (any_iff n).1 h' hn0, if_neg fun h' => (any_iff n).1 h' hn0, List.map_flatMap, List.map_flatMap]
    refine List.flatMap_congr fun d hd => rfBodyR_params fun hd0 => ?_
    rw [f4]
    exact ⟨(k1 n hn d hd hn0 hd0).1, (k2 n hn d hd hn0 hd0).1⟩
  obtain ⟨g1, g2, -, -⟩ := C49_rational_enumeration he
  refine ⟨fun p => ?_, by rw [hpar]; exact g2, fun s hs => ?_⟩
  · rw [hpar, g1]
    constructor
    · rintro ⟨a1, a2, a3, a4, a5, a6, -⟩
      exact ⟨a1, a2, a3, a4, a5, a6⟩
    · rintro ⟨a1, a2, a3, a4, a5, a6⟩
      obtain ⟨b1, b2⟩ := (k2 _ ((mem_coeffs _ _).2 a1) _ ((mem_coeffs _ _).2 a2) a4 a5).1
      simp only [subsAtR_id, Utils.subsInPolynom_eq_horner] at b1 b2
      exact ⟨a1, a2, a3, a4, a5, a6, b1, b2⟩
  · rw [rfGeneratorR, List.mem_flatMap, f1, f2] at hs
    obtain ⟨n, hn, hs⟩ := hs
    by_cases hn0 : ∃ c ∈ n, c ≠ 0
    swap
    · rw [if_pos ((any_iff n).2 hn0)] at hs
      cases hs
    rw [if_neg fun h' => (any_iff n).1 h' hn0, List.mem_flatMap] at hs
    obtain ⟨d, hd, hs⟩ := hs
    obtain ⟨rfl, hd0⟩ := rfBodyR_mem hs
    rw [f4]
    exact (k1 n hn d hd hn0 hd0).2

/-! ### Refinement -/

/-- `RationalFuncEvaluator` with rounding; `is_equiv` is not used in the refinement. -/
noncomputable def rfClassR (rnd : ℚ → ℚ) : LhsClass RF :=
  { rfClass with
    copy := fun s => .ok (rfInitR rnd s.params s.x)
    isDegenerate := rfIsDegenerateR rnd
    flipSign := rfFlipR rnd
    addInt := rfAddR rnd
    canon := rfCanonR rnd }

theorem rfClassR_total (rnd : ℚ → ℚ) (x : ℚ) : LhsTotal (rfClassR rnd) (fun s => ∃ p, RfOkR rnd x p s) where
  flip l := fun ⟨_, h⟩ => by
    obtain ⟨p', f, -⟩ := rfCallR_ok .flip h.legal
    obtain ⟨s', e, h'⟩ := f rnd x l h
    exact ⟨s', e, p', h'⟩
  add l n := fun ⟨_, h⟩ => by
    obtain ⟨p', f, -⟩ := rfCallR_ok (.add n) h.legal
    obtain ⟨s', e, h'⟩ := f rnd x l h
    exact ⟨s', e, p', h'⟩
  canon l := fun ⟨_, h⟩ => by
    obtain ⟨p', f, -⟩ := rfCallR_ok .canon h.legal
    obtain ⟨s', e, h'⟩ := f rnd x l h
    exact ⟨s', e, p', h'⟩

/-- The continued fraction can be evaluated from some depth on and its values tend to a number `r`; the function, computed with enough bits,
maps the numbers near `r` to numbers near `limit` (`funcs p` are the functions with `p` bits). -/
def RhsConverges (funcs : ℕ → List (Num → Except PyErr Num)) (a b : EnumPoly.Polys) (post : ℕ) (limit : ℝ) : Prop :=
  a ≠ [] ∧ b ≠ [] ∧ ∃ (v : ℕ → ℚ) (r : ℝ),
    (∀ᶠ m in atTop, nested (fun i => (seqAt a i : ℚ)) (fun i => (seqAt b i : ℚ)) 0 m = some (v m)) ∧
    Tendsto (fun m => (v m : ℝ)) atTop (𝓝 r) ∧
    ∀ ε > 0, ∃ η > 0, ∀ᶠ p in atTop, ∃ f, (funcs p)[post]? = some f ∧
      ∀ x : ℚ, |(x : ℝ) - r| < η → ∃ y : ℚ, f (.fin x) = .ok (.fin y) ∧ |(y : ℝ) - limit| < ε

/-- A continued fraction with a function and the parameters of an LHS, and the limit of the right hand side. -/
structure RfCandidate where
  a : EnumPoly.Polys
  b : EnumPoly.Polys
  post : ℕ
  params : List ℤ × List ℤ × ℤ
  limit : ℝ

/-- `c` is the click of this candidate: its LHS is an evaluator for the constant `x`, after any sequence of calls. -/
def IsRfClick (rnd : ℚ → ℚ) (x : ℚ) (k : RfCandidate) (c : Click RF) : Prop :=
  c.a = k.a ∧ c.b = k.b ∧ c.post = k.post ∧ c.lhs.params = k.params ∧
    ∃ p ops, RfLegal p ∧ rfRunR rnd ops (rfInitR rnd p x) = (c.lhs, .ok ())

/-- Arithmetic with `p` bits, as `mpf` or (with `p` decimal digits) `Decimal`. -/
def Bits (rnd : ℕ → ℚ → ℚ) : Prop := ∀ p, 1 ≤ p → RoundOk (rnd p) (1 / 2 ^ p) (2 ^ p)

theorem rhs_near {rnd : ℕ → ℚ → ℚ} (hR : Bits rnd) {funcs : ℕ → List (Num → Except PyErr Num)} {a b : EnumPoly.Polys} {post : ℕ} {limit : ℝ}
    (h : RhsConverges funcs a b post limit) {ε : ℝ} (hε : 0 < ε) : ∃ N, ∀ m, N ≤ m → ∃ p₀, ∀ p, p₀ ≤ p → ∀ info, ∃ f v y,
      (funcs p)[post]? = some f ∧ evalConstR (rnd p) m a b info = .ok v ∧ f v = .ok (.fin y) ∧ |((y : ℚ) : ℝ) - limit| < ε := by
  obtain ⟨hka, hkb, v, r, hv, hlim, hf⟩ := h
  obtain ⟨η, hη, hf⟩ := hf ε hε
  obtain ⟨P, hP⟩ := eventually_atTop.1 hf
  obtain ⟨N1, hN1⟩ := eventually_atTop.1 hv
  obtain ⟨N2, hN2⟩ := (Metric.tendsto_atTop.1 hlim) (η / 2) (by linarith)
  refine ⟨max N1 N2 + 1, fun m hm => ?_⟩
  obtain ⟨m, rfl⟩ : ∃ k, m = k + 1 := ⟨m - 1, by omega⟩
  have hvm := hN1 m (by omega)
  have hd := hN2 m (by omega)
  rw [Real.dist_eq] at hd
  have hev : evalByPolys a b (m + 1) = .ok (v m) := by
    have := evalConst_nested hka hkb hvm none
    rw [evalConst] at this
    cases he : evalByPolys a b (m + 1) with
    | error e => rw [he] at this; cases this
    | ok w => rw [he] at this; cases this; rfl
  obtain ⟨e0, e1, e2⟩ := exists_rat_btwn (show (0 : ℝ) < η / 2 by linarith)
  obtain ⟨δ'', hδ'', M, hRv⟩ := C118_precision m (v m) hev e0 (by exact_mod_cast e1)
  obtain ⟨p₁, hp₁⟩ := bits_enough hδ'' M
  refine ⟨max P p₁, fun p hp info => ?_⟩
  obtain ⟨b1, b2, b3⟩ := hp₁ p (by omega)
  obtain ⟨f, hfp, hfx⟩ := hP p (by omega)
  obtain ⟨v', hv', hn⟩ := hRv _ _ _ (hR p b1) b2 b3
  have hn' : |(v' : ℝ) - v m| ≤ e0 := by exact_mod_cast hn
  obtain ⟨y, hy1, hy2⟩ := hfx v' (by
    calc |(v' : ℝ) - r| ≤ |(v' : ℝ) - v m| + |(v m : ℝ) - r| := abs_sub_le _ _ _
      _ < η := by linarith)
  refine ⟨f, .fin v', y, hfp, ?_, hy1, hy2⟩
  rw [evalConstR, hv']
  rfl

theorem rfCandidate_near {rnd : ℕ → ℚ → ℚ} (hR : Bits rnd) {funcs : ℕ → List (Num → Except PyErr Num)} {k : RfCandidate}
    (hk : RhsConverges funcs k.a k.b k.post k.limit) {ξ : ℝ} (hv : ∀ i : ℤ, rfReal k.params ξ ≠ i) {ε : ℝ} (hε : 0 < ε) :
    ∃ δ > (0 : ℝ), ∃ N, ∀ m, N ≤ m → ∃ p₀, ∀ p, p₀ ≤ p → ∀ (x : ℚ) (acc : ℤ) (eng : EngN) (c : Click RF), |(x : ℝ) - ξ| < δ →
      IsRfClick (rnd p) x k c → Approximates (rfClassR (rnd p)) (fun s => ∃ q, RfOkR (rnd p) x q s)
        ⟨funcs p, true, acc, eng, evalConstR (rnd p) m⟩ ε (k.limit, rfReal k.params ξ) c := by
  obtain ⟨δ, hδ, δ', hδ', hL⟩ := precise_bounds (rfVal_precise hv hε)
  obtain ⟨N, hN⟩ := rhs_near hR hk hε
  refine ⟨δ, hδ, N, fun m hm => ?_⟩
  obtain ⟨p₁, hp₁⟩ := hN m hm
  obtain ⟨p₂, hp₂⟩ := bits_enough hδ' 0
  refine ⟨max p₁ p₂, fun p hp x acc eng c hx hc => ?_⟩
  obtain ⟨b1, b2, -⟩ := hp₂ p (by omega)
  obtain ⟨ca, cb, cp, cl, q, ops, hq, hrun⟩ := hc
  obtain ⟨f, v, y, f1, f2, f3, f4⟩ := hp₁ p (by omega) c.conv
  obtain ⟨q', -, g, -⟩ := rfRunR_ok ops hq
  obtain ⟨s', es, hs⟩ := g (rnd p) x _ (rfInitR_ok _ hq x)
  rw [hrun] at es
  cases es
  obtain ⟨w, w1, w2⟩ := hL (rnd p) _ _ x (hR p b1) b2 hx
  refine ⟨⟨q', hs⟩, ⟨f, v, y, by simpa [cp] using f1, ?_, f3, f4⟩, w, ?_, w2⟩
  · show evalConstR (rnd p) m c.a c.b c.conv = _
    rw [ca, cb, f2]
  · show c.lhs.val = _
    rw [hs.val, ← hs.params, cl]
    exact w1

open Classical in
/-- **C125 (refinement).** Given a true constant `ξ` and clicks with rational functions whose continued fractions converge, such that both sides have
irrational limits with fractional parts above `10^-6`, and a number `n` of digits.  If the texts of numbers are precise enough, the constant is known
precisely enough, and with enough iterations, and then enough bits, a refinement that is not interrupted returns normally and keeps exactly the
clicks for which the rational function of `ξ` and the limit of the right hand side have the same first `n` digits. -/
theorem C125_refine {ξ : ℝ} {rnd : ℕ → ℚ → ℚ} (hR : Bits rnd) (funcs : ℕ → List (Num → Except PyErr Num)) (ks : List RfCandidate)
    (hks : ∀ k ∈ ks, RhsConverges funcs k.a k.b k.post k.limit) (hdec : ∀ k ∈ ks, Decidable10 (k.limit, rfReal k.params ξ)) (n : ℕ) :
    ∃ ε > 0, ∃ δ > 0, ∃ N, ∀ m, N ≤ m → ∃ p₀, ∀ p, p₀ ≤ p →
      ∀ (x : ℚ) (eng : EngN) (cs : List (Click RF)), |(x : ℝ) - ξ| < δ → Prints eng ε → List.Forall₂ (IsRfClick (rnd p) x) ks cs →
        ∃ kept, refineClicks (rfClassR (rnd p)) ⟨funcs p, true, n, eng, evalConstR (rnd p) m⟩ (none, cs) = ((none, kept), .ok ()) ∧
          List.Forall₂ SameClick
            (((ks.zip cs).filter fun q => decide (DigitsAgree n q.1.limit (rfReal q.1.params ξ))).map Prod.snd) kept := by
  obtain ⟨ε, he, hf⟩ := C114_limit_partial (L := RF) (ks.map fun k => (k.limit, rfReal k.params ξ)) (by simpa using hdec) n
  have key : ∃ δ > (0 : ℝ), ∃ N, ∀ m, N ≤ m → ∃ p₀, ∀ p, p₀ ≤ p →
      ∀ (x : ℚ) (eng : EngN) (cs : List (Click RF)), |(x : ℝ) - ξ| < δ → List.Forall₂ (IsRfClick (rnd p) x) ks cs →
        List.Forall₂ (Approximates (rfClassR (rnd p)) (fun s => ∃ q, RfOkR (rnd p) x q s) ⟨funcs p, true, n, eng, evalConstR (rnd p) m⟩ ε)
          (ks.map fun k => (k.limit, rfReal k.params ξ)) cs := by
    clear hf
    induction ks with
    | nil => exact ⟨1, one_pos, 0, fun m _ => ⟨0, fun p _ x eng cs _ h => by cases h; exact .nil⟩⟩
    | cons k ks ih =>
      obtain ⟨δ1, d1, N1, h1⟩ := ih (fun k hk => hks k (List.mem_cons_of_mem _ hk)) (fun k hk => hdec k (List.mem_cons_of_mem _ hk))
      have hirr : ∀ i : ℤ, rfReal k.params ξ ≠ i := (hdec k List.mem_cons_self).2.1.ne_int
      obtain ⟨δ2, d2, N2, h2⟩ := rfCandidate_near hR (hks k List.mem_cons_self) hirr he
      refine ⟨min δ1 δ2, lt_min d1 d2, max N1 N2, fun m hm => ?_⟩
      obtain ⟨p1, h1⟩ := h1 m (by omega)
      obtain ⟨p2, h2⟩ := h2 m (by omega)
      refine ⟨max p1 p2, fun p hp x eng cs hx h => ?_⟩
      cases h with
      | cons h hs =>
        exact .cons (h2 p (by omega) x n eng _ (hx.trans_le (min_le_right _ _)) h)
          (h1 p (by omega) x eng _ (hx.trans_le (min_le_left _ _)) hs)
  obtain ⟨δ, hδ, N, hN⟩ := key
  refine ⟨ε, he, δ, hδ, N, fun m hm => ?_⟩
  obtain ⟨p₀, hp₀⟩ := hN m hm
  refine ⟨p₀, fun p hp x eng cs hx hE hcs => ?_⟩
  obtain ⟨kept, k1, k2⟩ := hf _ _ ⟨funcs p, true, n, eng, evalConstR (rnd p) m⟩ cs (rfClassR_total _ x) rfl rfl hE (hp₀ p hp x eng cs hx hcs)
  refine ⟨kept, k1, ?_⟩
  convert k2 using 1
  rw [List.zip_map_left, List.filter_map, List.map_map]
  rfl

/-! ### Examples -/

theorem roundBin_bits : Bits roundBin := fun p hp => roundBin_ok p hp

/-- The precision matters: with 2 bits `(x - 3)/1` is NaN at `25/8`. -/
example : (rfInitR (roundBin 2) ([-3, 1], [1], 0) (25 / 8)).val = .nan ∧ (rfInitR (roundBin 8) ([-3, 1], [1], 0) (25 / 8)).val = .fin (1 / 8) := by
  constructor <;> decide +kernel

/-- `1/(1 + π)`, for any sequence of calls. -/
example (ops : List LhsOp) : ∃ δ > (0 : ℝ), ∃ δ' > (0 : ℚ), ∀ (rnd : ℚ → ℚ) (u : ℚ) (M : ℤ) (x : ℚ), RoundOk rnd u M → u ≤ δ' →
    |(x : ℝ) - Real.pi| < δ → ∃ s w, rfRunR rnd ops (rfInitR rnd ([1], [1, 1], 0) x) = (s, .ok ()) ∧ s.val = .fin w ∧
      |(w : ℝ) - ops.foldl (fun v op => op.realEffect v) (1 / (1 + Real.pi))| < 1 / 10 ^ 50 := by
  have e : rfReal ([1], [1, 1], 0) Real.pi = 1 / (1 + Real.pi) := by simp [rfReal, polyReal, Finset.sum_range_succ]
  rw [← e]
  refine C125_precision ⟨by simp, 1, by simp, by norm_num⟩ (fun k hk => ?_) ops (by positivity)
  have h3 := Real.pi_gt_three
  rw [e] at hk
  have h1 : (0 : ℝ) < k := by rw [← hk]; positivity
  have h2 : (k : ℝ) < 1 := by rw [← hk, div_lt_one (by linarith)]; linarith
  have h1' : 0 < k := by exact_mod_cast h1
  have h2' : k < 1 := by exact_mod_cast h2
  omega

/-- `(p_0 + p_1 π)/(q_0 + q_1 π)` with coefficients from -2 to 2. -/
example {ε : ℝ} (hε : 0 < ε) : ∃ δ > (0 : ℝ), ∃ δ' > (0 : ℚ), ∀ (rnd : ℚ → ℚ) (u : ℚ) (M : ℤ) (x : ℚ), RoundOk rnd u M → u ≤ δ' →
    |(x : ℝ) - Real.pi| < δ → ∀ e, RFEnum.init [(-2, 3), (-2, 3)] [(-2, 3), (-2, 3)] false x = .ok e →
      ∀ s ∈ rfGeneratorR rnd e, ∃ w, s.val = .fin w ∧ |(w : ℝ) - rfReal s.params Real.pi| < ε := by
  obtain ⟨δ, h1, δ', h2, h⟩ := C125_enumeration (num := [(-2, 3), (-2, 3)]) (den := [(-2, 3), (-2, 3)]) (bigger := false) (ξ := Real.pi) (by
    intro cs hcs h0
    rw [or_self] at hcs
    rw [InRange] at hcs
    obtain ⟨c0, cs1, -, hcs1, rfl⟩ := List.forall₂_cons_left_iff.1 hcs
    obtain ⟨c1, cs2, -, hcs2, rfl⟩ := List.forall₂_cons_left_iff.1 hcs1
    obtain rfl := List.forall₂_nil_left_iff.1 hcs2
    have e : polyReal [c0, c1] Real.pi = c0 + c1 * Real.pi := by simp [polyReal, Finset.sum_range_succ]
    rw [e]
    intro hz
    by_cases h1 : c1 = 0
    · subst h1
      simp at hz h0
      exact h0 hz
    · refine (irrational_pi.intCast_mul h1).ne_int (-c0) ?_
      push_cast
      linarith) hε
  exact ⟨δ, h1, δ', h2, fun rnd u M x hr hu hx e he => (h rnd u M x hr hu hx e he).2.2⟩

/-- `π + 3 = 6 + 1/(6 + 9/(6 + 25/(6 + ...)))`, with the correct rational function `(3 + π)/1` and the wrong one `π/2`: the first is kept, the
second is dropped. -/
example (n : ℕ) (hn : 1 ≤ n) : ∃ ε > (0 : ℝ), ∃ δ > 0, ∃ N, ∀ m, N ≤ m → ∃ p₀, ∀ p, p₀ ≤ p →
    ∀ (x : ℚ) (P : ℕ), |(x : ℝ) - Real.pi| < δ → 1 / 10 ^ P ≤ ε → ∃ c', refineClicks (rfClassR (roundBin p))
        ⟨[fun x => .ok x], true, n, cutEng P, evalConstR (roundBin p) m⟩
        (none, [⟨[[6]], [[1, -4, 4]], rfInitR (roundBin p) ([3, 1], [1], 0) x, 0, none⟩,
          ⟨[[6]], [[1, -4, 4]], rfInitR (roundBin p) ([0, 1], [2], 0) x, 0, none⟩]) = ((none, [c']), .ok ()) := by
  have hpi := Real.pi_gt_d2
  have hpi' := Real.pi_lt_d2
  have conv : RhsConverges (fun _ => [fun x => .ok x]) [[6]] [[1, -4, 4]] 0 (Real.pi + 3) := by
    refine ⟨by simp, by simp, fun m => (contP (seqAt [[6]]) (seqAt [[1, -4, 4]]) (m + 1) : ℚ) / contQ (seqAt [[6]]) (seqAt [[1, -4, 4]]) (m + 1),
      Real.pi + 3, .of_forall fun m => ?_, ?_, fun ε he => ⟨ε, he, .of_forall fun p => ⟨_, rfl, fun x hx => ⟨x, rfl, hx⟩⟩⟩⟩
    · obtain ⟨v, hv, -⟩ := nested_positive (fun n _ => cf4_pos n) m 0
      rw [hv, (nested_eq_cont _ _ _ _ hv).2]
    · have := poly_tendsto cf4_poly (by norm_num)
      push_cast
      exact this
  obtain ⟨e1, e2⟩ := pi_limits
  have r1 : rfReal ([3, 1], [1], 0) Real.pi = Real.pi + 3 := by simp [rfReal, polyReal, Finset.sum_range_succ, add_comm]
  have r2 : rfReal ([0, 1], [2], 0) Real.pi = Real.pi / 2 := by simp [rfReal, polyReal, Finset.sum_range_succ]
  have i1 : Irrational (Real.pi + 3) := irrational_pi.add_natCast 3
  have i2 : Irrational (Real.pi / 2) := irrational_pi.div_natCast (by norm_num : (2 : ℕ) ≠ 0)
  have f1 : 1 / 10 ^ 6 < Int.fract |Real.pi + 3| := by rw [e1]; norm_num at hpi ⊢; linarith
  have f2 : 1 / 10 ^ 6 < Int.fract |Real.pi / 2| := by rw [e2]; norm_num at hpi ⊢; linarith
  obtain ⟨ε, he, δ, hd, N, hN⟩ := C125_refine (ξ := Real.pi) roundBin_bits (fun _ => [fun x => .ok x])
    [⟨[[6]], [[1, -4, 4]], 0, ([3, 1], [1], 0), Real.pi + 3⟩, ⟨[[6]], [[1, -4, 4]], 0, ([0, 1], [2], 0), Real.pi + 3⟩]
    (by
      intro k hk
      simp only [List.mem_cons, List.not_mem_nil, or_false] at hk
      rcases hk with rfl | rfl <;> exact conv)
    (by
      intro k hk
      simp only [List.mem_cons, List.not_mem_nil, or_false] at hk
      rcases hk with rfl | rfl
      · rw [r1]; exact ⟨i1, i1, f1, f1⟩
      · rw [r2]; exact ⟨i1, i2, f1, f2⟩) n
  refine ⟨ε, he, δ, hd, N, fun m hm => ?_⟩
  obtain ⟨p₀, hp⟩ := hN m hm
  refine ⟨p₀, fun p hpp x P hx hP => ?_⟩
  obtain ⟨kept, k1, k2⟩ := hp p hpp x (cutEng P) [⟨[[6]], [[1, -4, 4]], rfInitR (roundBin p) ([3, 1], [1], 0) x, 0, none⟩,
      ⟨[[6]], [[1, -4, 4]], rfInitR (roundBin p) ([0, 1], [2], 0) x, 0, none⟩] hx
    (Prints.mono (cutEng_prints P) hP) (.cons ⟨rfl, rfl, rfl, rfl, ([3, 1], [1], 0), [], ⟨by simp, 1, by simp, by norm_num⟩, rfl⟩
      (.cons ⟨rfl, rfl, rfl, rfl, ([0, 1], [2], 0), [], ⟨by simp, 2, by simp, by norm_num⟩, rfl⟩ .nil))
  have d1 : DigitsAgree n (Real.pi + 3) (Real.pi + 3) := (digitsAgree_cases n _ _).1 rfl
  have d2 : ¬ DigitsAgree n (Real.pi + 3) (Real.pi / 2) := (digitsAgree_cases n _ _).2 (by
    rw [e1, e2, abs_of_neg (by linarith)]
    have : (1 : ℝ) / 10 ^ n ≤ 1 / 10 ^ 1 := one_div_le_one_div_of_le (by norm_num) (pow_le_pow_right₀ (by norm_num) hn)
    norm_num at this hpi' ⊢
    linarith)
  simp only [List.zip_cons_cons, List.zip_nil_right, List.filter_cons, r1, r2, d1, d2, decide_true, decide_false, if_true, List.filter_nil,
    List.map_cons, List.map_nil, Bool.false_eq_true, if_false] at k2
  cases k2 with
  | cons h h' =>
    cases h'
    exact ⟨_, k1⟩

end PiCF
