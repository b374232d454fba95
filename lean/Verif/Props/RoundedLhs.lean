import Mathlib.Topology.Algebra.Order.Field
import Verif.Model.RoundedLhs
import Verif.Props.Rounded
import Verif.Props.Ulcd

/-!
# C120: refinement of ULCD clicks with rounding on both sides
-/

namespace PiCF
open PiCF.Spec PiCF.Mitm PiCF.Lhs PiCF.ContFrac PiCF.DecStr PiCF.Rounded Filter Topology

/-! ### The values of the evaluators -/

theorem round_step {rnd : ℚ → ℚ} {u : ℚ} {M : ℤ} (h : RoundOk rnd u M) {s S F T : ℚ} (h1 : |s - S| ≤ (F - 1) * T) (h2 : |S| ≤ T) :
    |rnd s - S| ≤ ((1 + u) * F - 1) * T := by
  have e1 := h.err s
  have e2 : |s| ≤ F * T := by
    calc |s| = |S + (s - S)| := by ring_nf
      _ ≤ |S| + |s - S| := abs_add_le _ _
      _ ≤ F * T := by linarith
  have e3 := mul_le_mul_of_nonneg_left e2 h.u0
  calc |rnd s - S| ≤ |rnd s - s| + |s - S| := abs_sub_le _ _ _
    _ ≤ ((1 + u) * F - 1) * T := by linarith

theorem ulcdValR_near {rnd : ℚ → ℚ} {u : ℚ} {M : ℤ} (h : RoundOk rnd u M) {x : ℚ} {p : ℤ × ℤ × ℤ × ℤ} (hx : x ≠ 0) (hp : UlcdLegal p) :
    ∃ v, ulcdValR rnd x p = .ok v ∧ |v - ulcdExpr p x| ≤ ((1 + u) ^ 4 - 1) * ulcdSize p x := by
  obtain ⟨a, l, c, d⟩ := p
  obtain ⟨hl, hd⟩ := hp
  simp only at hl hd
  rw [ulcdValR, if_neg (by simp [hx, hl, hd])]
  refine ⟨_, rfl, ?_⟩
  simp only [ulcdExpr, ulcdSize]
  have hd0 : (0 : ℚ) < |(d : ℚ)| := abs_pos.2 (by exact_mod_cast hd)
  have k1 := round_step h (s := a / x) (S := a / x) (F := 1) (T := |a / x|) (by simp) le_rfl
  have k2 := round_step h (s := x / l) (S := x / l) (F := 1) (T := |x / l|) (by simp) le_rfl
  have k3 := round_step h (s := rnd (a / x) + rnd (x / l)) (S := a / x + x / l) (F := (1 + u) * 1) (T := |a / x| + |x / l|) (by
    calc _ = |(rnd (a / x) - a / x) + (rnd (x / l) - x / l)| := by ring_nf
      _ ≤ _ := (abs_add_le _ _).trans (by linarith)) (abs_add_le _ _)
  have k4 := round_step h (s := rnd (rnd (a / x) + rnd (x / l)) + c) (S := a / x + x / l + c) (F := (1 + u) * ((1 + u) * 1))
    (T := |a / x| + |x / l| + |(c : ℚ)|) (by
      have hF : 0 ≤ (1 + u) * ((1 + u) * 1) - 1 := by nlinarith [h.u0]
      have := mul_nonneg hF (abs_nonneg (c : ℚ))
      calc _ = |rnd (rnd (a / x) + rnd (x / l)) - (a / x + x / l)| := by ring_nf
        _ ≤ _ := by linarith) ((abs_add_le _ _).trans (by linarith [abs_add_le (a / x) (x / l)]))
  have k5 := round_step h (s := rnd (rnd (rnd (a / x) + rnd (x / l)) + c) / d) (S := (a / x + x / l + c) / d)
    (F := (1 + u) * ((1 + u) * ((1 + u) * 1))) (T := (|a / x| + |x / l| + |(c : ℚ)|) / |(d : ℚ)|) (by
      rw [← sub_div, abs_div, ← mul_div_assoc]
      exact div_le_div_of_nonneg_right k4 hd0.le) (by
      rw [abs_div]
      exact div_le_div_of_nonneg_right ((abs_add_le _ _).trans (by linarith [abs_add_le (a / x) (x / l)])) hd0.le)
  calc _ ≤ _ := k5
    _ = _ := by ring

/-- The method called by an operation, with rounding. -/
def ulcdCallR (rnd : ℚ → ℚ) : LhsOp → PyM Ulcd Unit
  | .flip => flipSignR rnd
  | .add n => addIntR rnd n
  | .canon => Ulcd.canonalizeParams

/-- A sequence of calls. -/
def ulcdRunR (rnd : ℚ → ℚ) : List LhsOp → PyM Ulcd Unit
  | [] => pure ()
  | op :: ops => do
    ulcdCallR rnd op
    ulcdRunR rnd ops

/-- An evaluator for the constant `x`, whose value is computed from its parameters. -/
def UlcdOkR (rnd : ℚ → ℚ) (x : ℚ) (s : Ulcd) : Prop := s.x = x ∧ x ≠ 0 ∧ UlcdLegal s.params ∧ ulcdValR rnd x s.params = .ok s.val

theorem ulcdValR_ok {rnd : ℚ → ℚ} {x v : ℚ} {p : ℤ × ℤ × ℤ × ℤ} (h : ulcdValR rnd x p = .ok v) : x ≠ 0 ∧ UlcdLegal p := by
  obtain ⟨u, l, c, d⟩ := p
  rw [ulcdValR] at h
  split at h
  · cases h
  · rename_i hn
    simp only [not_or] at hn
    exact ⟨hn.1, hn.2.1, hn.2.2⟩

theorem ulcdValR_total (rnd : ℚ → ℚ) {x : ℚ} {p : ℤ × ℤ × ℤ × ℤ} (hx : x ≠ 0) (hp : UlcdLegal p) : ∃ v, ulcdValR rnd x p = .ok v := by
  obtain ⟨a, l, c, d⟩ := p
  obtain ⟨hl, hd⟩ := hp
  simp only at hl hd
  exact ⟨_, by rw [ulcdValR, if_neg (by simp [hx, hl, hd])]⟩

theorem ulcdInitR_ok {rnd : ℚ → ℚ} {x : ℚ} {p : ℤ × ℤ × ℤ × ℤ} {s : Ulcd} (h : ulcdInitR rnd p x = .ok s) : UlcdOkR rnd x s ∧ s.params = p := by
  rw [ulcdInitR] at h
  cases hv : ulcdValR rnd x p with
  | error e => rw [hv] at h; cases h
  | ok v =>
    rw [hv] at h
    cases Except.ok.inj h
    obtain ⟨h1, h2⟩ := ulcdValR_ok hv
    exact ⟨⟨rfl, h1, h2, hv⟩, rfl⟩

theorem assignR_ok (rnd : ℚ → ℚ) {x : ℚ} {s : Ulcd} {p : ℤ × ℤ × ℤ × ℤ} (hs : s.x = x) (hx : x ≠ 0) (hp : UlcdLegal p) :
    ∃ s', assignR rnd p s = (s', .ok ()) ∧ UlcdOkR rnd x s' ∧ s'.params = p := by
  obtain ⟨v, hv⟩ := ulcdValR_total rnd hx hp
  refine ⟨⟨p, x, v⟩, ?_, ⟨rfl, hx, hp, hv⟩, rfl⟩
  rw [assignR, hs, hv]

theorem ulcdCallR_ok {rnd : ℚ → ℚ} {x : ℚ} {s : Ulcd} (h : UlcdOkR rnd x s) (op : LhsOp) :
    ∃ s', ulcdCallR rnd op s = (s', .ok ()) ∧ UlcdOkR rnd x s' ∧ ulcdExpr s'.params x = op.effect (ulcdExpr s.params x) := by
  obtain ⟨⟨u, l, c, d⟩, y, v⟩ := s
  have h' := h
  obtain ⟨rfl, hx, ⟨hl, hd⟩, hv⟩ := h'
  simp only at hl hd hv
  have hdq : (d : ℚ) ≠ 0 := by exact_mod_cast hd
  cases op with
  | flip =>
    obtain ⟨s', e, i, q⟩ := assignR_ok rnd (s := ⟨(u, l, c, d), y, v⟩) (p := (u, l, c, d * -1)) rfl hx ⟨hl, by simpa using hd⟩
    refine ⟨s', e, i, ?_⟩
    rw [q]
    simp only [LhsOp.effect, ulcdExpr]
    push_cast
    rw [mul_neg_one, div_neg]
  | add n =>
    obtain ⟨s', e, i, q⟩ := assignR_ok rnd (s := ⟨(u, l, c, d), y, v⟩) (p := (u, l, c + d * n, d)) rfl hx ⟨hl, hd⟩
    refine ⟨s', e, i, ?_⟩
    rw [q]
    simp only [LhsOp.effect, ulcdExpr]
    push_cast
    field_simp
    ring
  | canon => exact ⟨_, rfl, h, rfl⟩

theorem ulcdRunR_ok {rnd : ℚ → ℚ} {x : ℚ} (ops : List LhsOp) : ∀ {s : Ulcd}, UlcdOkR rnd x s → ∃ s', ulcdRunR rnd ops s = (s', .ok ()) ∧
    UlcdOkR rnd x s' ∧ ulcdExpr s'.params x = ops.foldl (fun v op => op.effect v) (ulcdExpr s.params x) := by
  induction ops with
  | nil => intro s h; exact ⟨s, rfl, h, rfl⟩
  | cons op ops ih =>
    intro s h
    obtain ⟨s1, e1, h1, v1⟩ := ulcdCallR_ok h op
    obtain ⟨s2, e2, h2, v2⟩ := ih h1
    refine ⟨s2, ?_, h2, by rw [v2, v1]; rfl⟩
    rw [ulcdRunR, PyM.bind_ok e1, e2]

/-- **C120 (values).** Every sequence of `flip_sign()` and `add_int(i)` calls on a ULCD evaluator that computes with rounded numbers succeeds.
The errors do not accumulate: however long the sequence is, the value differs from the documented effect of the calls on the exact value by at
most four roundings of the terms in the present parameters.  The value is determined by the parameters. -/
theorem C120_calls {rnd : ℚ → ℚ} {u : ℚ} {M : ℤ} (h : RoundOk rnd u M) {p : ℤ × ℤ × ℤ × ℤ} {x : ℚ} {s : Ulcd}
    (hs : ulcdInitR rnd p x = .ok s) (ops : List LhsOp) :
    ∃ s', ulcdRunR rnd ops s = (s', .ok ()) ∧
      |s'.val - ops.foldl (fun v op => op.effect v) (ulcdExpr p x)| ≤ ((1 + u) ^ 4 - 1) * ulcdSize s'.params x ∧
      (s'.params = p → s'.val = s.val) := by
  obtain ⟨hok, hp⟩ := ulcdInitR_ok hs
  obtain ⟨s', e, h', v⟩ := ulcdRunR_ok ops hok
  refine ⟨s', e, ?_, fun hpp => ?_⟩
  · obtain ⟨w, hw, hn⟩ := ulcdValR_near h h'.2.1 h'.2.2.1
    rw [h'.2.2.2] at hw
    cases hw
    rw [hp] at v
    rwa [← v]
  · have h1 := h'.2.2.2
    have h2 := hok.2.2.2
    rw [hpp, ← hp, h2] at h1
    exact (Except.ok.inj h1).symm

theorem roundEven_neg (x : ℚ) : Rounded.roundEven (-x) = -Rounded.roundEven x := by
  have h1 := Int.floor_le x
  have h2 := Int.lt_floor_add_one x
  rcases eq_or_lt_of_le h1 with h | h
  · rw [← h, roundEven_int, ← Int.cast_neg, roundEven_int]
  · have hf : ⌊-x⌋ = -⌊x⌋ - 1 := by
      rw [Int.floor_eq_iff]
      push_cast
      constructor <;> linarith
    unfold Rounded.roundEven
    rw [hf]
    push_cast
    split_ifs <;> first | omega | (exfalso; linarith)

theorem roundBin_neg (p : ℕ) (x : ℚ) : roundBin p (-x) = -roundBin p x := by
  unfold roundBin
  by_cases hx : x = 0
  · simp [hx]
  · rw [if_neg (by simpa using hx), if_neg hx, abs_neg, neg_div, roundEven_neg]
    push_cast
    ring

/-- **C120 (sign).** With the rounding of mpmath `flip_sign()` negates the value exactly. -/
theorem C120_flip {prec : ℕ} {p : ℤ × ℤ × ℤ × ℤ} {x : ℚ} {s : Ulcd} (hs : ulcdInitR (roundBin prec) p x = .ok s) (ops : List LhsOp) :
    ∃ s' s'', ulcdRunR (roundBin prec) ops s = (s', .ok ()) ∧ flipSignR (roundBin prec) s' = (s'', .ok ()) ∧ s''.val = -s'.val := by
  obtain ⟨hok, -⟩ := ulcdInitR_ok hs
  obtain ⟨s', e, h', -⟩ := ulcdRunR_ok ops hok
  obtain ⟨s'', e', h'', -⟩ := ulcdCallR_ok h' .flip
  refine ⟨s', s'', e, e', ?_⟩
  obtain ⟨⟨u, l, c, d⟩, y, v⟩ := s'
  obtain ⟨rfl, hx, ⟨hl, hd⟩, hv⟩ := h'
  simp only at hl hd hv
  replace e' : assignR (roundBin prec) (u, l, c, d * -1) ⟨(u, l, c, d), y, v⟩ = (s'', .ok ()) := e'
  rw [ulcdValR, if_neg (by simp [hx, hl, hd])] at hv
  rw [assignR, ulcdValR, if_neg (by simp [hx, hl, hd])] at e'
  cases e'
  cases hv
  simp only
  push_cast
  rw [mul_neg_one, div_neg, roundBin_neg]

/-! ### The limit of many bits -/

/-- The documented value of a ULCD left hand side for a real constant. -/
noncomputable def ulcdReal (p : ℤ × ℤ × ℤ × ℤ) (x : ℝ) : ℝ := (p.1 / x + x / p.2.1 + p.2.2.1) / p.2.2.2

theorem ulcdReal_cast (p : ℤ × ℤ × ℤ × ℤ) (x : ℚ) : ((ulcdExpr p x : ℚ) : ℝ) = ulcdReal p x := by
  simp [ulcdExpr, ulcdReal]

/-- **C120 (precision).** The value of an evaluator tends to the documented expression in the true constant, as the constant is given more
precisely and the precision grows. -/
theorem C120_precision {p : ℤ × ℤ × ℤ × ℤ} (hp : UlcdLegal p) {ξ : ℝ} (hξ : ξ ≠ 0) {ε : ℝ} (hε : 0 < ε) : ∃ δ > (0 : ℝ), ∃ δ' > (0 : ℚ),
    ∀ (rnd : ℚ → ℚ) (u : ℚ) (M : ℤ) (x : ℚ), RoundOk rnd u M → u ≤ δ' → |(x : ℝ) - ξ| < δ →
      ∃ s, ulcdInitR rnd p x = .ok s ∧ |(s.val : ℝ) - ulcdReal p ξ| < ε := by
  have c1 : ContinuousAt (ulcdReal p) ξ := by
    unfold ulcdReal
    exact (((continuousAt_const.div continuousAt_id hξ).add (continuousAt_id.div_const _)).add continuousAt_const).div_const _
  set sz : ℝ → ℝ := fun x => (|p.1 / x| + |x / p.2.1| + |(p.2.2.1 : ℝ)|) / |(p.2.2.2 : ℝ)| with hsz
  have c2 : ContinuousAt sz ξ :=
    ((((continuousAt_const.div continuousAt_id hξ).abs).add (continuousAt_id.div_const _).abs).add continuousAt_const).div_const _
  have hs0 : 0 ≤ sz ξ := by positivity
  obtain ⟨δ1, d1, f1⟩ := Metric.continuousAt_iff.1 c1 (ε / 2) (by linarith)
  obtain ⟨δ2, d2, f2⟩ := Metric.continuousAt_iff.1 c2 1 one_pos
  have c3 : Tendsto (fun t : ℝ => ((1 + t) ^ 4 - 1) * (sz ξ + 1)) (𝓝 0) (𝓝 (((1 + 0) ^ 4 - 1) * (sz ξ + 1))) :=
    (Continuous.tendsto (by fun_prop) 0)
  rw [show ((1 + 0) ^ 4 - 1) * (sz ξ + 1) = (0 : ℝ) by ring] at c3
  obtain ⟨δ3, d3, f3⟩ := Metric.tendsto_nhds_nhds.1 c3 (ε / 2) (by linarith)
  obtain ⟨δ', e1, e2⟩ := exists_rat_btwn d3
  refine ⟨min (min δ1 δ2) |ξ|, by positivity, δ', by exact_mod_cast e1, fun rnd u M x h hu hx => ?_⟩
  have x1 : |(x : ℝ) - ξ| < δ1 := hx.trans_le ((min_le_left _ _).trans (min_le_left _ _))
  have x2 : |(x : ℝ) - ξ| < δ2 := hx.trans_le ((min_le_left _ _).trans (min_le_right _ _))
  have x3 : |(x : ℝ) - ξ| < |ξ| := hx.trans_le (min_le_right _ _)
  have hx0 : x ≠ 0 := by
    rintro rfl
    simp at x3
  obtain ⟨v, hv, hn⟩ := ulcdValR_near h hx0 hp
  refine ⟨⟨p, x, v⟩, by rw [ulcdInitR, hv], ?_⟩
  show |(v : ℝ) - _| < ε
  have g1 := f1 (x := (x : ℝ)) (by rwa [Real.dist_eq])
  have g2 := f2 (x := (x : ℝ)) (by rwa [Real.dist_eq])
  rw [Real.dist_eq] at g1 g2
  have hu0 : (0 : ℝ) ≤ u := by exact_mod_cast h.u0
  have hu1 : (u : ℝ) < δ3 := lt_of_le_of_lt (by exact_mod_cast hu) e2
  have g3 := f3 (x := (u : ℝ)) (by rw [Real.dist_eq, sub_zero, abs_of_nonneg hu0]; exact hu1)
  rw [Real.dist_eq, sub_zero] at g3
  have hF : (0 : ℝ) ≤ (1 + u) ^ 4 - 1 := by
    have := one_le_pow₀ (show (1 : ℝ) ≤ 1 + u by linarith) (n := 4)
    linarith
  have hn' : |(v : ℝ) - ulcdReal p x| ≤ ((1 + u) ^ 4 - 1) * sz x := by
    rw [← ulcdReal_cast]
    have e : ((|v - ulcdExpr p x| : ℚ) : ℝ) ≤ ((((1 + u) ^ 4 - 1) * ulcdSize p x : ℚ) : ℝ) := by exact_mod_cast hn
    rw [ulcdSize] at e
    push_cast at e
    exact e
  have hsx : sz x ≤ sz ξ + 1 := by linarith [(abs_lt.1 g2).2]
  have h4 : |(v : ℝ) - ulcdReal p x| < ε / 2 := by
    calc _ ≤ ((1 + u) ^ 4 - 1) * sz x := hn'
      _ ≤ ((1 + u) ^ 4 - 1) * (sz ξ + 1) := mul_le_mul_of_nonneg_left hsx hF
      _ ≤ _ := le_abs_self _
      _ < ε / 2 := g3
  calc |(v : ℝ) - ulcdReal p ξ| ≤ |(v : ℝ) - ulcdReal p x| + |ulcdReal p x - ulcdReal p ξ| := abs_sub_le _ _ _
    _ < ε := by linarith

/-! ### Refinement -/

/-- `ULCDEvaluator` with rounding. -/
def ulcdClassR (rnd : ℚ → ℚ) : LhsClass Ulcd :=
  { ulcdClass with copy := fun s => ulcdInitR rnd s.params s.x, flipSign := flipSignR rnd, addInt := addIntR rnd }

theorem ulcdClassR_total (rnd : ℚ → ℚ) (x : ℚ) : LhsTotal (ulcdClassR rnd) (UlcdOkR rnd x) where
  flip l h := by obtain ⟨l', e, h', -⟩ := ulcdCallR_ok h .flip; exact ⟨l', e, h'⟩
  add l n h := by obtain ⟨l', e, h', -⟩ := ulcdCallR_ok h (.add n); exact ⟨l', e, h'⟩
  canon l h := ⟨l, rfl, h⟩

/-- A continued fraction with a function and the parameters of an LHS, and the limit of the right hand side. -/
structure Candidate where
  a : EnumPoly.Polys
  b : EnumPoly.Polys
  post : ℕ
  conv : Option Conv
  params : ℤ × ℤ × ℤ × ℤ
  limit : ℝ

/-- `c` is the click of this candidate: its LHS is an evaluator for the constant `x`, after any sequence of calls. -/
def IsClick (rnd : ℚ → ℚ) (x : ℚ) (k : Candidate) (c : Click Ulcd) : Prop :=
  c.a = k.a ∧ c.b = k.b ∧ c.post = k.post ∧ c.conv = k.conv ∧ c.lhs.params = k.params ∧
    ∃ p s ops, ulcdInitR rnd p x = .ok s ∧ ulcdRunR rnd ops s = (c.lhs, .ok ())

/-- The continued fraction can be evaluated from some depth on and its values tend to a number `r`; its function, computed with enough bits,
maps the numbers near `r` to numbers near `k.limit` (`funcs p` are the functions with `p` bits). -/
structure Candidate.Converges (funcs : ℕ → List (Num → Except PyErr Num)) (k : Candidate) : Prop where
  legal : UlcdLegal k.params
  a : k.a ≠ []
  b : k.b ≠ []
  lim : ∃ (v : ℕ → ℚ) (r : ℝ), (∀ᶠ m in atTop, nested (fun i => (seqAt k.a i : ℚ)) (fun i => (seqAt k.b i : ℚ)) 0 m = some (v m)) ∧
    Tendsto (fun m => (v m : ℝ)) atTop (𝓝 r) ∧
    ∀ ε > 0, ∃ η > 0, ∀ᶠ p in atTop, ∃ f, (funcs p)[k.post]? = some f ∧
      ∀ x : ℚ, |(x : ℝ) - r| < η → ∃ y : ℚ, f (.fin x) = .ok (.fin y) ∧ |(y : ℝ) - k.limit| < ε

theorem bits_enough {δ : ℚ} (hδ : 0 < δ) (M : ℤ) : ∃ p₀, ∀ p, p₀ ≤ p → 1 ≤ p ∧ 1 / 2 ^ p ≤ δ ∧ M ≤ 2 ^ p := by
  obtain ⟨n, hn⟩ := exists_nat_gt (1 / δ)
  refine ⟨max (max n M.toNat) 1, fun p hp => ?_⟩
  have k2 : p < 2 ^ p := Nat.lt_two_pow_self
  have k3 : (p : ℤ) < 2 ^ p := by exact_mod_cast k2
  have k4 : (p : ℚ) < 2 ^ p := by exact_mod_cast k2
  refine ⟨by omega, ?_, by omega⟩
  have k5 : (n : ℚ) ≤ p := by exact_mod_cast (by omega : n ≤ p)
  rw [div_lt_iff₀ hδ] at hn
  rw [div_le_iff₀ (by positivity)]
  nlinarith

theorem candidate_near {funcs : ℕ → List (Num → Except PyErr Num)} {k : Candidate} (hk : k.Converges funcs) {ξ : ℝ} (hξ : ξ ≠ 0) {ε : ℝ}
    (hε : 0 < ε) : ∃ δ > (0 : ℝ), ∃ N, ∀ m, N ≤ m → ∃ p₀, ∀ p, p₀ ≤ p → ∀ (x : ℚ) (acc : ℤ) (eng : EngN) (c : Click Ulcd), |(x : ℝ) - ξ| < δ →
      IsClick (roundBin p) x k c → Approximates (ulcdClassR (roundBin p)) (UlcdOkR (roundBin p) x)
        ⟨funcs p, true, acc, eng, evalConstR (roundBin p) m⟩ ε (k.limit, ulcdReal k.params ξ) c := by
  obtain ⟨hlegal, hka, hkb, v, r, hv, hlim, hf⟩ := hk
  obtain ⟨δ, hδ, δ', hδ', hL⟩ := C120_precision hlegal hξ hε
  obtain ⟨η, hη, hf⟩ := hf ε hε
  obtain ⟨P, hP⟩ := eventually_atTop.1 hf
  obtain ⟨N1, hN1⟩ := eventually_atTop.1 hv
  obtain ⟨N2, hN2⟩ := (Metric.tendsto_atTop.1 hlim) (η / 2) (by linarith)
  refine ⟨δ, hδ, max N1 N2 + 1, fun m hm => ?_⟩
  obtain ⟨m, rfl⟩ : ∃ k, m = k + 1 := ⟨m - 1, by omega⟩
  have hvm := hN1 m (by omega)
  have hd := hN2 m (by omega)
  rw [Real.dist_eq] at hd
  have hev : evalByPolys k.a k.b (m + 1) = .ok (v m) := by
    have := evalConst_nested hka hkb hvm none
    rw [evalConst] at this
    cases he : evalByPolys k.a k.b (m + 1) with
    | error e => rw [he] at this; cases this
    | ok w => rw [he] at this; cases this; rfl
  obtain ⟨e0, e1, e2⟩ := exists_rat_btwn (show (0 : ℝ) < η / 2 by linarith)
  obtain ⟨δ'', hδ'', M, hR⟩ := C118_precision m (v m) hev e0 (by exact_mod_cast e1)
  obtain ⟨p₁, hp₁⟩ := bits_enough (lt_min hδ' hδ'') M
  refine ⟨max P p₁, fun p hp x acc eng c hx hc => ?_⟩
  obtain ⟨b1, b2, b3⟩ := hp₁ p (by omega)
  obtain ⟨f, hfp, hfx⟩ := hP p (by omega)
  obtain ⟨ca, cb, cp, cc, cl, q, s, ops, i1, i2⟩ := hc
  have hround := roundBin_ok p b1
  obtain ⟨v', hv', hn⟩ := hR _ _ _ hround (b2.trans (min_le_right _ _)) b3
  have hn' : |(v' : ℝ) - v m| ≤ e0 := by exact_mod_cast hn
  obtain ⟨y, hy1, hy2⟩ := hfx v' (by
    calc |(v' : ℝ) - r| ≤ |(v' : ℝ) - v m| + |(v m : ℝ) - r| := abs_sub_le _ _ _
      _ < η := by linarith)
  have hok : UlcdOkR (roundBin p) x c.lhs := by
    obtain ⟨s', e', h', -⟩ := ulcdRunR_ok ops (ulcdInitR_ok i1).1
    rw [i2] at e'
    cases e'
    exact h'
  refine ⟨hok, ⟨f, .fin v', y, by simpa [cp] using hfp, ?_, hy1, hy2⟩, c.lhs.val, rfl, ?_⟩
  · show Except.map Num.fin (evalByPolysR (roundBin p) c.a c.b (m + 1)) = _
    rw [ca, cb, hv']
    rfl
  · obtain ⟨s2, j1, j2⟩ := hL _ _ _ x hround (b2.trans (min_le_left _ _)) hx
    have h3 := hok.2.2.2
    rw [cl] at h3
    rw [ulcdInitR, h3] at j1
    cases j1
    exact j2

open Classical in
/-- **C120.** Refinement where both sides are computed with rounded numbers.  Given a constant `ξ ≠ 0` and clicks whose continued fractions
converge, such that both sides have irrational limits with fractional parts above `10^-6`, and a number `n` of digits.  If the texts of numbers are
precise enough, the constant is known precisely enough, and with enough iterations, and then enough bits, a refinement that is not interrupted
returns normally and keeps exactly the clicks for which `(u/ξ + ξ/l + c)/d` and the limit of the right hand side have the same first `n` digits. -/
theorem C120_refine {ξ : ℝ} (hξ : ξ ≠ 0) (funcs : ℕ → List (Num → Except PyErr Num)) (ks : List Candidate) (hks : ∀ k ∈ ks, k.Converges funcs)
    (hdec : ∀ k ∈ ks, Decidable10 (k.limit, ulcdReal k.params ξ)) (n : ℕ) : ∃ ε > 0, ∃ δ > 0, ∃ N, ∀ m, N ≤ m → ∃ p₀, ∀ p, p₀ ≤ p →
      ∀ (x : ℚ) (eng : EngN) (cs : List (Click Ulcd)), |(x : ℝ) - ξ| < δ → Prints eng ε → List.Forall₂ (IsClick (roundBin p) x) ks cs →
        ∃ kept, refineClicks (ulcdClassR (roundBin p)) ⟨funcs p, true, n, eng, evalConstR (roundBin p) m⟩ (none, cs) = ((none, kept), .ok ()) ∧
          List.Forall₂ SameClick
            (((ks.zip cs).filter fun q => decide (DigitsAgree n q.1.limit (ulcdReal q.1.params ξ))).map Prod.snd) kept := by
  obtain ⟨ε, he, hf⟩ := C114_limit_partial (L := Ulcd) (ks.map fun k => (k.limit, ulcdReal k.params ξ)) (by simpa using hdec) n
  have key : ∃ δ > (0 : ℝ), ∃ N, ∀ m, N ≤ m → ∃ p₀, ∀ p, p₀ ≤ p →
      ∀ (x : ℚ) (eng : EngN) (cs : List (Click Ulcd)), |(x : ℝ) - ξ| < δ → List.Forall₂ (IsClick (roundBin p) x) ks cs →
        List.Forall₂ (Approximates (ulcdClassR (roundBin p)) (UlcdOkR (roundBin p) x) ⟨funcs p, true, n, eng, evalConstR (roundBin p) m⟩ ε)
          (ks.map fun k => (k.limit, ulcdReal k.params ξ)) cs := by
    clear hf hdec
    induction ks with
    | nil => exact ⟨1, one_pos, 0, fun m _ => ⟨0, fun p _ x eng cs _ h => by cases h; exact .nil⟩⟩
    | cons k ks ih =>
      obtain ⟨δ1, d1, N1, h1⟩ := ih fun k hk => hks k (List.mem_cons_of_mem _ hk)
      obtain ⟨δ2, d2, N2, h2⟩ := candidate_near (hks k List.mem_cons_self) hξ he
      refine ⟨min δ1 δ2, lt_min d1 d2, max N1 N2, fun m hm => ?_⟩
      obtain ⟨p1, h1⟩ := h1 m (by omega)
      obtain ⟨p2, h2⟩ := h2 m (by omega)
      refine ⟨max p1 p2, fun p hp x eng cs hx h => ?_⟩
      cases h with
      | cons h hs =>
        exact .cons (h2 p (by omega) x n eng _ (hx.trans_le (min_le_right _ _)) h)
          (h1 p (by omega) x eng _ (hx.trans_le (min_le_left _ _)) hs)
  obtain ⟨δ, hδ, N, hN⟩ := key
  refine ⟨ε, he, δ, hδ, N, fun m hm => ?_⟩
  obtain ⟨p₀, hp₀⟩ := hN m hm
  refine ⟨p₀, fun p hp x eng cs hx hE hcs => ?_⟩
  obtain ⟨kept, k1, k2⟩ := hf _ _ ⟨funcs p, true, n, eng, evalConstR (roundBin p) m⟩ cs (ulcdClassR_total _ x) rfl rfl hE (hp₀ p hp x eng cs hx hcs)
  refine ⟨kept, k1, ?_⟩
  convert k2 using 1
  rw [List.zip_map_left, List.filter_map, List.map_map]
  rfl

/-! ### Examples -/

/-- A thousand shifts and sign changes. -/
def exOps : List LhsOp := (List.replicate 500 [.add 3, .flip]).flatten ++ [.add 1500]

/-- A thousand shifts and sign changes, with 169 bits (`mp.dps = 50`): the value is right up to a few units in the last place. -/
example : ∃ s s', ulcdInitR (roundBin 169) (3, -2, 5, 7) (22 / 7) = .ok s ∧
    ulcdRunR (roundBin 169) exOps s = (s', .ok ()) ∧
    |s'.val - exOps.foldl (fun v op => op.effect v) (ulcdExpr (3, -2, 5, 7) (22 / 7))| ≤
      ((1 + 1 / 2 ^ 169) ^ 4 - 1) * ulcdSize s'.params (22 / 7) := by
  obtain ⟨v, hv⟩ := ulcdValR_total (roundBin 169) (x := 22 / 7) (p := (3, -2, 5, 7)) (by norm_num) ⟨by norm_num, by norm_num⟩
  have hs : ulcdInitR (roundBin 169) (3, -2, 5, 7) (22 / 7) = .ok ⟨(3, -2, 5, 7), 22 / 7, v⟩ := by rw [ulcdInitR, hv]
  obtain ⟨s', e, h, -⟩ := C120_calls (roundBin_ok 169 (by norm_num)) hs exOps
  exact ⟨_, s', hs, e, h⟩

/-- `add_int(i)` need not add exactly `i` to the rounded value. -/
example : ∃ s s', ulcdInitR (roundBin 4) (0, 3, 0, 1) 1 = .ok s ∧ addIntR (roundBin 4) 1 s = (s', .ok ()) ∧ s'.val ≠ s.val + 1 :=
  ⟨⟨(0, 3, 0, 1), 1, 11 / 32⟩, ⟨(0, 3, 1, 1), 1, 11 / 8⟩, by decide +kernel, by decide +kernel, by norm_num⟩

theorem pi_limits : Int.fract |Real.pi + 3| = Real.pi - 3 ∧ Int.fract |Real.pi / 2| = Real.pi / 2 - 1 := by
  have h1 := Real.pi_gt_three
  have h2 := Real.pi_lt_four
  constructor
  · rw [abs_of_pos (by linarith), Int.fract_add_ofNat, Int.fract, show ⌊Real.pi⌋ = 3 from Int.floor_eq_iff.2 ⟨by norm_num; exact h1.le, by norm_num; linarith⟩]
    norm_num
  · rw [abs_of_pos (by linarith), Int.fract, show ⌊Real.pi / 2⌋ = 1 from Int.floor_eq_iff.2 ⟨by norm_num; linarith, by norm_num; linarith⟩]
    norm_num

theorem poly_tendsto {a b : ℕ → ℤ} {l : ℝ} {k : ℕ} (h : ConvergesPolyTo a b l k) (hk : k ≠ 0) :
    Tendsto (fun n => (contP a b (n + 1) : ℝ) / contQ a b (n + 1)) atTop (𝓝 l) := by
  obtain ⟨c, C, N, -, h⟩ := h
  have h0 : Tendsto (fun n : ℕ => C / (n : ℝ) ^ k) atTop (𝓝 0) :=
    tendsto_const_nhds.div_atTop ((tendsto_pow_atTop hk).comp tendsto_natCast_atTop_atTop)
  refine tendsto_sub_nhds_zero_iff.1 (squeeze_zero_norm' ?_ h0)
  filter_upwards [eventually_ge_atTop N] with n hn
  exact (h n hn).2.2

theorem cf4_pos (n : ℕ) : 0 < seqAt [[6]] n ∧ 0 < seqAt [[1, -4, 4]] n := by
  constructor
  · simp [seqAt, Nat.mod_one, horner]
  · rw [b4_eq]
    have : (2 * (n : ℤ) - 1) ≠ 0 := by omega
    positivity

/-- `π + 3 = 6 + 1/(6 + 9/(6 + 25/(6 + ...)))`, with the correct LHS `π + 3` and the wrong one `π/2`: the first is kept, the second is dropped. -/
example (n : ℕ) (hn : 1 ≤ n) : ∃ ε > (0 : ℝ), ∃ δ > 0, ∃ N, ∀ m, N ≤ m → ∃ p₀, ∀ p, p₀ ≤ p →
    ∀ (x : ℚ) (P : ℕ) (s s' : Ulcd), |(x : ℝ) - Real.pi| < δ → 1 / 10 ^ P ≤ ε → ulcdInitR (roundBin p) (0, 1, 3, 1) x = .ok s →
      ulcdInitR (roundBin p) (0, 2, 0, 1) x = .ok s' → ∃ c', refineClicks (ulcdClassR (roundBin p))
        ⟨[fun x => .ok x], true, n, cutEng P, evalConstR (roundBin p) m⟩
        (none, [⟨[[6]], [[1, -4, 4]], s, 0, none⟩, ⟨[[6]], [[1, -4, 4]], s', 0, none⟩]) = ((none, [c']), .ok ()) := by
  have hpi := Real.pi_gt_d2
  have hpi' := Real.pi_lt_d2
  have conv : ∀ params, UlcdLegal params →
      Candidate.Converges (fun _ => [fun x => .ok x]) ⟨[[6]], [[1, -4, 4]], 0, none, params, Real.pi + 3⟩ := by
    intro params hl
    refine ⟨hl, by simp, by simp, fun m => (contP (seqAt [[6]]) (seqAt [[1, -4, 4]]) (m + 1) : ℚ) / contQ (seqAt [[6]]) (seqAt [[1, -4, 4]]) (m + 1),
      Real.pi + 3, .of_forall fun m => ?_, ?_, fun ε he => ⟨ε, he, .of_forall fun p => ⟨_, rfl, fun x hx => ⟨x, rfl, hx⟩⟩⟩⟩
    · obtain ⟨v, hv, -⟩ := nested_positive (fun n _ => cf4_pos n) m 0
      rw [hv, (nested_eq_cont _ _ _ _ hv).2]
    · have := poly_tendsto cf4_poly (by norm_num)
      push_cast
      exact this
  obtain ⟨e1, e2⟩ := pi_limits
  have r1 : ulcdReal (0, 1, 3, 1) Real.pi = Real.pi + 3 := by simp [ulcdReal]
  have r2 : ulcdReal (0, 2, 0, 1) Real.pi = Real.pi / 2 := by simp [ulcdReal]
  have i1 : Irrational (Real.pi + 3) := irrational_pi.add_natCast 3
  have i2 : Irrational (Real.pi / 2) := irrational_pi.div_natCast (by norm_num : (2 : ℕ) ≠ 0)
  have f1 : 1 / 10 ^ 6 < Int.fract |Real.pi + 3| := by rw [e1]; norm_num at hpi ⊢; linarith
  have f2 : 1 / 10 ^ 6 < Int.fract |Real.pi / 2| := by rw [e2]; norm_num at hpi ⊢; linarith
  obtain ⟨ε, he, δ, hd, N, hN⟩ := C120_refine Real.pi_ne_zero (fun _ => [fun x => .ok x])
    [⟨[[6]], [[1, -4, 4]], 0, none, (0, 1, 3, 1), Real.pi + 3⟩, ⟨[[6]], [[1, -4, 4]], 0, none, (0, 2, 0, 1), Real.pi + 3⟩]
    (by
      intro k hk
      simp only [List.mem_cons, List.not_mem_nil, or_false] at hk
      rcases hk with rfl | rfl
      · exact conv _ ⟨by norm_num, by norm_num⟩
      · exact conv _ ⟨by norm_num, by norm_num⟩)
    (by
      intro k hk
      simp only [List.mem_cons, List.not_mem_nil, or_false] at hk
      rcases hk with rfl | rfl
      · rw [r1]; exact ⟨i1, i1, f1, f1⟩
      · rw [r2]; exact ⟨i1, i2, f1, f2⟩) n
  refine ⟨ε, he, δ, hd, N, fun m hm => ?_⟩
  obtain ⟨p₀, hp⟩ := hN m hm
  refine ⟨p₀, fun p hpp x P s s' hx hP hs hs' => ?_⟩
  obtain ⟨kept, k1, k2⟩ := hp p hpp x (cutEng P) [⟨[[6]], [[1, -4, 4]], s, 0, none⟩, ⟨[[6]], [[1, -4, 4]], s', 0, none⟩] hx
    (Prints.mono (cutEng_prints P) hP) (.cons ⟨rfl, rfl, rfl, rfl, (ulcdInitR_ok hs).2, _, _, [], hs, rfl⟩
      (.cons ⟨rfl, rfl, rfl, rfl, (ulcdInitR_ok hs').2, _, _, [], hs', rfl⟩ .nil))
  have d1 : DigitsAgree n (Real.pi + 3) (Real.pi + 3) := (digitsAgree_cases n _ _).1 rfl
  have d2 : ¬ DigitsAgree n (Real.pi + 3) (Real.pi / 2) := (digitsAgree_cases n _ _).2 (by
    rw [e1, e2, abs_of_neg (by linarith)]
    have : (1 : ℝ) / 10 ^ n ≤ 1 / 10 ^ 1 := one_div_le_one_div_of_le (by norm_num) (pow_le_pow_right₀ (by norm_num) hn)
    norm_num at this hpi' ⊢
    linarith)
  simp only [List.zip_cons_cons, List.zip_nil_right, List.filter_cons, r1, r2, d1, d2, decide_true, decide_false, if_true, List.filter_nil,
    List.map_cons, List.map_nil, Bool.false_eq_true, if_false] at k2
  cases k2 with
  | cons h h' =>
    cases h'
    exact ⟨_, k1⟩

end PiCF
