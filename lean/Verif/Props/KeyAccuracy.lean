import Verif.Props.PostAccuracy
import Verif.Props.Distribute

/-!
# C135: entries are stored under the values of their continued fractions, up to rounding
-/

namespace PiCF
open PiCF.Spec PiCF.Mitm PiCF.Hashtable PiCF.ContFrac PiCF.EnumPoly PiCF.Rounded PiCF.Postproc Filter Topology

namespace Spec

/-- `k` is the fractional part of a number that differs from `|y|` by less than `ε`. -/
def KeyNear (ε : ℝ) (k : ℚ) (y : ℝ) : Prop := 0 ≤ k ∧ k < 1 ∧ ∃ z : ℤ, abs ((k : ℝ) + z - |y|) < ε

end Spec

/-- A function of `postprocfuncs.py` on mpf numbers, as a function on values. -/
def mpfFun (g : Number → Except PyErr Number) (v : Num) : Except PyErr Num := (g (.mpf v)).map Number.num

/-- The list `self.postproc_funcs` with mpf numbers, as in the code (enum_params.py:9). -/
def mpfFuncs (rnd : ℚ → ℚ) (A : Postproc.Analysis) : List (Num → Except PyErr Num) := (evaluatedFuncsR rnd A).map mpfFun

/-- What `build_hashtable` reads when it computes with `p` binary digits.  The subtraction of the integral part of a key (enum_params.py:194)
is exact, as the fractional part of a number with `p` binary digits has at most `p` digits. -/
def roundedEnv (p : ℕ) (funcs : List (Num → Except PyErr Num)) (filter : List ℕ) (n : ℕ) (order : List ℕ → List ℕ) : Env where
  funcs := funcs
  filter := filter
  trunc := true
  cfv := fun a b => evalConstR (roundBin p) n a b none
  order := order

theorem keyNear_of {ε : ℝ} {y : ℚ} {r : ℝ} (h : |(y : ℝ) - r| < ε) : KeyNear ε (searchKey true y) r := by
  refine ⟨Int.fract_nonneg _, Int.fract_lt_one _, ⌊|y|⌋, ?_⟩
  have : ((searchKey true y : ℚ) : ℝ) + (⌊|y|⌋ : ℤ) = |(y : ℝ)| := by
    rw [searchKey, if_pos rfl]
    have h2 := Int.fract_add_floor |y|
    have : (((Int.fract |y| + (⌊|y|⌋ : ℤ) : ℚ)) : ℝ) = ((|y| : ℚ) : ℝ) := by rw [h2]
    push_cast at this
    exact_mod_cast this
  rw [this]
  exact (abs_abs_sub_abs_le _ _).trans_lt h

/-- Near a number that is not near an integer there is only one fractional part. -/
theorem KeyNear.fract {ε : ℝ} {k : ℚ} {y : ℝ} (h : KeyNear ε k y) (h1 : ε ≤ Int.fract |y|) (h2 : Int.fract |y| ≤ 1 - ε) :
    abs ((k : ℝ) - Int.fract |y|) < ε := by
  obtain ⟨k0, k1, z, hz⟩ := h
  have e := Int.fract_add_floor |y|
  have k0' : (0 : ℝ) ≤ k := by exact_mod_cast k0
  have k1' : (k : ℝ) < 1 := by exact_mod_cast k1
  rw [abs_lt] at hz
  have hfl : z = ⌊|y|⌋ := by
    have u1 : (z : ℝ) < ⌊|y|⌋ + 1 := by linarith
    have u2 : (⌊|y|⌋ : ℝ) < z + 1 := by linarith
    have u1' : z < ⌊|y|⌋ + 1 := by exact_mod_cast u1
    have u2' : ⌊|y|⌋ < z + 1 := by exact_mod_cast u2
    omega
  rw [hfl] at hz
  rw [abs_lt]
  constructor <;> linarith [hz.1, hz.2]

/-- The selected functions `F p` are as accurate as wanted at the values in `D`, for precisions high enough. -/
def Accurate (F : ℕ → List (Num → Except PyErr Num)) (D : ℕ → ℚ → Prop) : Prop :=
  ∀ a b n v i, evalByPolys a b (n + 1) = .ok v → D i v → ∀ ε : ℝ, 0 < ε → ∀ᶠ p in atTop, ∃ v' f y,
    evalByPolysR (roundBin p) a b (n + 1) = .ok v' ∧ (v ≠ 0 → v' ≠ 0) ∧ (F p)[i]? = some f ∧ f (.fin v') = .ok (.fin y) ∧ |(y : ℝ) - mathFunc i v| < ε

/-- The value computed for one entry. -/
theorem entry_near {A : ℕ → Postproc.Analysis} (hA : ∀ p, 1 ≤ p → AnalysisOk (A p) (1 / 2 ^ p)) {a b : Polys} {n : ℕ} {v : ℚ}
    (hv : evalByPolys a b (n + 1) = .ok v) {i : ℕ} (hi : PostDomain i v) {ε : ℝ} (hε : 0 < ε) :
    ∀ᶠ p in atTop, ∃ v' f y, evalByPolysR (roundBin p) a b (n + 1) = .ok v' ∧ (v ≠ 0 → v' ≠ 0) ∧ (decFuncs (roundBin p) (A p))[i]? = some f ∧
      f (.fin v') = .ok (.fin y) ∧ |(y : ℝ) - mathFunc i v| < ε := by
  obtain ⟨η, hη, hf⟩ := C131_funcs hi (rnd := roundBin) (u := fun p => 1 / 2 ^ p) (M := fun p => 2 ^ p) (A := A)
    ((eventually_ge_atTop 1).mono fun p hp => roundBin_ok p hp) bits_tendsto ((eventually_ge_atTop 1).mono hA) ε hε
  obtain ⟨η', hη', hlt⟩ : ∃ η' : ℚ, 0 < η' ∧ (η' : ℝ) < η := by
    obtain ⟨q, h1, h2⟩ := exists_rat_btwn hη
    exact ⟨q, by exact_mod_cast h1, h2⟩
  set η'' : ℚ := if v = 0 then η' else min η' (|v| / 2) with hdef
  have hpos : 0 < η'' := by
    rw [hdef]
    split_ifs with h0
    · exact hη'
    · exact lt_min hη' (by positivity)
  have hle : η'' ≤ η' := by
    rw [hdef]
    split_ifs
    · exact le_rfl
    · exact min_le_left _ _
  obtain ⟨δ, hδ, M, hM⟩ := C118_precision n v hv η'' hpos
  have hbits : ∀ᶠ p : ℕ in atTop, (1 / 2 ^ p : ℚ) ≤ δ := by
    have := bits_tendsto.eventually (gt_mem_nhds (show (0 : ℝ) < δ by exact_mod_cast hδ))
    filter_upwards [this] with p hp
    have : (1 / 2 ^ p : ℚ) < δ := by exact_mod_cast hp
    exact this.le
  have hbig : ∀ᶠ p : ℕ in atTop, M ≤ 2 ^ p := by
    filter_upwards [eventually_ge_atTop M.toNat] with p hp
    have h1 : p < 2 ^ p := Nat.lt_two_pow_self
    have h2 : ((p : ℕ) : ℤ) < 2 ^ p := by exact_mod_cast h1
    omega
  filter_upwards [hf, hbits, hbig, eventually_ge_atTop 1] with p h1 h2 h3 h4
  obtain ⟨v', e, hv'⟩ := hM (roundBin p) (1 / 2 ^ p) (2 ^ p) (roundBin_ok p h4) h2 h3
  obtain ⟨f, hf1, hf2⟩ := h1
  have hv'' : |(v' : ℝ) - v| < η := by
    have : ((|v' - v| : ℚ) : ℝ) ≤ η' := by exact_mod_cast hv'.trans hle
    push_cast at this
    linarith
  obtain ⟨y, hy1, hy2⟩ := hf2 v' hv''
  refine ⟨v', f, y, e, fun hv0 h0 => ?_, hf1, hy1, hy2⟩
  rw [hdef, if_neg hv0, h0, zero_sub, abs_neg] at hv'
  have := hv'.trans (min_le_right _ _)
  have : 0 < |v| := abs_pos.2 hv0
  linarith

theorem keys_near {F : ℕ → List (Num → Except PyErr Num)} {D : ℕ → ℚ → Prop} (hF : Accurate F D) (manip : Manip) (cfg : Config)
    (ra rb : Ranges) (filter : List ℕ) (n : ℕ) {ε : ℝ} (hε : 0 < ε) :
    ∃ p₀, ∀ p, p₀ ≤ p → ∀ (order : List ℕ → List ℕ), Spec.IsSetOrder order → ∀ (validate : Bool) (N : ℤ) (t : Table (Val Entry)) r,
      buildHashtable (roundedEnv p (F p) filter (n + 1) order) manip cfg validate ra rb (Table.init N) = (t, r) →
      ∀ a b i (v : ℚ), (a, b) ∈ enumerated manip cfg ra rb → i ∈ filter → evalByPolys a b (n + 1) = .ok v → D i v →
        (∀ k, ((a, b), i) ∈ entries t (.num k) → KeyNear ε k (mathFunc i v)) ∧
        (r = .ok () → v ≠ 0 → mathFunc i v ≠ 0 → ∃ k, ((a, b), i) ∈ entries t (.num k) ∧ KeyNear ε k (mathFunc i v)) := by
  have key : ∀ x ∈ (enumerated manip cfg ra rb) ×ˢ filter, ∀ᶠ p in atTop, ∀ v : ℚ, evalByPolys x.1.1 x.1.2 (n + 1) = .ok v → D x.2 v →
      ∃ v' f y, evalByPolysR (roundBin p) x.1.1 x.1.2 (n + 1) = .ok v' ∧ (v ≠ 0 → v' ≠ 0) ∧ (F p)[x.2]? = some f ∧
        f (.fin v') = .ok (.fin y) ∧ |(y : ℝ) - mathFunc x.2 v| < ε ∧ (mathFunc x.2 v ≠ 0 → y ≠ 0) := by
    intro x _
    cases hv : evalByPolys x.1.1 x.1.2 (n + 1) with
    | error e => exact Eventually.of_forall fun p v h => by cases h
    | ok v =>
      by_cases hd : D x.2 v
      · by_cases h0 : mathFunc x.2 v = 0
        · filter_upwards [hF _ _ _ _ _ hv hd ε hε] with p hp v₁ h1 _
          cases h1
          obtain ⟨v', f, y, h1, h2, h3, h4, h5⟩ := hp
          exact ⟨v', f, y, h1, h2, h3, h4, h5, fun h => absurd h0 h⟩
        · filter_upwards [hF _ _ _ _ _ hv hd _ (lt_min hε (abs_pos.2 h0))] with p hp v₁ h1 _
          cases h1
          obtain ⟨v', f, y, h1, h2, h3, h4, h5⟩ := hp
          refine ⟨v', f, y, h1, h2, h3, h4, h5.trans_le (min_le_left _ _), fun _ hy => ?_⟩
          have := h5.trans_le (min_le_right _ _)
          rw [hy] at this
          simp at this
      · exact Eventually.of_forall fun p v₁ h1 h2 => by cases h1; exact absurd h2 hd
  have hall : ∀ᶠ p in atTop, ∀ x ∈ (enumerated manip cfg ra rb) ×ˢ filter, ∀ v : ℚ, evalByPolys x.1.1 x.1.2 (n + 1) = .ok v → D x.2 v →
      ∃ v' f y, evalByPolysR (roundBin p) x.1.1 x.1.2 (n + 1) = .ok v' ∧ (v ≠ 0 → v' ≠ 0) ∧ (F p)[x.2]? = some f ∧
        f (.fin v') = .ok (.fin y) ∧ |(y : ℝ) - mathFunc x.2 v| < ε ∧ (mathFunc x.2 v ≠ 0 → y ≠ 0) := by
    have := (Filter.eventually_all_finset ((enumerated manip cfg ra rb) ×ˢ filter).toFinset
      (p := fun x p => ∀ v : ℚ, evalByPolys x.1.1 x.1.2 (n + 1) = .ok v → D x.2 v →
      ∃ v' f y, evalByPolysR (roundBin p) x.1.1 x.1.2 (n + 1) = .ok v' ∧ (v ≠ 0 → v' ≠ 0) ∧ (F p)[x.2]? = some f ∧
        f (.fin v') = .ok (.fin y) ∧ |(y : ℝ) - mathFunc x.2 v| < ε ∧ (mathFunc x.2 v ≠ 0 → y ≠ 0)) (l := atTop)).2
      fun x hx => key x (List.mem_toFinset.1 hx)
    filter_upwards [this] with p hp x hx
    exact hp x (List.mem_toFinset.2 hx)
  obtain ⟨p₀, hp₀⟩ := eventually_atTop.1 hall
  refine ⟨p₀, fun p hp order ho validate N t r ht a b i v hab hi hv hd => ?_⟩
  obtain ⟨v', f, y, h1, h2, h3, h4, h5, h6⟩ := hp₀ p hp ((a, b), i) (List.mem_product.2 ⟨hab, hi⟩) v hv hd
  have hcfv : (roundedEnv p (F p) filter (n + 1) order).cfv a b = .ok (.fin v') := by
    show evalConstR (roundBin p) (n + 1) a b none = _
    rw [evalConstR, h1]
    rfl
  constructor
  · intro k hk
    have hs := C51_sound (env := roundedEnv p (F p) filter (n + 1) order) ho manip cfg validate ra rb (Table.init N) (.num k) ((a, b), i)
    rw [ht] at hs
    rcases hs hk with hs | ⟨k', hk', -, hb⟩
    · cases hs
    · cases hk'
      obtain ⟨w, g, z, w1, -, -, w4, w5, -, rfl⟩ := hb
      rw [hcfv] at w1
      cases w1
      have w4' : (F p)[i]? = some g := w4
      rw [h3] at w4'
      cases w4'
      rw [h4] at w5
      cases w5
      exact keyNear_of h5
  · rintro rfl hv0 hm0
    refine ⟨searchKey true y, ?_, keyNear_of h5⟩
    exact C51_complete (env := roundedEnv p (F p) filter (n + 1) order) ho ht hab ⟨v', f, y, hcfv, h2 hv0, hi, h3, h4, h6 hm0, rfl⟩

theorem accurate_dec {A : ℕ → Postproc.Analysis} (hA : ∀ p, 1 ≤ p → AnalysisOk (A p) (1 / 2 ^ p)) :
    Accurate (fun p => decFuncs (roundBin p) (A p)) fun i v => PostDomain i v :=
  fun _ _ _ _ _ hv hd _ hε => entry_near hA hv hd hε

/-- With mpf numbers `lambda x: x`, the powers and the square root do what they do with Decimals. -/
theorem mpf_dec (rnd : ℚ → ℚ) (A : Postproc.Analysis) {i : ℕ} (hi : i ≤ 10) (h2 : i % 2 = 0) {f : Num → Except PyErr Num}
    (h : (decFuncs rnd A)[i]? = some f) : ∃ g, (mpfFuncs rnd A)[i]? = some g ∧ ∀ q, g (.fin q) = f (.fin q) := by
  have : i = 0 ∨ i = 2 ∨ i = 4 ∨ i = 6 ∨ i = 8 ∨ i = 10 := by omega
  rcases this with rfl | rfl | rfl | rfl | rfl | rfl
  iterate 5 exact ⟨f, h, fun _ => rfl⟩
  cases h
  refine ⟨_, rfl, fun q => ?_⟩
  rw [mpfFun, decFun, safeSqrt, safeSqrt]
  split_ifs <;> rfl

theorem accurate_mpf {A : ℕ → Postproc.Analysis} (hA : ∀ p, 1 ≤ p → AnalysisOk (A p) (1 / 2 ^ p)) :
    Accurate (fun p => mpfFuncs (roundBin p) (A p)) fun i v => i ≤ 10 ∧ i % 2 = 0 ∧ (i = 10 → 0 < v) := by
  intro a b n v i hv hi ε hε
  obtain ⟨h1, h2, h3⟩ := hi
  have hd : PostDomain i v := ⟨by omega, by omega, fun h => by exact_mod_cast h3 (by omega), fun h => by omega⟩
  filter_upwards [entry_near hA hv hd hε] with p hp
  obtain ⟨v', f, y, e1, e2, e3, e4, e5⟩ := hp
  obtain ⟨g, g1, g2⟩ := mpf_dec _ _ h1 h2 e3
  exact ⟨v', g, y, e1, e2, g1, (g2 v').trans e4, e5⟩

/-- **C135 (mpf, the number type of the code).** Take any ranges, class, selection of functions and number of iterations.  For every `ε` and every
precision that is high enough, a table built with this precision has its entries where they should be: an entry for `x`, a power of `x`
or the square root of a positive `x` (functions 0, 2, 4, 6, 8, 10; with mpf numbers all others raise exceptions) whose continued fraction has a value `v` without rounding is stored only
under keys within `ε` of the absolute value of the function at `v`, modulo 1 (also if the build fails); and if the build succeeds and neither `v`
nor the function value is zero, it is stored under such a key. -/
theorem C135_keys_partial {A : ℕ → Postproc.Analysis} (hA : ∀ p, 1 ≤ p → AnalysisOk (A p) (1 / 2 ^ p)) (manip : Manip) (cfg : Config)
    (ra rb : Ranges) (filter : List ℕ) (n : ℕ) {ε : ℝ} (hε : 0 < ε) :
    ∃ p₀, ∀ p, p₀ ≤ p → ∀ (order : List ℕ → List ℕ), Spec.IsSetOrder order → ∀ (validate : Bool) (N : ℤ) (t : Table (Val Entry)) r,
      buildHashtable (roundedEnv p (mpfFuncs (roundBin p) (A p)) filter (n + 1) order) manip cfg validate ra rb (Table.init N) = (t, r) →
      ∀ a b i (v : ℚ), (a, b) ∈ enumerated manip cfg ra rb → i ∈ filter → evalByPolys a b (n + 1) = .ok v → i ≤ 10 → i % 2 = 0 → (i = 10 → 0 < v) →
        (∀ k, ((a, b), i) ∈ entries t (.num k) → KeyNear ε k (mathFunc i v)) ∧
        (r = .ok () → v ≠ 0 → mathFunc i v ≠ 0 → ∃ k, ((a, b), i) ∈ entries t (.num k) ∧ KeyNear ε k (mathFunc i v)) := by
  obtain ⟨p₀, h⟩ := keys_near (accurate_mpf hA) manip cfg ra rb filter n hε
  exact ⟨p₀, fun p hp order ho validate N t r ht a b i v hab hi hv h1 h2 h3 =>
    h p hp order ho validate N t r ht a b i v hab hi hv ⟨h1, h2, h3⟩⟩

/-- **C135 (Decimal).** The same with the methods of Decimals, for all functions but the trigonometric ones, where they can be evaluated. -/
theorem C135_decimal_partial {A : ℕ → Postproc.Analysis} (hA : ∀ p, 1 ≤ p → AnalysisOk (A p) (1 / 2 ^ p)) (manip : Manip) (cfg : Config)
    (ra rb : Ranges) (filter : List ℕ) (n : ℕ) {ε : ℝ} (hε : 0 < ε) :
    ∃ p₀, ∀ p, p₀ ≤ p → ∀ (order : List ℕ → List ℕ), Spec.IsSetOrder order → ∀ (validate : Bool) (N : ℤ) (t : Table (Val Entry)) r,
      buildHashtable (roundedEnv p (decFuncs (roundBin p) (A p)) filter (n + 1) order) manip cfg validate ra rb (Table.init N) = (t, r) →
      ∀ a b i (v : ℚ), (a, b) ∈ enumerated manip cfg ra rb → i ∈ filter → evalByPolys a b (n + 1) = .ok v → PostDomain i v →
        (∀ k, ((a, b), i) ∈ entries t (.num k) → KeyNear ε k (mathFunc i v)) ∧
        (r = .ok () → v ≠ 0 → mathFunc i v ≠ 0 → ∃ k, ((a, b), i) ∈ entries t (.num k) ∧ KeyNear ε k (mathFunc i v)) := 
  keys_near (accurate_dec hA) manip cfg ra rb filter n hε

/-- **C135 (a key).** Within `ε` modulo 1 means within `ε` of the fractional part, unless this is closer than `ε` to 0 or 1. -/
theorem C135_fractional_part {ε : ℝ} {k : ℚ} {y : ℝ} (h : KeyNear ε k y) (h1 : ε ≤ Int.fract |y|) (h2 : Int.fract |y| ≤ 1 - ε) :
    abs ((k : ℝ) - Int.fract |y|) < ε :=
  KeyNear.fract h h1 h2

/-- The settings of the witnesses below: 50 decimal digits, 4 iterations, `lambda x: x` only. -/
def witnessEnv (A : Postproc.Analysis) : Env := roundedEnv 169 (mpfFuncs (roundBin 169) A) [0] 4 id

theorem witness_sound (A : Postproc.Analysis) {ra rb : Ranges} {a b : Polys} {v : ℚ} (hv : evalByPolysR (roundBin 169) a b 4 = .ok v)
    {validate : Bool} {N : ℤ} {t : Table (Val Entry)} {r} (h : buildHashtable (witnessEnv A) manipBasic {} validate ra rb (Table.init N) = (t, r)) {k : ℚ}
    (hk : ((a, b), 0) ∈ entries t (.num k)) : k = searchKey true v := by
  have hs := C51_sound (env := witnessEnv A) (fun l _ => List.Perm.refl l) manipBasic {} validate ra rb (Table.init N) (.num k) ((a, b), 0)
  rw [h] at hs
  rcases hs hk with hs | ⟨k', hk', -, hb⟩
  · cases hs
  · cases hk'
    obtain ⟨w, g, z, w1, -, -, w4, w5, -, rfl⟩ := hb
    have w1' : (evalByPolysR (roundBin 169) a b 4).map Num.fin = .ok (.fin w) := w1
    rw [hv] at w1'
    cases w1'
    cases w4
    cases w5
    rfl

theorem witness_complete (A : Postproc.Analysis) {ra rb : Ranges} {a b : Polys} {v : ℚ} (hv : evalByPolysR (roundBin 169) a b 4 = .ok v) (h0 : v ≠ 0)
    (hab : (a, b) ∈ enumerated manipBasic {} ra rb)
    {validate : Bool} {N : ℤ} {t : Table (Val Entry)} (h : buildHashtable (witnessEnv A) manipBasic {} validate ra rb (Table.init N) = (t, .ok ())) :
    ((a, b), 0) ∈ entries t (.num (searchKey true v)) := by
  refine C51_complete (env := witnessEnv A) (fun l _ => List.Perm.refl l) h hab ⟨v, _, v, ?_, h0, List.mem_singleton.2 rfl, rfl, rfl, h0, rfl⟩
  show (evalByPolysR (roundBin 169) a b 4).map Num.fin = _
  rw [hv]
  rfl

theorem witness_integer : evalByPolysR (roundBin 169) [[1, 2]] [[13, 3]] 4 = .ok (4 - 1 / 2 ^ 167) := by decide +kernel

theorem witness_build (A : Postproc.Analysis) {ra rb : Ranges} {a b : Polys} {v : ℚ} (hv : evalByPolysR (roundBin 169) a b 4 = .ok v)
    (he : enumerated manipBasic {} ra rb = [(a, b)]) (hg : (polysGenerator manipBasic { genContFrac := false } ra rb).2 = .ok ()) (N : ℤ) :
    ∃ t, buildHashtable (witnessEnv A) manipBasic {} true ra rb (Table.init N) = (t, .ok ()) := by
  refine ⟨_, Prod.ext rfl ((build_ok_iff (env := witnessEnv A) (fun l _ => List.Perm.refl l) manipBasic {} true ra rb N).2 ⟨?_, ?_, hg⟩)⟩
  · intro i hi
    rw [List.mem_singleton.1 hi]
    exact Nat.zero_lt_succ _
  · intro ab hab
    rw [he, List.mem_singleton] at hab
    subst hab
    refine .inr ⟨.fin v, ?_, fun _ i hi => ?_⟩
    · show (evalByPolysR (roundBin 169) a b 4).map Num.fin = _
      rw [hv]
      rfl
    · rw [List.mem_singleton.1 hi]
      exact ⟨_, _, rfl, rfl⟩

/-- **C135 (violated: integers).** `1 + 16/(3 + 19/(5 + 22/7))` is 4.  With 50 digits the program gets `4 - 2^(-167)`, and stores the fraction
under a key above `1 - 10^(-50)` only, and not near 0, the fractional part of 4. -/
theorem C135_integer_violated (A : Postproc.Analysis) : evalByPolys [[1, 2]] [[13, 3]] 4 = .ok 4 ∧
    ∃ t, buildHashtable (witnessEnv A) manipBasic {} true [[(1, 2), (2, 3)]] [[(13, 14), (3, 4)]] (Table.init 8) = (t, .ok ()) ∧
      (∃ k, (([[1, 2]], [[13, 3]]), 0) ∈ entries t (.num k)) ∧ ∀ k, (([[1, 2]], [[13, 3]]), 0) ∈ entries t (.num k) → 1 - 1 / 10 ^ 50 < k := by
  obtain ⟨t, ht⟩ := witness_build A (ra := [[(1, 2), (2, 3)]]) (rb := [[(13, 14), (3, 4)]]) witness_integer (by decide +kernel) (by decide +kernel) 8
  refine ⟨by decide +kernel, t, ht, ⟨_, witness_complete A witness_integer (by norm_num) (by decide +kernel) ht⟩, fun k hk => ?_⟩
  rw [witness_sound A witness_integer ht hk]
  have h1 : |(4 - 1 / 2 ^ 167 : ℚ)| = (3 : ℤ) + (1 - 1 / 2 ^ 167) := by
    rw [abs_of_pos (by norm_num)]
    norm_num
  rw [searchKey, if_pos rfl, h1, Int.fract_intCast_add, Int.fract_eq_self.2 ⟨by norm_num, by norm_num⟩]
  norm_num

theorem witness_cancellation :
    evalByPolysR (roundBin 169) [[-31, 18, -1]] [[43, -14]] 4 = .ok (-1356273519443077908093019524760710642240705399881760) := by decide +kernel

/-- **C135 (violated: cancellation).** At depth 4 this fraction has no value, as a denominator is 0.  The program divides by the rounding error
instead, and stores the fraction in the table. -/
theorem C135_cancellation_violated (A : Postproc.Analysis) : evalByPolys [[-31, 18, -1]] [[43, -14]] 4 = .error .zeroDivision ∧
    ∃ t, buildHashtable (witnessEnv A) manipBasic {} true [[(-31, -30), (18, 19), (-1, 0)]] [[(43, 44), (-14, -13)]] (Table.init 8) = (t, .ok ()) ∧
      ∃ k, (([[-31, 18, -1]], [[43, -14]]), 0) ∈ entries t (.num k) := by
  obtain ⟨t, ht⟩ := witness_build A (ra := [[(-31, -30), (18, 19), (-1, 0)]]) (rb := [[(43, 44), (-14, -13)]]) witness_cancellation (by decide +kernel)
    (by decide +kernel) 8
  exact ⟨by decide +kernel, t, ht, _, witness_complete A witness_cancellation (by norm_num) (by decide +kernel) ht⟩

/-! ### Examples -/

/-- `1 + 16/(3 + 19/5) = 57/17`: with enough digits the entry is in the table, and only under keys as close to `6/17` as wanted. -/
example {A : ℕ → Postproc.Analysis} (hA : ∀ p, 1 ≤ p → AnalysisOk (A p) (1 / 2 ^ p)) (ε : ℝ) (h0 : 0 < ε) (h1 : ε < 1 / 10) : ∃ p₀, ∀ p, p₀ ≤ p → ∀ t,
    buildHashtable (roundedEnv p (mpfFuncs (roundBin p) (A p)) [0] 3 id) manipBasic {} true [[(1, 2), (2, 3)]] [[(13, 14), (3, 4)]] (Table.init 8) =
      (t, .ok ()) →
    (∃ k, (([[1, 2]], [[13, 3]]), 0) ∈ entries t (.num k)) ∧ ∀ k, (([[1, 2]], [[13, 3]]), 0) ∈ entries t (.num k) → |(k : ℝ) - 6 / 17| < ε := by
  obtain ⟨p₀, h⟩ := C135_keys_partial hA manipBasic {} [[(1, 2), (2, 3)]] [[(13, 14), (3, 4)]] [0] 2 h0
  have hm : mathFunc 0 ((57 / 17 : ℚ) : ℝ) = 57 / 17 := by
    simp [mathFunc, mathFuncs]
  have hf : Int.fract |(57 / 17 : ℝ)| = 6 / 17 := by
    rw [abs_of_pos (by norm_num), show (57 / 17 : ℝ) = (3 : ℤ) + 6 / 17 by norm_num, Int.fract_intCast_add, Int.fract_eq_self.2 ⟨by norm_num, by norm_num⟩]
  refine ⟨p₀, fun p hp t ht => ?_⟩
  obtain ⟨s, c⟩ := h p hp id (fun l _ => List.Perm.refl l) true 8 t _ ht [[1, 2]] [[13, 3]] 0 (57 / 17) (by decide +kernel) (by simp) (by decide +kernel)
    (by norm_num) (by norm_num) (by norm_num)
  rw [hm] at s c
  obtain ⟨k, hk, -⟩ := c rfl (by norm_num) (by norm_num)
  refine ⟨⟨k, hk⟩, fun k hk => ?_⟩
  have := C135_fractional_part (s k hk) (by rw [hf]; linarith) (by rw [hf]; linarith)
  rwa [hf] at this

/-- With Decimals, the logarithm of `57/17`. -/
example : evalByPolys [[1, 2]] [[13, 3]] 3 = .ok (57 / 17) ∧ PostDomain 22 ((57 / 17 : ℚ) : ℝ) ∧ ∃ A : ℕ → Postproc.Analysis,
    ∀ p, 1 ≤ p → AnalysisOk (A p) (1 / 2 ^ p) := by
  choose A hA using fun p : ℕ => analysis_exists (u := 1 / 2 ^ p) (by positivity)
  exact ⟨by decide +kernel, ⟨by omega, by omega, fun _ => by norm_num, fun h => by omega⟩, A, fun p _ => hA p⟩

end PiCF
