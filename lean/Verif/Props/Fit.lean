import Mathlib.Analysis.SpecialFunctions.Pow.Real
import Verif.Lemmas.Fit
import Verif.Model.Fit

/-!
# C115: the regressions find the speed of convergence
-/

namespace PiCF
open PiCF.Spec PiCF.Process

/-- What is used of `linregress`: it returns a best fit if there are two different abscissas. -/
def IsRegression (lin : Linregress) : Prop :=
  ∀ xs ys, xs.length = ys.length → (∃ x ∈ xs, ∃ x' ∈ xs, x ≠ x') → ∃ f, lin xs ys = .ok f ∧ LeastSquares (xs.zip ys) f.slope f.intercept

theorem exists_regression : ∃ lin, IsRegression lin := by
  classical
  refine ⟨fun xs ys => if h : ∃ f : Fit, LeastSquares (xs.zip ys) f.slope f.intercept then .ok h.choose else .error .valueError, ?_⟩
  rintro xs ys hl ⟨x, hx, x', hx', hne⟩
  have e : (xs.zip ys).map Prod.fst = xs := List.map_fst_zip hl.le
  obtain ⟨m, c, h⟩ := exists_leastSquares (xs.zip ys) (by rwa [e]) (by rwa [e]) hne
  have hex : ∃ f : Fit, LeastSquares (xs.zip ys) f.slope f.intercept := ⟨⟨m, c⟩, h⟩
  exact ⟨hex.choose, dif_pos hex, hex.choose_spec⟩

/-- The errors above `zero` in absolute value. -/
def visible (zero : ℚ) (errors : List (ℕ × ℚ)) : List (ℕ × ℚ) := errors.filter fun p => zero < |p.2|

/-- Errors that can be fitted: numbered in order from 1 on (gaps allowed), the visible ones positive and at least two of them. -/
structure Fittable (zero : ℚ) (errors : List (ℕ × ℚ)) : Prop where
  order : (errors.map Prod.fst).Pairwise (· < ·)
  first : ∀ p ∈ errors, 1 ≤ p.1
  pos : ∀ p ∈ visible zero errors, 0 < p.2
  two : 2 ≤ (visible zero errors).length

theorem mapM_log {base : ℝ} {l : List (ℕ × ℚ)} {g : ℕ × ℚ → ℝ} (h : ∀ p ∈ l, 0 < g p) :
    l.mapM (fun p => logOf base (g p)) = .ok (l.map fun p => Real.logb base (g p)) := by
  induction l with
  | nil => rfl
  | cons p l ih =>
    rw [List.mapM_cons, ih fun q hq => h q (List.mem_cons_of_mem _ hq), logOf, if_neg (not_le.2 (h p List.mem_cons_self))]
    rfl

theorem visible_order {zero : ℚ} {errors : List (ℕ × ℚ)} (h : Fittable zero errors) : ((visible zero errors).map Prod.fst).Pairwise (· < ·) :=
  h.order.sublist (List.filter_sublist.map _)

theorem fitLines_ok {lin : Linregress} (hlin : IsRegression lin) {base : ℝ} (hb : 1 < base) {zero : ℚ} {errors : List (ℕ × ℚ)}
    (h : Fittable zero errors) : ∃ f, fitLines lin base zero errors = .ok f ∧
      LeastSquares ((visible zero errors).map fun p => ((p.1 : ℝ), Real.logb base p.2)) f.exponential.slope f.exponential.intercept ∧
      LeastSquares ((visible zero errors).map fun p => (Real.logb base p.1, Real.logb base p.2)) f.polynomial.slope f.polynomial.intercept := by
  have hpos := h.pos
  have hord := visible_order h
  have h1 : ∀ p ∈ visible zero errors, 1 ≤ p.1 := fun p hp => h.first p (List.mem_filter.1 hp).1
  have h2 := h.two
  set K := visible zero errors with hK
  obtain ⟨p, q, K', hKe⟩ : ∃ p q K', K = p :: q :: K' := by
    match K, h2 with
    | p :: q :: K', _ => exact ⟨p, q, K', rfl⟩
  have hpq : p.1 < q.1 := by
    rw [hKe, List.map_cons, List.map_cons, List.pairwise_cons] at hord
    exact hord.1 _ List.mem_cons_self
  have pK : p ∈ K := by simp [hKe]
  have qK : q ∈ K := by simp [hKe]
  have zip : ∀ g g' : ℕ × ℚ → ℝ, (K.map g).zip (K.map g') = K.map fun p => (g p, g' p) := fun g g' => List.zip_map'
  obtain ⟨f1, e1, l1⟩ := hlin (K.map fun p => (p.1 : ℝ)) (K.map fun p => Real.logb base p.2) (by simp)
    ⟨_, List.mem_map_of_mem pK, _, List.mem_map_of_mem qK, by exact_mod_cast hpq.ne⟩
  obtain ⟨f2, e2, l2⟩ := hlin (K.map fun p => Real.logb base p.1) (K.map fun p => Real.logb base p.2) (by simp)
    ⟨_, List.mem_map_of_mem pK, _, List.mem_map_of_mem qK, by
      have hp := h1 p pK
      exact (Real.logb_lt_logb hb (by exact_mod_cast hp) (by exact_mod_cast hpq)).ne⟩
  rw [zip] at l1 l2
  refine ⟨⟨f1, f2⟩, ?_, l1, l2⟩
  have m1 : K.mapM (fun p => logOf base (p.2 : ℝ)) = .ok (K.map fun p => Real.logb base (p.2 : ℝ)) :=
    mapM_log fun p hp => by exact_mod_cast hpos p hp
  have m2 : K.mapM (fun p => logOf base (p.1 : ℝ)) = .ok (K.map fun p => Real.logb base (p.1 : ℝ)) :=
    mapM_log (g := fun p => (p.1 : ℝ)) fun p hp => by exact_mod_cast h1 p hp
  have e : fitLines lin base zero errors = (do
      let ys ← K.mapM fun p : ℕ × ℚ => logOf base (p.2 : ℝ)
      let e ← lin (K.map fun p : ℕ × ℚ => (p.1 : ℝ)) ys
      let xs ← K.mapM fun p : ℕ × ℚ => logOf base (p.1 : ℝ)
      let ys ← K.mapM fun p : ℕ × ℚ => logOf base (p.2 : ℝ)
      let p ← lin xs ys
      return (⟨e, p⟩ : Fits)) := rfl
  rw [e, m1, m2]
  have e' : (do
      let e ← lin (K.map fun p : ℕ × ℚ => (p.1 : ℝ)) (K.map fun p : ℕ × ℚ => Real.logb base (p.2 : ℝ))
      let p ← lin (K.map fun p : ℕ × ℚ => Real.logb base (p.1 : ℝ)) (K.map fun p : ℕ × ℚ => Real.logb base (p.2 : ℝ))
      return (⟨e, p⟩ : Fits)) = Except.ok ⟨f1, f2⟩ := by
    rw [e1, e2]
    rfl
  exact e'

/-- The logarithm of a number between `c x` and `C x`. -/
theorem log_between {base c C x e : ℝ} (hb : 1 < base) (hc : 0 < c) (hx : 0 < x) (h1 : c * x ≤ e) (h2 : e ≤ C * x) :
    |Real.logb base e - (Real.logb base x + (Real.logb base c + Real.logb base C) / 2)| ≤ Real.logb base (C / c) / 2 := by
  have he : 0 < e := (mul_pos hc hx).trans_le h1
  have hC : 0 < C := by
    by_contra hn
    push Not at hn
    nlinarith
  have k1 := Real.logb_le_logb_of_le hb (mul_pos hc hx) h1
  have k2 := Real.logb_le_logb_of_le hb he h2
  rw [Real.logb_mul hc.ne' hx.ne'] at k1
  rw [Real.logb_mul hC.ne' hx.ne'] at k2
  rw [Real.logb_div hC.ne' hc.ne', abs_le]
  constructor <;> linarith

/-- What the fits say: if the visible errors are between `c r^i` and `C r^i`, the slope of the exponential fit is near `log r`; if they are between
`c i^k` and `C i^k`, the slope of the polynomial fit is near `k`. The more visible errors, the nearer; and with `c = C` the fits are exact. -/
structure FindsRate (base : ℝ) (vis : List (ℕ × ℚ)) (f : Fits) : Prop where
  exp : ∀ c C r : ℝ, 0 < c → 0 < r → (∀ p ∈ vis, c * r ^ p.1 ≤ p.2 ∧ p.2 ≤ C * r ^ p.1) →
    (f.exponential.slope - Real.logb base r) ^ 2 * ((vis.length : ℝ) ^ 2 - 1) ≤ 3 * Real.logb base (C / c) ^ 2
  exp_exact : ∀ c r : ℝ, 0 < c → 0 < r → (∀ p ∈ vis, (p.2 : ℝ) = c * r ^ p.1) →
    f.exponential.slope = Real.logb base r ∧ f.exponential.intercept = Real.logb base c
  poly : ∀ c C k S : ℝ, 0 < c → (∀ p ∈ vis, c * (p.1 : ℝ) ^ k ≤ p.2 ∧ p.2 ≤ C * (p.1 : ℝ) ^ k) →
    SpreadAtLeast (vis.map fun p => Real.logb base p.1) S →
    (f.polynomial.slope - k) ^ 2 * S ≤ vis.length * (Real.logb base (C / c) / 2) ^ 2
  poly_exact : ∀ c k : ℝ, 0 < c → (∀ p ∈ vis, (p.2 : ℝ) = c * (p.1 : ℝ) ^ k) →
    f.polynomial.slope = k ∧ f.polynomial.intercept = Real.logb base c

/-- The spread of two numbers. -/
theorem spread_pos {xs : List ℝ} {x x' : ℝ} (hx : x ∈ xs) (hx' : x' ∈ xs) : SpreadAtLeast xs ((x - x') ^ 2 / 4) := by
  intro c
  have nonneg : ∀ y ∈ xs.map fun x => (x - c) ^ 2, 0 ≤ y := fun y hy => by obtain ⟨z, -, rfl⟩ := List.mem_map.1 hy; positivity
  have h1 := List.single_le_sum nonneg _ (List.mem_map_of_mem (f := fun x => (x - c) ^ 2) hx)
  have h2 := List.single_le_sum nonneg _ (List.mem_map_of_mem (f := fun x => (x - c) ^ 2) hx')
  nlinarith [sq_nonneg ((x - c) + (x' - c))]

theorem findsRate {lin : Linregress} (hlin : IsRegression lin) {base : ℝ} (hb : 1 < base) {zero : ℚ} {errors : List (ℕ × ℚ)}
    (h : Fittable zero errors) : ∃ f, fitLines lin base zero errors = .ok f ∧ FindsRate base (visible zero errors) f := by
  obtain ⟨f, hf, l1, l2⟩ := fitLines_ok hlin hb h
  have hord := visible_order h
  have h1 : ∀ p ∈ visible zero errors, 1 ≤ p.1 := fun p hp => h.first p (List.mem_filter.1 hp).1
  have hl2 := h.two
  set K := visible zero errors
  obtain ⟨p, q, K', hKe⟩ : ∃ p q K', K = p :: q :: K' := by
    match K, hl2 with
    | p :: q :: K', _ => exact ⟨p, q, K', rfl⟩
  have hpq : p.1 < q.1 := by
    rw [hKe, List.map_cons, List.map_cons, List.pairwise_cons] at hord
    exact hord.1 _ List.mem_cons_self
  have pK : p ∈ K := by simp [hKe]
  have qK : q ∈ K := by simp [hKe]
  have n2 : (2 : ℝ) ≤ K.length := by exact_mod_cast hl2
  have hexp : ∀ c C r : ℝ, 0 < c → 0 < r → (∀ p ∈ K, c * r ^ p.1 ≤ p.2 ∧ p.2 ≤ C * r ^ p.1) →
      (f.exponential.slope - Real.logb base r) ^ 2 * ((K.length : ℝ) ^ 2 - 1) ≤ 3 * Real.logb base (C / c) ^ 2 := by
    intro c C r hc hr hp
    have := slope_near (m' := Real.logb base r) (c' := (Real.logb base c + Real.logb base C) / 2) (δ := Real.logb base (C / c) / 2) l1 (by
        intro x hx
        obtain ⟨p, hpK, rfl⟩ := List.mem_map.1 hx
        have := log_between hb hc (pow_pos hr p.1) (hp p hpK).1 (hp p hpK).2
        rwa [Real.logb_pow, mul_comm] at this) (S := K.length * ((K.length : ℝ) ^ 2 - 1) / 12) (by
        have := spread_nat _ hord
        rw [List.map_map] at this ⊢
        simpa [Function.comp_def] using this)
    rw [List.length_map] at this
    nlinarith
  have hpoly : ∀ c C k S : ℝ, 0 < c → (∀ p ∈ K, c * (p.1 : ℝ) ^ k ≤ p.2 ∧ p.2 ≤ C * (p.1 : ℝ) ^ k) →
      SpreadAtLeast (K.map fun p => Real.logb base p.1) S →
      (f.polynomial.slope - k) ^ 2 * S ≤ K.length * (Real.logb base (C / c) / 2) ^ 2 := by
    intro c C k S hc hp hS
    have := slope_near (m' := k) (c' := (Real.logb base c + Real.logb base C) / 2) (δ := Real.logb base (C / c) / 2) l2 (by
        intro x hx
        obtain ⟨p, hpK, rfl⟩ := List.mem_map.1 hx
        have p0 : (0 : ℝ) < p.1 := by exact_mod_cast h1 p hpK
        have := log_between hb hc (Real.rpow_pos_of_pos p0 k) (hp p hpK).1 (hp p hpK).2
        rwa [Real.logb_rpow_eq_mul_logb_of_pos p0] at this) (S := S) (by
        rw [List.map_map]
        exact hS)
    rwa [List.length_map] at this
  have hne : K ≠ [] := by rw [hKe]; simp
  refine ⟨f, hf, hexp, ?_, hpoly, ?_⟩
  · intro c r hc hr hp
    have h3 := hexp c c r hc hr fun p hpK => ⟨(hp p hpK).ge, (hp p hpK).le⟩
    rw [div_self hc.ne', Real.logb_one] at h3
    have h4 : f.exponential.slope = Real.logb base r := by
      have : (f.exponential.slope - Real.logb base r) ^ 2 = 0 := by
        have h5 : 0 < (K.length : ℝ) ^ 2 - 1 := by nlinarith
        have h6 := mul_nonneg (sq_nonneg (f.exponential.slope - Real.logb base r)) h5.le
        exact (mul_eq_zero.1 (le_antisymm (by simpa using h3) h6)).resolve_right h5.ne'
      linarith [pow_eq_zero_iff two_ne_zero |>.1 this]
    refine ⟨h4, intercept_exact l1 (by simpa using hne) fun x hx => ?_⟩
    obtain ⟨p, hpK, rfl⟩ := List.mem_map.1 hx
    simp only
    rw [hp p hpK, Real.logb_mul hc.ne' (pow_pos hr _).ne', Real.logb_pow, h4]
    ring
  · intro c k hc hp
    have hlt : Real.logb base p.1 ≠ Real.logb base q.1 := by
      have hp := h1 p pK
      exact (Real.logb_lt_logb hb (by exact_mod_cast hp) (by exact_mod_cast hpq)).ne
    have h3 := hpoly c c k _ hc (fun p hpK => ⟨(hp p hpK).ge, (hp p hpK).le⟩)
      (spread_pos (List.mem_map_of_mem (f := fun p : ℕ × ℚ => Real.logb base p.1) pK) (List.mem_map_of_mem (f := fun p : ℕ × ℚ => Real.logb base p.1) qK))
    rw [div_self hc.ne', Real.logb_one] at h3
    have h5 : 0 < (Real.logb base p.1 - Real.logb base q.1) ^ 2 := by
      have := sub_ne_zero.2 hlt
      positivity
    have h4 : f.polynomial.slope = k := by
      have : (f.polynomial.slope - k) ^ 2 = 0 := by
        have h6 := mul_nonneg (sq_nonneg (f.polynomial.slope - k)) (div_pos h5 (by norm_num : (0 : ℝ) < 4)).le
        exact (mul_eq_zero.1 (le_antisymm (by simpa using h3) h6)).resolve_right (div_pos h5 (by norm_num)).ne'
      linarith [pow_eq_zero_iff two_ne_zero |>.1 this]
    refine ⟨h4, intercept_exact l2 (by simpa using hne) fun x hx => ?_⟩
    obtain ⟨p, hpK, rfl⟩ := List.mem_map.1 hx
    have p0 : (0 : ℝ) < p.1 := by exact_mod_cast h1 p hpK
    simp only
    rw [hp p hpK, Real.logb_mul hc.ne' (Real.rpow_pos_of_pos p0 k).ne', Real.logb_rpow_eq_mul_logb_of_pos p0, h4]
    ring

/-- Where the fit starts: the given cutoff is halved while the error there is below `10^-15`. -/
def StartsAt (errors : List (ℕ × ℚ)) (cutoff c : ℕ) : Prop :=
  ∃ k, c = cutoff / 2 ^ k ∧ (c = 0 ∨ ∃ e, errors[c]? = some e ∧ 1 / 10 ^ 15 ≤ e.2) ∧
    ∀ j < k, 0 < cutoff / 2 ^ j ∧ ∃ e, errors[cutoff / 2 ^ j]? = some e ∧ e.2 < 1 / 10 ^ 15

theorem cutoffLoop_ok (errors : List (ℕ × ℚ)) (cutoff : ℕ) (h : cutoff < errors.length) : ∃ c, cutoffLoop errors cutoff = .ok c ∧ StartsAt errors cutoff c := by
  induction cutoff using Nat.strong_induction_on with
  | _ cutoff ih =>
    rw [cutoffLoop, List.getElem?_eq_getElem h]
    simp only
    by_cases hc : errors[cutoff].2 < 1 / 10 ^ 15 ∧ 0 < cutoff
    · rw [if_pos hc]
      obtain ⟨c, e, k, h1, h2, h3⟩ := ih (cutoff / 2) (by omega) (by omega)
      refine ⟨c, e, k + 1, by rw [h1, pow_succ', Nat.div_div_eq_div_mul], h2, fun j hj => ?_⟩
      cases j with
      | zero =>
        rw [pow_zero, Nat.div_one]
        exact ⟨hc.2, _, List.getElem?_eq_getElem h, hc.1⟩
      | succ j =>
        rw [pow_succ', ← Nat.div_div_eq_div_mul]
        exact h3 j (by omega)
    · rw [if_neg hc]
      refine ⟨cutoff, rfl, 0, by simp, ?_, fun j hj => absurd hj (by omega)⟩
      rcases Nat.eq_zero_or_pos cutoff with h0 | h0
      · exact .inl h0
      · exact .inr ⟨_, List.getElem?_eq_getElem h, by by_contra hn; exact hc ⟨not_le.1 hn, h0⟩⟩

theorem startsAt_unique {errors : List (ℕ × ℚ)} {cutoff c c' : ℕ} (h : StartsAt errors cutoff c) (h' : StartsAt errors cutoff c') : c = c' := by
  have key : ∀ {k k' : ℕ}, (cutoff / 2 ^ k = 0 ∨ ∃ e, errors[cutoff / 2 ^ k]? = some e ∧ 1 / 10 ^ 15 ≤ e.2) →
      (∀ j < k', 0 < cutoff / 2 ^ j ∧ ∃ e, errors[cutoff / 2 ^ j]? = some e ∧ e.2 < 1 / 10 ^ 15) → k' ≤ k := by
    intro k k' h1 h2
    by_contra hlt
    obtain ⟨h3, e, h4, h5⟩ := h2 k (by omega)
    rcases h1 with h1 | ⟨e', h1, h6⟩
    · omega
    · rw [h4] at h1; cases h1
      linarith
  obtain ⟨k, rfl, h1, h2⟩ := h
  obtain ⟨k', rfl, h1', h2'⟩ := h'
  rw [le_antisymm (key h1' h2) (key h1 h2')]

/-- **C115 (partial).** `process_and_compare.find_linear_fitting`: for every trace that is longer than the cutoff and has, from the start of the fit on, at
least two errors above `10^-50`, it returns normally, and the fits of these errors find the speed of convergence.
Missing: shorter traces, see `C115_short_violated`. -/
theorem C115_fit_partial {lin : Linregress} (hlin : IsRegression lin) (errors : List (ℕ × ℚ)) (cutoff : ℕ) (hlen : cutoff < errors.length)
    (h : ∀ c, StartsAt errors cutoff c → Fittable (1 / 10 ^ 50) (errors.drop c)) :
    ∃ f c, findLinearFitting lin errors cutoff = .ok f ∧ StartsAt errors cutoff c ∧
      FindsRate (Real.exp 1) (visible (1 / 10 ^ 50) (errors.drop c)) f := by
  obtain ⟨c, hc, hs⟩ := cutoffLoop_ok errors cutoff hlen
  obtain ⟨f, hf, hr⟩ := findsRate hlin (base := Real.exp 1) (by simp) (h c hs)
  refine ⟨f, c, ?_, hs, hr⟩
  rw [findLinearFitting, hc]
  exact hf

/-- **C115 (between boundaries).** `gen_errors_for_nips.find_linear_fitting`: for every trace with at least two errors above `10^-100` between the
boundaries it returns normally, and the fits find the speed of convergence. -/
theorem C115_between {lin : Linregress} (hlin : IsRegression lin) (errors : List (ℕ × ℚ)) (lo hi : ℕ)
    (h : Fittable (1 / 10 ^ 100) ((errors.take hi).drop lo)) :
    ∃ f, findLinearFittingBetween lin errors lo hi = .ok f ∧ FindsRate 10 (visible (1 / 10 ^ 100) ((errors.take hi).drop lo)) f :=
  findsRate hlin (by norm_num) h

/-- **C115 (violated).** A trace that is not longer than the cutoff, whatever its errors, for example the errors of 500 iterations with the default
cutoff. -/
theorem C115_short_violated (lin : Linregress) (errors : List (ℕ × ℚ)) (cutoff : ℕ) (h : errors.length ≤ cutoff) :
    findLinearFitting lin errors cutoff = .error .indexError := by
  rw [findLinearFitting, cutoffLoop, List.getElem?_eq_none h]
  rfl

/-- Differences that can be fitted: numbered in order from 1 on, positive, and at least two of them. -/
structure Deltas (ds : List (ℕ × ℚ)) : Prop where
  order : (ds.map Prod.fst).Pairwise (· < ·)
  first : ∀ p ∈ ds, 1 ≤ p.1
  pos : ∀ p ∈ ds, 0 < p.2
  two : 2 ≤ ds.length

theorem Deltas.fittable {ds : List (ℕ × ℚ)} (h : Deltas ds) : visible 0 ds = ds ∧ Fittable 0 ds := by
  have e : visible 0 ds = ds := List.filter_eq_self.2 fun p hp => by simpa using (h.pos p hp).ne'
  exact ⟨e, h.order, h.first, by rw [e]; exact h.pos, by rw [e]; exact h.two⟩

theorem fitLog_ok {lin : Linregress} (hlin : IsRegression lin) {ds : List (ℕ × ℚ)} (h : Deltas ds) : ∃ f, fitLog lin ds = .ok f ∧
    (∀ c C k S : ℝ, 0 < c → (∀ p ∈ ds, c * (p.1 : ℝ) ^ k ≤ p.2 ∧ p.2 ≤ C * (p.1 : ℝ) ^ k) → SpreadAtLeast (ds.map fun p => Real.log p.1) S →
      (f.slope - k) ^ 2 * S ≤ ds.length * (Real.log (C / c) / 2) ^ 2) ∧
    ∀ c k : ℝ, 0 < c → (∀ p ∈ ds, (p.2 : ℝ) = c * (p.1 : ℝ) ^ k) → f.slope = k ∧ f.intercept = Real.log c := by
  obtain ⟨e, hF⟩ := h.fittable
  obtain ⟨f, hf, hr⟩ := findsRate hlin (base := Real.exp 1) (by simp) hF
  have hb : ∀ x, Real.logb (Real.exp 1) x = Real.log x := fun x => by rw [Real.logb, Real.log_exp, div_one]
  rw [e] at hr
  refine ⟨f.polynomial, ?_, by simpa only [hb] using hr.poly, by simpa only [hb] using hr.poly_exact⟩
  have m1 : ds.mapM (fun p => logOf (Real.exp 1) (p.2 : ℝ)) = .ok (ds.map fun p => Real.logb (Real.exp 1) (p.2 : ℝ)) :=
    mapM_log fun p hp => by exact_mod_cast h.pos p hp
  have m2 : ds.mapM (fun p => logOf (Real.exp 1) (p.1 : ℝ)) = .ok (ds.map fun p => Real.logb (Real.exp 1) (p.1 : ℝ)) :=
    mapM_log (g := fun p => (p.1 : ℝ)) fun p hp => by exact_mod_cast h.first p hp
  have e1 : fitLines lin (Real.exp 1) 0 ds = (do
      let ys ← (visible 0 ds).mapM fun p : ℕ × ℚ => logOf (Real.exp 1) (p.2 : ℝ)
      let e ← lin ((visible 0 ds).map fun p : ℕ × ℚ => (p.1 : ℝ)) ys
      let xs ← (visible 0 ds).mapM fun p : ℕ × ℚ => logOf (Real.exp 1) (p.1 : ℝ)
      let ys ← (visible 0 ds).mapM fun p : ℕ × ℚ => logOf (Real.exp 1) (p.2 : ℝ)
      let p ← lin xs ys
      return (⟨e, p⟩ : Fits)) := rfl
  rw [e1, e, m1, m2] at hf
  rw [fitLog, m1, m2]
  cases h1 : lin (ds.map fun p : ℕ × ℚ => (p.1 : ℝ)) (ds.map fun p : ℕ × ℚ => Real.logb (Real.exp 1) (p.2 : ℝ)) with
  | error e => simp only [bind, Except.bind, h1] at hf; cases hf
  | ok a =>
    cases h2 : lin (ds.map fun p : ℕ × ℚ => Real.logb (Real.exp 1) (p.1 : ℝ)) (ds.map fun p : ℕ × ℚ => Real.logb (Real.exp 1) (p.2 : ℝ)) with
    | error e => simp only [bind, Except.bind, h1, h2] at hf; cases hf
    | ok b =>
      simp only [bind, Except.bind, h1, h2] at hf
      cases hf
      exact h2

theorem near_min {x y k η : ℝ} (hk : 0 ≤ k) (hx : |x - -k| ≤ η) (hy : |y - -k| ≤ η) : abs (min |x| |y| - k) ≤ η := by
  have key : ∀ {x : ℝ}, |x - -k| ≤ η → abs (|x| - k) ≤ η := fun {x} hx => by
    have := abs_abs_sub_abs_le x (-k)
    rw [abs_neg, abs_of_nonneg hk] at this
    exact this.trans hx
  rcases min_choice |x| |y| with e | e <;> rw [e]
  · exact key hx
  · exact key hy

/-- **C115 (the order of a polynomial approach).** If the differences of every second result are of the order `i^-(k+1)`, as for results that differ by
about `i^-k` from their limit, the parameter of the approach is near `k`: at most `η` away if the squared width of the band of the differences is
at most `η^2` times the mean spread of their positions (in logarithms).  If the differences are exactly `c i^-(k+1)`, the
parameters are exactly `k` and `log c`. -/
theorem C115_order {lin : Linregress} (hlin : IsRegression lin) {pair odd : List (ℕ × ℚ)} (hp : Deltas pair) (ho : Deltas odd) :
    ∃ order coeff, polyOrder lin pair odd = .ok (order, coeff) ∧
      (∀ c C k S η : ℝ, 0 < c → -1 ≤ k → 0 < S → 0 ≤ η →
        (∀ ds, ds = pair ∨ ds = odd → (∀ p ∈ ds, c * (p.1 : ℝ) ^ (-(k + 1)) ≤ p.2 ∧ p.2 ≤ C * (p.1 : ℝ) ^ (-(k + 1))) ∧
          SpreadAtLeast (ds.map fun p => Real.log p.1) (ds.length * S)) →
        (Real.log (C / c) / 2) ^ 2 ≤ η ^ 2 * S → |order - k| ≤ η) ∧
      ∀ c k : ℝ, 0 < c → -1 ≤ k → (∀ p ∈ pair ++ odd, (p.2 : ℝ) = c * (p.1 : ℝ) ^ (-(k + 1))) → order = k ∧ coeff = Real.log c := by
  obtain ⟨f, f1, f2, f3⟩ := fitLog_ok hlin hp
  obtain ⟨g, g1, g2, g3⟩ := fitLog_ok hlin ho
  refine ⟨min |f.slope| |g.slope| - 1, min f.intercept g.intercept, ?_, ?_, ?_⟩
  · rw [polyOrder, f1, g1]
    rfl
  · intro c C k S η hc hk hS hη h hw
    have key : ∀ {s : ℝ} {ds : List (ℕ × ℚ)}, 2 ≤ ds.length →
        (s - -(k + 1)) ^ 2 * (ds.length * S) ≤ ds.length * (Real.log (C / c) / 2) ^ 2 → |s - -(k + 1)| ≤ η := by
      intro s ds hl hs
      have n0 : (0 : ℝ) < ds.length := by exact_mod_cast (show 0 < ds.length by omega)
      have : (s - -(k + 1)) ^ 2 * S ≤ η ^ 2 * S := by
        refine le_trans ?_ hw
        have : (ds.length : ℝ) * ((s - -(k + 1)) ^ 2 * S) ≤ ds.length * (Real.log (C / c) / 2) ^ 2 := by linarith
        exact le_of_mul_le_mul_left this n0
      exact abs_le_of_sq_le_sq (le_of_mul_le_mul_right this hS) hη
    have h1 := key hp.two (f2 c C _ _ hc (h pair (.inl rfl)).1 (h pair (.inl rfl)).2)
    have h2 := key ho.two (g2 c C _ _ hc (h odd (.inr rfl)).1 (h odd (.inr rfl)).2)
    have := near_min (by linarith) h1 h2
    rwa [show ∀ m : ℝ, m - (k + 1) = m - 1 - k from fun m => by ring] at this
  · intro c k hc hk h
    have h1 := f3 c _ hc fun p hpp => h p (List.mem_append_left _ hpp)
    have h2 := g3 c _ hc fun p hpp => h p (List.mem_append_right _ hpp)
    rw [h1.1, h1.2, h2.1, h2.2, min_self, min_self, abs_neg, abs_of_nonneg (by linarith)]
    exact ⟨by ring, rfl⟩

example : ∃ lin, IsRegression lin ∧ ∃ coeff, polyOrder lin [(2, 1 / 4), (4, 1 / 16), (6, 1 / 36)] [(3, 1 / 9), (5, 1 / 25)] = .ok (1, coeff) := by
  obtain ⟨lin, hlin⟩ := exists_regression
  obtain ⟨o, c, h, -, h2⟩ := C115_order hlin (pair := [(2, 1 / 4), (4, 1 / 16), (6, 1 / 36)]) (odd := [(3, 1 / 9), (5, 1 / 25)])
    ⟨by decide, by decide, by simp, by decide⟩ ⟨by decide, by decide, by simp, by decide⟩
  obtain ⟨rfl, -⟩ := h2 1 1 (by norm_num) (by norm_num) (by
    intro p hp
    rw [show (-(1 + 1) : ℝ) = -((2 : ℕ) : ℝ) by norm_num, Real.rpow_neg (by positivity), Real.rpow_natCast]
    simp only [List.cons_append, List.nil_append, List.mem_cons, List.not_mem_nil, or_false] at hp
    rcases hp with rfl | rfl | rfl | rfl | rfl <;> norm_num)
  exact ⟨lin, hlin, c, h⟩

/-- The errors `3 · 2^-i`, `i = 1, ..., 20`. -/
def exErrors : List (ℕ × ℚ) := (List.range 20).map fun i => (i + 1, 3 / 2 ^ (i + 1))

theorem exErrors_visible (zero : ℚ) (h : zero < 3 / 2 ^ 20) (c : ℕ) : visible zero (exErrors.drop c) = exErrors.drop c := by
  apply List.filter_eq_self.2
  intro p hp
  obtain ⟨i, hi, rfl⟩ := List.mem_map.1 (List.mem_of_mem_drop hp)
  have hi := List.mem_range.1 hi
  simp only [decide_eq_true_eq]
  rw [abs_of_pos (by positivity)]
  refine h.trans_le (div_le_div_of_nonneg_left (by norm_num) (by positivity) (pow_le_pow_right₀ (by norm_num) (by omega)))

theorem exErrors_fittable (zero : ℚ) (h : zero < 3 / 2 ^ 20) (c : ℕ) (hc : c ≤ 18) : Fittable zero (exErrors.drop c) := by
  refine ⟨?_, fun p hp => ?_, fun p hp => ?_, ?_⟩
  · refine List.Pairwise.sublist ((List.drop_sublist _ _).map _) ?_
    decide
  · obtain ⟨i, -, rfl⟩ := List.mem_map.1 (List.mem_of_mem_drop hp)
    simp
  · obtain ⟨i, -, rfl⟩ := List.mem_map.1 (List.mem_of_mem_drop (List.mem_filter.1 hp).1)
    simp only
    positivity
  · rw [exErrors_visible zero h, List.length_drop]
    simp only [exErrors, List.length_map, List.length_range]
    omega

example : ∃ lin, IsRegression lin ∧ ∃ f, findLinearFitting lin exErrors 15 = .ok f ∧ f.exponential.slope = - Real.log 2 ∧
    f.exponential.intercept = Real.log 3 := by
  obtain ⟨lin, hlin⟩ := exists_regression
  obtain ⟨f, c, hf, -, hr⟩ := C115_fit_partial hlin exErrors 15 (by decide) fun c hc =>
    exErrors_fittable _ (by norm_num) c (by obtain ⟨k, rfl, -⟩ := hc; exact (Nat.div_le_self _ _).trans (by norm_num))
  rw [exErrors_visible _ (by norm_num)] at hr
  have he := hr.exp_exact 3 (1 / 2) (by norm_num) (by norm_num) (by
    intro p hp
    obtain ⟨i, -, rfl⟩ := List.mem_map.1 (List.mem_of_mem_drop hp)
    push_cast
    rw [one_div, inv_pow, div_eq_mul_inv])
  refine ⟨lin, hlin, f, hf, he.1.trans ?_, he.2.trans ?_⟩
  · rw [Real.logb, Real.log_exp, div_one, one_div, Real.log_inv]
  · rw [Real.logb, Real.log_exp, div_one]

example : Fittable (1 / 10 ^ 100) ((exErrors.take 20).drop 5) := by
  rw [List.take_of_length_le (by simp [exErrors])]
  exact exErrors_fittable _ (by norm_num) 5 (by norm_num)

end PiCF
