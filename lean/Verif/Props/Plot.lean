import Verif.Spec.Plot
import Verif.Props.Fit
import Verif.Props.Process

/-!
# C132: the plots of errors
-/

namespace PiCF.Process
open PiCF.Hashtable PiCF.ContFrac PiCF.Spec

/-- The errors that can be seen are positive and numbered from 1 on. -/
def Plottable (errors : List (ℕ × ℚ)) : Prop := ∀ p ∈ visible (1 / 10 ^ 140) errors, 1 ≤ p.1 ∧ 0 < p.2

theorem plotPoints_ok {base : ℝ} {errors : List (ℕ × ℚ)} (h : Plottable errors) :
    plotPoints base errors = .ok ((visible (1 / 10 ^ 140) errors).map fun p => ((p.1 : ℝ), Real.logb base p.1, Real.logb base p.2)) := by
  have key : ∀ l : List (ℕ × ℚ), (∀ p ∈ l, 1 ≤ p.1 ∧ 0 < p.2) → (l.mapM fun p => do
      let x ← logOf base (p.1 : ℝ)
      let y ← logOf base (p.2 : ℝ)
      return ((p.1 : ℝ), x, y)) = (.ok (l.map fun p => ((p.1 : ℝ), Real.logb base p.1, Real.logb base p.2)) : Except PyErr _) := by
    intro l
    induction l with
    | nil => intro _; rfl
    | cons p l ih =>
      intro hl
      obtain ⟨h1, h2⟩ := hl p List.mem_cons_self
      have h1' : ¬ (p.1 : ℝ) ≤ 0 := not_le.2 (by exact_mod_cast h1)
      have h2' : ¬ (p.2 : ℝ) ≤ 0 := not_le.2 (by exact_mod_cast h2)
      rw [List.mapM_cons, ih fun q hq => hl q (List.mem_cons_of_mem _ hq), logOf, if_neg h1', logOf, if_neg h2']
      rfl
  exact key _ h

/-- A drawing shows these points, and the line of this fit above and below them. -/
structure Depicts (d : Drawing) (pts : List (ℝ × ℝ)) (f : Option Fit) : Prop where
  points : d.points = pts
  none : f = none → d.line = []
  line : ∀ g, f = some g → d.line.map Prod.fst = pts.map Prod.fst ∧ ∀ p ∈ d.line, OnLine g p

theorem depicts_of {pts : List (ℝ × ℝ)} {f : Option Fit} {d : Drawing} {xs ys : List ℝ} (hx : xs = pts.map Prod.fst) (hy : ys = pts.map Prod.snd)
    (h1 : d.points = xs.zip ys) (h2 : d.line = match f with | some g => xs.zip (xs.map fun x => g.intercept + g.slope * x) | .none => []) :
    Depicts d pts f := by
  subst hx hy
  refine ⟨?_, ?_, ?_⟩
  · rw [h1, ← List.unzip_fst, ← List.unzip_snd, List.zip_unzip]
  · rintro rfl; exact h2
  · rintro g rfl
    simp only at h2
    rw [h2]
    refine ⟨List.map_fst_zip (by simp), fun p hp => ?_⟩
    rw [List.map_map, List.zip_map'] at hp
    obtain ⟨q, -, rfl⟩ := List.mem_map.1 hp
    show g.intercept + g.slope * q.1 = g.slope * q.1 + g.intercept
    ring

/-- The points of the left coordinate system, and those of the right one. -/
noncomputable def expPoints (base : ℝ) (errors : List (ℕ × ℚ)) : List (ℝ × ℝ) := errors.map fun p => ((p.1 : ℝ), Real.logb base p.2)
noncomputable def polyPoints (base : ℝ) (errors : List (ℕ × ℚ)) : List (ℝ × ℝ) := errors.map fun p => (Real.logb base p.1, Real.logb base p.2)

theorem draw_series (xs ys : List ℝ) (f : Option Fit) (k : ℕ) (d : ℕ → Drawing) :
    (drawSeries xs ys f).foldl draw (k, d) = (k, Function.update d k ⟨(d k).points ++ xs.zip ys,
      (d k).line ++ match f with | some g => xs.zip (xs.map fun x => g.intercept + g.slope * x) | .none => []⟩) := by
  cases f with
  | none => simp [drawSeries, draw]
  | some g => simp [drawSeries, draw]

theorem draw_finish (b : Bool) (path : Str) (s : ℕ × (ℕ → Drawing)) : (finishPlot b path).foldl draw s = s := by
  unfold finishPlot
  cases b <;> by_cases h : path = [] <;> simp [h, draw]

/-- The calls that draw. -/
def Draws (c : PltCall) : Prop := match c with
  | .panel _ | .dots _ _ | .line _ _ _ => True
  | _ => False

theorem drawSeries_draws (xs ys : List ℝ) (f : Option Fit) : ∀ c ∈ drawSeries xs ys f, Draws c := by
  cases f <;> simp [drawSeries, Draws]

/-- A picture is saved when everything is drawn. -/
theorem saved_all {cs : List PltCall} (h : ∀ c ∈ cs, Draws c) (b : Bool) {path : Str} (hp : path ≠ []) :
    savedPicture path (cs ++ finishPlot b path) = some (picture (cs ++ finishPlot b path)) := by
  have hpic : ∀ l : List PltCall, l.foldl draw (cs.foldl draw (0, fun _ => {})) = cs.foldl draw (0, fun _ => {}) →
      picture (cs ++ l) = picture cs := fun l hl => by rw [picture, List.foldl_append, hl]; rfl
  rw [hpic _ (draw_finish _ _ _)]
  have hnone : cs.findIdx? (isSave path) = none := by
    rw [List.findIdx?_eq_none_iff]
    intro c hc
    have := h c hc
    cases c <;> first | rfl | exact this.elim
  rw [savedPicture, List.findIdx?_append, hnone]
  cases b
  · simp [finishPlot, hp, List.findIdx?_cons, isSave]
  · have e : (finishPlot true path).findIdx? (isSave path) = some 1 := by
      simp [finishPlot, hp, List.findIdx?_cons, isSave]
    rw [e]
    simp only [Option.map_some, Option.none_or, Option.some.injEq]
    rw [Nat.add_comm, List.take_length_add_append]
    apply hpic
    simp [finishPlot, draw]

/-- **C132 (plot_errors).** For all errors of which the visible ones (above 10⁻¹⁴⁰ in absolute value) are positive: the left coordinate system has the
points `(i, ln e_i)`, the right one the points `(ln i, ln e_i)`, one for each visible error, in order; with a fit both have the straight line of the fit
at the same places; the saved picture is the complete one. -/
theorem C132_plot {errors : List (ℕ × ℚ)} (h : Plottable errors) (fits : Option Fits) (b : Bool) (path : Str) :
    ∃ calls, plotErrors errors fits b path = .ok calls ∧
      Depicts (picture calls 1) (expPoints (Real.exp 1) (visible (1 / 10 ^ 140) errors)) (fits.map Fits.exponential) ∧
      Depicts (picture calls 2) (polyPoints (Real.exp 1) (visible (1 / 10 ^ 140) errors)) (fits.map Fits.polynomial) ∧
      (path ≠ [] → savedPicture path calls = some (picture calls)) := by
  rw [plotErrors, plotPoints_ok h]
  refine ⟨_, rfl, ?_, ?_, ?_⟩
  · refine depicts_of (xs := (expPoints (Real.exp 1) (visible (1 / 10 ^ 140) errors)).map Prod.fst)
      (ys := (expPoints (Real.exp 1) (visible (1 / 10 ^ 140) errors)).map Prod.snd) rfl rfl ?_ ?_ <;>
    · rw [picture]
      simp only [List.foldl_append, draw_series, draw_finish, List.foldl_cons, List.foldl_nil, draw]
      simp [expPoints, Function.comp_def]
  · refine depicts_of (xs := (polyPoints (Real.exp 1) (visible (1 / 10 ^ 140) errors)).map Prod.fst)
      (ys := (polyPoints (Real.exp 1) (visible (1 / 10 ^ 140) errors)).map Prod.snd) rfl rfl ?_ ?_ <;>
    · rw [picture]
      simp only [List.foldl_append, draw_series, draw_finish, List.foldl_cons, List.foldl_nil, draw]
      simp [polyPoints, Function.comp_def]
  · intro hp
    refine saved_all ?_ b hp
    intro c hc
    simp only [List.mem_append, List.mem_singleton] at hc
    rcases hc with ((rfl | hc) | rfl) | hc
    · trivial
    · exact drawSeries_draws _ _ _ c hc
    · trivial
    · exact drawSeries_draws _ _ _ c hc

theorem mapM_raises {α β : Type} {g : α → Except PyErr β} (hg : ∀ x e, g x = .error e → e = .valueError) {l : List α}
    (h : ∃ x ∈ l, ∃ e, g x = .error e) : l.mapM g = .error .valueError := by
  induction l with
  | nil => obtain ⟨x, hx, -⟩ := h; cases hx
  | cons y l ih =>
    rw [List.mapM_cons]
    cases hy : g y with
    | error e => rw [hg y e hy]; rfl
    | ok z =>
      obtain ⟨x, hx, e, he⟩ := h
      rcases List.mem_cons.1 hx with rfl | hx
      · rw [hy] at he; cases he
      · show (do let r ← l.mapM g; pure (z :: r)) = _
        rw [ih ⟨x, hx, e, he⟩]
        rfl

/-- **C132 (other errors).** If a visible error is negative or has the number 0, nothing is drawn: the function raises. -/
theorem C132_raises {errors : List (ℕ × ℚ)} (h : ¬ Plottable errors) (fits : Option Fits) (b : Bool) (path : Str) :
    plotErrors errors fits b path = .error .valueError := by
  rw [Plottable] at h
  push Not at h
  obtain ⟨p, hp, hp'⟩ := h
  have : plotPoints (Real.exp 1) errors = .error .valueError := by
    refine mapM_raises (fun x e he => ?_) ⟨p, hp, .valueError, ?_⟩
    · unfold logOf at he
      split at he
      · cases he; rfl
      · split at he <;> cases he
        rfl
    · by_cases h1 : 1 ≤ p.1
      · have h1' : ¬ (p.1 : ℝ) ≤ 0 := not_le.2 (by exact_mod_cast h1)
        have h2 : (p.2 : ℝ) ≤ 0 := by exact_mod_cast hp' h1
        rw [logOf, if_neg h1', logOf, if_pos h2]
        rfl
      · have h1' : (p.1 : ℝ) ≤ 0 := by
          have : p.1 = 0 := by omega
          rw [this]; simp
        rw [logOf, if_pos h1']
        rfl
  rw [plotErrors, this]
  rfl

theorem eq_of_onLine {g : Fit} {l l' : List (ℝ × ℝ)} (h : l.map Prod.fst = l'.map Prod.fst) (h1 : ∀ p ∈ l, OnLine g p) (h2 : ∀ p ∈ l', OnLine g p) :
    l = l' := by
  have key : ∀ l : List (ℝ × ℝ), (∀ p ∈ l, OnLine g p) → l = (l.map Prod.fst).map fun x => (x, g.slope * x + g.intercept) := fun l hl => by
    rw [List.map_map]
    conv_lhs => rw [← List.map_id l]
    exact List.map_congr_left fun p hp => Prod.ext rfl (hl p hp)
  rw [key l h1, key l' h2, h]

theorem visible_drop_mem {errors : List (ℕ × ℚ)} {c : ℕ} {p : ℕ × ℚ} (hp : p ∈ visible (1 / 10 ^ 50) (errors.drop c)) :
    p ∈ visible (1 / 10 ^ 140) errors := by
  obtain ⟨h1, h2⟩ := List.mem_filter.1 hp
  refine List.mem_filter.2 ⟨List.mem_of_mem_drop h1, ?_⟩
  simp only [decide_eq_true_eq] at h2 ⊢
  refine lt_trans ?_ h2
  norm_num

/-- **C132 (the line).** If the errors are exactly geometric, the line drawn for the fit of `find_linear_fitting` goes through all points of the left
coordinate system; if they are exactly a power of the index, through all points of the right one. -/
theorem C132_line {lin : Linregress} (hlin : IsRegression lin) {errors : List (ℕ × ℚ)} {cutoff : ℕ} (hlen : cutoff < errors.length)
    (h : ∀ c, StartsAt errors cutoff c → Fittable (1 / 10 ^ 50) (errors.drop c)) (hp : Plottable errors) (b : Bool) (path : Str) :
    ∃ f calls, findLinearFitting lin errors cutoff = .ok f ∧ plotErrors errors (some f) b path = .ok calls ∧
      (∀ c r : ℝ, 0 < c → 0 < r → (∀ p ∈ visible (1 / 10 ^ 140) errors, (p.2 : ℝ) = c * r ^ p.1) →
        (picture calls 1).line = (picture calls 1).points) ∧
      (∀ c k : ℝ, 0 < c → (∀ p ∈ visible (1 / 10 ^ 140) errors, (p.2 : ℝ) = c * (p.1 : ℝ) ^ k) →
        (picture calls 2).line = (picture calls 2).points) := by
  obtain ⟨f, c, hf, -, hr⟩ := C115_fit_partial hlin errors cutoff hlen h
  obtain ⟨calls, hc, d1, d2, -⟩ := C132_plot hp (some f) b path
  refine ⟨f, calls, hf, hc, fun c' r hc' hr' he => ?_, fun c' k hc' he => ?_⟩
  · obtain ⟨h1, h2⟩ := hr.exp_exact c' r hc' hr' fun p hp => he p (visible_drop_mem hp)
    obtain ⟨k1, k2⟩ := d1.line _ rfl
    refine eq_of_onLine (g := f.exponential) (by rw [k1, d1.points]) k2 fun p hp' => ?_
    rw [d1.points] at hp'
    obtain ⟨q, hq, rfl⟩ := List.mem_map.1 hp'
    show Real.logb _ (q.2 : ℝ) = f.exponential.slope * q.1 + f.exponential.intercept
    rw [h1, h2, he q hq, Real.logb_mul hc'.ne' (pow_pos hr' _).ne', Real.logb_pow]
    ring
  · obtain ⟨h1, h2⟩ := hr.poly_exact c' k hc' fun p hp => he p (visible_drop_mem hp)
    obtain ⟨k1, k2⟩ := d2.line _ rfl
    refine eq_of_onLine (g := f.polynomial) (by rw [k1, d2.points]) k2 fun p hp' => ?_
    rw [d2.points] at hp'
    obtain ⟨q, hq, rfl⟩ := List.mem_map.1 hp'
    have hq1 : (0 : ℝ) < q.1 := by exact_mod_cast (hp q hq).1
    show Real.logb _ (q.2 : ℝ) = f.polynomial.slope * Real.logb _ q.1 + f.polynomial.intercept
    rw [h1, h2, he q hq, Real.logb_mul hc'.ne' (Real.rpow_pos_of_pos hq1 _).ne', Real.logb_rpow_eq_mul_logb_of_pos hq1]
    ring

theorem plotNips_ok {errors : List (ℕ × ℚ)} (h : Plottable errors) (fits : Option Fits) (b : Bool) (path : Str) (hi : ℤ) :
    (∃ calls, plotErrorsNips errors fits b path "exp".toList hi = .ok calls ∧
      Depicts (picture calls 1) (expPoints 10 (sliceTo hi (visible (1 / 10 ^ 140) errors))) (fits.map Fits.exponential) ∧
      (path ≠ [] → savedPicture path calls = some (picture calls))) ∧
    ∃ calls, plotErrorsNips errors fits b path "poly".toList hi = .ok calls ∧
      Depicts (picture calls 1) (polyPoints 10 (sliceTo hi (visible (1 / 10 ^ 140) errors))) (fits.map Fits.polynomial) ∧
      (path ≠ [] → savedPicture path calls = some (picture calls)) := by
  have hs : ∀ {α β : Type} (g : α → β) (l : List α), sliceTo hi (l.map g) = (sliceTo hi l).map g := fun g l => by
    unfold sliceTo
    split <;> simp
  rw [plotErrorsNips, plotErrorsNips, plotPoints_ok h]
  refine ⟨⟨_, rfl, ?_, ?_⟩, ⟨_, rfl, ?_, ?_⟩⟩
  · refine depicts_of (xs := (expPoints 10 (sliceTo hi (visible (1 / 10 ^ 140) errors))).map Prod.fst)
      (ys := (expPoints 10 (sliceTo hi (visible (1 / 10 ^ 140) errors))).map Prod.snd) rfl rfl ?_ ?_ <;>
    · rw [picture]
      simp only [List.foldl_append, draw_series, draw_finish, List.foldl_cons, List.foldl_nil, draw, hs]
      simp [expPoints, Function.comp_def]
  · intro hp
    refine saved_all ?_ b hp
    intro c hc
    simp only [List.mem_append, List.mem_singleton] at hc
    rcases hc with rfl | hc
    · trivial
    · exact drawSeries_draws _ _ _ c hc
  · refine depicts_of (xs := (polyPoints 10 (sliceTo hi (visible (1 / 10 ^ 140) errors))).map Prod.fst)
      (ys := (polyPoints 10 (sliceTo hi (visible (1 / 10 ^ 140) errors))).map Prod.snd) rfl rfl ?_ ?_ <;>
    · rw [picture]
      simp only [List.foldl_append, draw_series, draw_finish, List.foldl_cons, List.foldl_nil, draw, hs]
      simp [polyPoints, Function.comp_def]
  · intro hp
    refine saved_all ?_ b hp
    intro c hc
    simp only [List.mem_append, List.mem_singleton] at hc
    rcases hc with rfl | hc
    · trivial
    · exact drawSeries_draws _ _ _ c hc

/-- The errors of the convergents of a new object. -/
theorem errors_list {a b : Coeffs} {l : Bool} {s : CF} (hs : init a b true none l = .ok s) (t : ℚ) (n : ℕ)
    (hb : ∀ j, 1 ≤ j → j ≤ n → seqAt b j ≠ 0) : ∃ s', buildErrors (.fin t) n s =
      (s', .ok ((List.range n).map fun i => (i + 1, Mitm.absNum (Mitm.subNum (convVal a b (i + 1)) (.fin t))))) := by
  have hp : s.params.a = a ∧ s.params.b = b := by
    rw [init] at hs
    split at hs
    · cases hs
    · simp only at hs
      split at hs
      · cases hs
      · cases hs; exact ⟨rfl, rfl⟩
  have hg := reachable_good hs []
  have hrun : runOps [] s = s := rfl
  rw [hrun] at hg
  obtain ⟨s1, e1, h1, c1, -⟩ := gen_ok hg 0 true (fun j h1 h2 => by omega)
  have hg1 := good_of_core c1 hg
  obtain ⟨s2, e2, c2⟩ := errorsLoop_closed (.fin t) n 0 s1 h1 (by
    rw [hg1.avoid]
    exact fun j h1 h2 h3 => hb j (by omega) (by omega) (by rw [← hp.2]; exact h3.2))
  have hg2 := good_of_core c2 hg1
  obtain ⟨s3, e3, h3, c3, -⟩ := gen_ok hg2 0 true (fun j h1 h2 => by omega)
  refine ⟨s3, ?_⟩
  rw [buildErrors, PyM.bind_ok (show genIterations 0 true s = (s1, .ok ()) from e1), PyM.bind_ok e2,
    PyM.bind_ok (show genIterations 0 true s2 = (s3, .ok ()) from e3), hp.1, hp.2]
  simp only [Nat.zero_add]
  rfl

/-- The errors `|v_i - t|` for `lo < i ≤ hi`. -/
def trueErrors (v : ℕ → ℚ) (t : ℚ) (lo hi : ℕ) : List (ℕ × ℚ) := ((List.range hi).drop lo).map fun i => (i + 1, |v (i + 1) - t|)

theorem trueErrors_visible {v : ℕ → ℚ} {t : ℚ} {hi : ℕ} (hvis : ∀ i, 1 ≤ i → i ≤ hi → 1 / 10 ^ 100 < |v i - t|) (lo : ℕ) {zero : ℚ}
    (hz : zero ≤ 1 / 10 ^ 100) : visible zero (trueErrors v t lo hi) = trueErrors v t lo hi := by
  refine List.filter_eq_self.2 fun p hp => ?_
  obtain ⟨i, hi', rfl⟩ := List.mem_map.1 hp
  have := List.mem_range.1 (List.mem_of_mem_drop hi')
  simp only [decide_eq_true_eq, abs_abs]
  exact hz.trans_lt (hvis _ (by omega) (by omega))

theorem trueErrors_fittable {v : ℕ → ℚ} {t : ℚ} {lo hi : ℕ} (hvis : ∀ i, 1 ≤ i → i ≤ hi → 1 / 10 ^ 100 < |v i - t|) (hlo : lo + 2 ≤ hi) :
    Fittable (1 / 10 ^ 100) (trueErrors v t lo hi) := by
  refine ⟨?_, fun p hp => ?_, fun p hp => ?_, ?_⟩
  · rw [trueErrors, List.map_map]
    have : ((List.range hi).drop lo).Pairwise (· < ·) := List.pairwise_lt_range.sublist (List.drop_sublist _ _)
    exact List.Pairwise.map _ (fun a b h => Nat.add_lt_add_right h 1) this
  · obtain ⟨i, -, rfl⟩ := List.mem_map.1 hp
    simp
  · rw [trueErrors_visible hvis lo le_rfl] at hp
    obtain ⟨i, hi', rfl⟩ := List.mem_map.1 hp
    have := List.mem_range.1 (List.mem_of_mem_drop hi')
    exact lt_trans (by norm_num) (hvis _ (by omega) (by omega))
  · rw [trueErrors_visible hvis lo le_rfl, trueErrors]
    simp
    omega

/-- **C132 (gen_errors_for_nips.py, partial).** For every continued fraction, target `t` and boundaries `lo + 2 ≤ hi`, if no `b_i` is zero for `i` up to
`max(hi, 2000)`, the convergents `v_1, …, v_hi` exist and differ from `t` by more than 10⁻¹⁰⁰: `analyze_contfrac` returns and draws the line that fits best
the errors `lo < i ≤ hi`; its picture has the points of the errors `1 ≤ i ≤ hi`, exactly, and this line; it is saved complete.
Missing: invisible errors, see `C132_window_violated`. -/
theorem C132_nips_partial {lin : Linregress} (hlin : IsRegression lin) {a b : Coeffs} {l : Bool} {s : CF} (hs : init a b true none l = .ok s) {t : ℚ}
    {lo hi : ℕ} (hlo : lo + 2 ≤ hi) (hb : ∀ j, 1 ≤ j → j ≤ max hi 2000 → seqAt b j ≠ 0) {v : ℕ → ℚ}
    (hv : ∀ i, 1 ≤ i → i ≤ hi → nested (ratSeq a) (ratSeq b) 0 i = some (v i)) (hvis : ∀ i, 1 ≤ i → i ≤ hi → 1 / 10 ^ 100 < |v i - t|)
    {path : Str} (hp : path ≠ []) :
    ∃ s' f, LeastSquares (expPoints 10 (trueErrors v t lo hi)) f.exponential.slope f.exponential.intercept ∧
      LeastSquares (polyPoints 10 (trueErrors v t lo hi)) f.polynomial.slope f.polynomial.intercept ∧
      (∃ calls, analyzeContfrac lin t path "exp".toList lo hi s = (s', .ok (f, calls)) ∧
        ∃ d, savedPicture path calls = some d ∧ Depicts (d 1) (expPoints 10 (trueErrors v t 0 hi)) (some f.exponential)) ∧
      ∃ calls, analyzeContfrac lin t path "poly".toList lo hi s = (s', .ok (f, calls)) ∧
        ∃ d, savedPicture path calls = some d ∧ Depicts (d 1) (polyPoints 10 (trueErrors v t 0 hi)) (some f.polynomial) := by
  set n := if 2000 < hi then hi else 2000 with hn
  have hhi : hi ≤ n := by rw [hn]; split <;> omega
  have hmax : n ≤ max hi 2000 := by rw [hn]; split <;> simp
  obtain ⟨s', he⟩ := errors_list hs t n fun j h1 h2 => hb j h1 (h2.trans hmax)
  set E : ℕ → ℕ × Num := fun i => (i + 1, Mitm.absNum (Mitm.subNum (convVal a b (i + 1)) (.fin t))) with hE
  have hfin : ∀ i, i < hi → E i = (i + 1, .fin |v (i + 1) - t|) := fun i hi' => by
    obtain ⟨h4, h5⟩ := nested_eq_cont _ _ _ _ (hv (i + 1) (by omega) (by omega))
    rw [hE]
    simp only
    rw [convVal, quotient, if_neg h4, h5]
    rfl
  have hnum : ∀ L : List ℕ, (∀ i ∈ L, i < hi) → numbers (L.map E) = L.map fun i => (i + 1, |v (i + 1) - t|) := by
    intro L
    induction L with
    | nil => intro _; rfl
    | cons i L ih =>
      intro hL
      rw [List.map_cons, List.map_cons, ← ih fun j hj => hL j (List.mem_cons_of_mem _ hj), hfin i (hL i List.mem_cons_self)]
      rfl
  have hsplit : List.range n = List.range hi ++ (List.range (n - hi)).map (hi + ·) := by
    rw [← List.range_add]
    congr 1
    omega
  have hwin : numbers ((((List.range n).map E).take hi).drop lo) = trueErrors v t lo hi := by
    rw [← List.map_take, hsplit, List.take_append_of_le_length (by simp), List.take_of_length_le (by simp), ← List.map_drop]
    exact hnum _ fun i hi' => List.mem_range.1 (List.mem_of_mem_drop hi')
  have hvisall : ∃ rest, visible (1 / 10 ^ 140) (numbers ((List.range n).map E)) = trueErrors v t 0 hi ++ rest := by
    rw [hsplit, List.map_append, numbers, List.filterMap_append]
    refine ⟨visible (1 / 10 ^ 140) (numbers (((List.range (n - hi)).map (hi + ·)).map E)), ?_⟩
    rw [visible, List.filter_append]
    congr 1
    have : numbers ((List.range hi).map E) = trueErrors v t 0 hi := hnum _ fun i hi' => List.mem_range.1 hi'
    rw [numbers] at this
    rw [this]
    exact trueErrors_visible hvis 0 (by norm_num)
  have hplot : Plottable (numbers ((List.range n).map E)) := by
    intro p hp
    obtain ⟨h1, h2⟩ := List.mem_filter.1 hp
    obtain ⟨q, hq, hq'⟩ := List.mem_filterMap.1 h1
    obtain ⟨i, -, rfl⟩ := List.mem_map.1 hq
    simp only [decide_eq_true_eq] at h2
    have hpos : 0 < |p.2| := lt_trans (by norm_num) h2
    rw [hE] at hq'
    simp only at hq'
    rcases hc : convVal a b (i + 1) with x | _ | _ <;> rw [hc] at hq' <;> simp only [Mitm.subNum, Mitm.absNum] at hq'
    · injection hq' with hq'
      subst hq'
      simp only at hpos ⊢
      exact ⟨by omega, by rwa [abs_abs] at hpos⟩
    all_goals cases hq'
  obtain ⟨f, hf, l1, l2⟩ := fitLines_ok hlin (base := 10) (by norm_num) (trueErrors_fittable hvis hlo)
  rw [trueErrors_visible hvis lo le_rfl] at l1 l2
  obtain ⟨rest, hrest⟩ := hvisall
  have hslice : sliceTo (hi : ℤ) (visible (1 / 10 ^ 140) (numbers ((List.range n).map E))) = trueErrors v t 0 hi := by
    rw [hrest, sliceTo, if_pos (by omega), Int.toNat_natCast]
    have : (trueErrors v t 0 hi).length = hi := by simp [trueErrors]
    exact List.take_left' this
  obtain ⟨⟨c1, k1, d1, p1⟩, c2, k2, d2, p2⟩ := plotNips_ok hplot (some f) true path hi
  rw [hslice] at d1 d2
  refine ⟨s', f, l1, l2, ⟨c1, ?_, _, p1 hp, d1⟩, c2, ?_, _, p2 hp, d2⟩
  · rw [analyzeContfrac, PyM.bind_ok he, hwin, hf, PyM.bind_ok (show liftE (.ok f) s' = (s', .ok f) from rfl), k1,
      PyM.bind_ok (show liftE (.ok c1) s' = (s', .ok c1) from rfl)]
    rfl
  · rw [analyzeContfrac, PyM.bind_ok he, hwin, hf, PyM.bind_ok (show liftE (.ok f) s' = (s', .ok f) from rfl), k2,
      PyM.bind_ok (show liftE (.ok c2) s' = (s', .ok c2) from rfl)]
    rfl

/-- **C132 (violated).** An error that cannot be seen moves the end of the picture: it shows the iteration 3, though the boundary is 2. -/
theorem C132_window_violated (fits : Option Fits) (b : Bool) (path : Str) :
    ∃ calls, plotErrorsNips [(1, 0), (2, 1), (3, 1)] fits b path "exp".toList 2 = .ok calls ∧
      (3, 0) ∈ (picture calls 1).points ∧ (2 : ℝ) < 3 := by
  have hvis : visible (1 / 10 ^ 140) [(1, 0), (2, 1), (3, 1)] = [(2, 1), (3, 1)] := by
    rw [visible]
    norm_num [List.filter_cons]
  obtain ⟨⟨c, h1, h2, -⟩, -⟩ := plotNips_ok (errors := [(1, 0), (2, 1), (3, 1)]) (by rw [Plottable, hvis]; simp) fits b path 2
  refine ⟨c, h1, ?_, by norm_num⟩
  rw [h2.points, hvis]
  simp [expPoints, sliceTo]

/-- **C132 (violated, default boundaries).** With the default boundaries the last visible error is never drawn. -/
theorem C132_default_violated {errors : List (ℕ × ℚ)} (h : Plottable errors) (fits : Option Fits) (b : Bool) (path : Str) :
    ∃ calls, plotErrorsNips errors fits b path = .ok calls ∧ (picture calls 1).points = polyPoints 10 (visible (1 / 10 ^ 140) errors).dropLast := by
  obtain ⟨-, c, h1, h2, -⟩ := plotNips_ok h fits b path (-1)
  refine ⟨c, h1, ?_⟩
  rw [h2.points, sliceTo, if_neg (by decide), List.dropLast_eq_take]
  rfl

/-- The errors `3/2^i` for `i = 1, …, 20`. -/
example : Plottable exErrors ∧ exErrors.length = 20 := by
  refine ⟨fun p hp => ?_, by decide⟩
  obtain ⟨i, -, rfl⟩ := List.mem_map.1 (List.mem_filter.1 hp).1
  exact ⟨by simp, by positivity⟩

/-- `1 + 1/(1 + 1/(1 + ...))` against 0: the errors are the convergents themselves, at least 1. -/
example : ∃ (s : CF) (v : ℕ → ℚ), init [[1]] [[1]] true none true = .ok s ∧ (∀ j, 1 ≤ j → j ≤ max 65 2000 → seqAt [[1]] j ≠ 0) ∧
    (∀ i, 1 ≤ i → i ≤ 65 → nested (ratSeq [[1]]) (ratSeq [[1]]) 0 i = some (v i)) ∧ ∀ i, 1 ≤ i → i ≤ 65 → 1 / 10 ^ 100 < |v i - 0| := by
  have h : ∀ i, i ≤ 65 → ∃ x ∈ nested (ratSeq [[1]]) (ratSeq [[1]]) 0 i, 1 / 10 ^ 100 < |x - 0| := by decide +kernel
  refine ⟨_, fun i => (nested (ratSeq [[1]]) (ratSeq [[1]]) 0 i).getD 0, rfl, fun j _ _ => ?_, fun i _ h65 => ?_, fun i _ h65 => ?_⟩
  · have : seqAt [[1]] j = 1 := by simp [seqAt, Nat.mod_one, horner]
    rw [this]; decide
  · obtain ⟨x, hx, -⟩ := h i h65
    rw [Option.mem_def] at hx
    simp only [hx]; rfl
  · obtain ⟨x, hx, h1⟩ := h i h65
    rw [Option.mem_def] at hx
    simp only [hx]; exact h1

end PiCF.Process
