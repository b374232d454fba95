import Mathlib.Algebra.Order.BigOperators.Group.List
import Mathlib.Tactic.Linarith
import Mathlib.Tactic.Positivity
import Mathlib.Tactic.FieldSimp
import Verif.Model.Estimator
import Verif.Lemmas.ContFracObj

/-!
# Lemmas about the convergence estimator
-/

namespace PiCF.ContFrac

/-! ## The object methods do not depend on what was computed before -/

/-- A method that only touches the recorded iterations. -/
def Frame {α : Type} (m : PyM CF α) : Prop :=
  ∀ s, ∃ lg ms n, (m s).1 = { s with logs := lg, mats := ms, executed := n }

theorem frame_pure {α : Type} (x : α) : Frame (pure x : PyM CF α) := fun s => ⟨s.logs, s.mats, s.executed, rfl⟩
theorem frame_get : Frame (PyM.get : PyM CF CF) := fun s => ⟨s.logs, s.mats, s.executed, rfl⟩
theorem frame_raise {α : Type} (e : PyErr) : Frame (PyM.raise e : PyM CF α) := fun s => ⟨s.logs, s.mats, s.executed, rfl⟩

theorem frame_bind {α β : Type} {m : PyM CF α} {f : α → PyM CF β} (hm : Frame m) (hf : ∀ x, Frame (f x)) :
    Frame (m >>= f) := by
  intro s
  obtain ⟨lg, ms, n, h⟩ := hm s
  rcases hms : m s with ⟨s', r⟩
  rw [hms] at h
  cases r with
  | ok x =>
    rw [PyM.bind_ok hms]
    obtain ⟨lg', ms', n', h'⟩ := hf x s'
    exact ⟨lg', ms', n', by rw [h', show s' = _ from h]⟩
  | error e => rw [PyM.bind_error hms]; exact ⟨lg, ms, n, h⟩

theorem frame_addLoop : ∀ (k i : ℕ) (ps : Params) (m : Mat), Frame (addLoop k i ps m) := by
  intro k
  induction k with
  | zero => intro i ps m s; exact ⟨s.logs, s.mats, s.executed, rfl⟩
  | succ k ih =>
    intro i ps m s
    rw [addLoop]
    split
    · exact ⟨s.logs, s.mats, s.executed, rfl⟩
    · rename_i ps' m' _
      obtain ⟨lg, ms, n, h⟩ := ih (i + 1) ps' m' (if s.logging then { s with logs := s.logs ++ [ps'], mats := s.mats ++ [m'] } else s)
      refine ⟨lg, ms, n, ?_⟩
      simp only
      rw [h]
      split <;> rfl

theorem frame_add (n : ℤ) (fin : Bool) : Frame (addIterations n fin) := by
  intro s
  rw [addIterations]
  obtain ⟨lg, ms, n', h⟩ := frame_addLoop n.toNat 0 (s.logs.getLastD s.params) (s.mats.getLastD s.first) s
  rcases hms : addLoop n.toNat 0 (s.logs.getLastD s.params) (s.mats.getLastD s.first) s with ⟨s', r⟩
  rw [hms] at h
  simp only at h
  cases r with
  | error e => exact ⟨lg, ms, n', h⟩
  | ok r =>
    simp only
    subst h
    cases s.logging
    · exact ⟨_, _, _, rfl⟩
    · exact ⟨_, _, _, rfl⟩

theorem frame_gen (n : ℤ) (fin : Bool) : Frame (genIterations n fin) := by
  intro s
  obtain ⟨lg, ms, n', h⟩ := frame_add n fin s.reset
  exact ⟨lg, ms, n', by rw [genIterations_eq, h]; rfl⟩

theorem frame_six : Frame sixResults :=
  frame_bind frame_get fun _ => frame_bind (frame_add _ _) fun _ => frame_bind frame_get fun _ =>
      frame_bind (frame_add _ _) fun _ => frame_bind frame_get fun _ => frame_bind (frame_add _ _) fun _ =>
      frame_bind frame_get fun _ => frame_bind (frame_add _ _) fun _ => frame_bind frame_get fun _ =>
      frame_bind (frame_add _ _) fun _ => frame_bind frame_get fun _ => frame_pure _

theorem frame_sampleLoop (step : ℤ) (k : ℕ) : ∀ i, Frame (sampleLoop step k i) := by
  induction k with
  | zero => intro i; exact frame_pure _
  | succ k ih =>
    intro i
    exact frame_bind (frame_add _ _) fun _ => frame_bind frame_six fun _ => frame_bind (ih _) fun _ => frame_pure _

theorem frame_samples (iters cutoff step : ℤ) : Frame (estimateSamples iters cutoff step) := by
  refine frame_bind (frame_gen _ _) fun _ => frame_bind frame_six fun _ => frame_bind ?_ fun _ => frame_pure _
  unfold sampleFor
  split
  · exact frame_raise _
  · exact frame_sampleLoop _ _ _

theorem frame_inner (A : Analysis) (iters cutoff step : ℤ) : Frame (innerAlg A iters cutoff step) := by
  refine frame_bind (frame_samples _ _ _) fun _ => ?_
  exact fun s => ⟨s.logs, s.mats, s.executed, rfl⟩

/-- The inner estimator starts from scratch. -/
theorem inner_reset (A : Analysis) (iters cutoff step : ℤ) (s : CF) (lg : List Params) (ms : List Mat) (n : ℤ) :
    innerAlg A iters cutoff step { s with logs := lg, mats := ms, executed := n } = innerAlg A iters cutoff step s := rfl

/-- The answers of the inner estimator on an object, as a function of the arguments. -/
def innerOf (A : Analysis) (s : CF) : Inner := fun _ args => (innerAlg A args.1 args.2.1 args.2.2 s).2

theorem innerOf_frame (A : Analysis) (s : CF) (lg : List Params) (ms : List Mat) (n : ℤ) :
    innerOf A { s with logs := lg, mats := ms, executed := n } = innerOf A s := rfl

theorem estObjLoop1_spec (A : Analysis) : ∀ (c k : ℕ) (iters cutoff step : ℤ) (ans : ApproachType × Option (ℚ × ℚ)) (s : CF),
    cutoff.toNat ≤ c → (∃ lg ms n, (estObjLoop1 A iters cutoff step ans s).1 = { s with logs := lg, mats := ms, executed := n }) ∧
      (estObjLoop1 A iters cutoff step ans s).2 = (estLoop1 (innerOf A s) k iters cutoff step ans).map fun r => (r.1, r.2.1) := by
  intro c
  induction c using Nat.strong_induction_on with
  | _ c ih =>
    intro k iters cutoff step ans s hc
    rw [estObjLoop1, estLoop1]
    by_cases h : ans.1 = .fast ∧ cutoff > 0
    · rw [dif_pos h, dif_pos h]
      simp only
      generalize hC : cutoff.fdiv 2 = C
      have hC' : C.toNat < c := by
        rw [← hC, Int.fdiv_eq_ediv_of_nonneg _ (show (0:ℤ) ≤ 2 by decide)]
        have := h.2
        omega
      generalize max 50 (iters.fdiv 2) = I
      generalize max (truncDiv30 (I - C)) (step.fdiv 2) = S
      obtain ⟨lg, ms, n, hf⟩ := frame_inner A I C S s
      rcases hin : innerAlg A I C S s with ⟨s', r⟩
      rw [hin] at hf
      simp only at hf
      have hin' : innerOf A s k (I, C, S) = r := by rw [innerOf, hin]
      rw [hin']
      cases r with
      | error e => exact ⟨⟨lg, ms, n, hf⟩, rfl⟩
      | ok a =>
        simp only
        obtain ⟨⟨lg', ms', n', h1⟩, h2⟩ := ih C.toNat hC' (k + 1) I C S a s' le_rfl
        subst hf
        exact ⟨⟨lg', ms', n', h1⟩, h2⟩
    · rw [dif_neg h, dif_neg h]
      exact ⟨⟨s.logs, s.mats, s.executed, rfl⟩, rfl⟩

theorem estObjLoop2_spec (A : Analysis) : ∀ (c k : ℕ) (iters : ℤ) (ans : ApproachType × Option (ℚ × ℚ)) (s : CF),
    iters.toNat ≤ c → (∃ lg ms n, (estObjLoop2 A iters ans s).1 = { s with logs := lg, mats := ms, executed := n }) ∧
      (estObjLoop2 A iters ans s).2 = (estLoop2 (innerOf A s) k iters ans).map Prod.fst := by
  intro c
  induction c using Nat.strong_induction_on with
  | _ c ih =>
    intro k iters ans s hc
    rw [estObjLoop2, estLoop2]
    by_cases h : ans.1 = .fast ∧ iters > 10
    · rw [dif_pos h, dif_pos h]
      simp only
      have hC' : (iters - 5).toNat < c := by
        have := h.2
        omega
      generalize iters - 5 = I at hC'
      obtain ⟨lg, ms, n, hf⟩ := frame_inner A I 0 1 s
      rcases hin : innerAlg A I 0 1 s with ⟨s', r⟩
      rw [hin] at hf
      simp only at hf
      have hin' : innerOf A s k (I, 0, 1) = r := by rw [innerOf, hin]
      rw [hin']
      cases r with
      | error e => exact ⟨⟨lg, ms, n, hf⟩, rfl⟩
      | ok a =>
        simp only
        obtain ⟨⟨lg', ms', n', h1⟩, h2⟩ := ih I.toNat hC' (k + 1) I a s' le_rfl
        subst hf
        exact ⟨⟨lg', ms', n', h1⟩, h2⟩
    · rw [dif_neg h, dif_neg h]
      exact ⟨⟨s.logs, s.mats, s.executed, rfl⟩, rfl⟩

/-- The method on the object does what the loops do with the answers of the inner estimator. -/
theorem estimateApproachObj_spec (A : Analysis) (iters cutoff step : ℤ) (s : CF) :
    match estimateApproach (innerOf A s) iters cutoff step with
    | .ok (ans, _) => ∃ lg ms n, estimateApproachObj A iters cutoff step s =
        ({ s with logs := lg, mats := ms, executed := n, approachType := ans.1, approachParams := ans.2 }, .ok ())
    | .error e => ∃ lg ms n, estimateApproachObj A iters cutoff step s =
        ({ s with logs := lg, mats := ms, executed := n }, .error e) := by
  obtain ⟨lg, ms, n, hf⟩ := frame_inner A iters cutoff step s
  rcases hin : innerAlg A iters cutoff step s with ⟨s', r⟩
  rw [hin] at hf
  simp only at hf
  have hin' : innerOf A s 0 (iters, cutoff, step) = r := by rw [innerOf, hin]
  rw [estimateApproach, hin']
  cases r with
  | error e => exact ⟨lg, ms, n, by rw [estimateApproachObj, PyM.bind_error hin, hf]⟩
  | ok a =>
    simp only
    obtain ⟨⟨lg1, ms1, n1, h1⟩, h2⟩ := estObjLoop1_spec A _ 1 iters cutoff step a s' le_rfl
    have hi1 : innerOf A s' = innerOf A s := by rw [hf]; rfl
    rw [hi1] at h2
    rcases hl1 : estObjLoop1 A iters cutoff step a s' with ⟨s1, r1⟩
    rw [hl1] at h1 h2
    simp only at h1 h2
    rcases he1 : estLoop1 (innerOf A s) 1 iters cutoff step a with e | ⟨ans, C, k⟩
    · rw [he1] at h2
      refine ⟨lg1, ms1, n1, ?_⟩
      rw [estimateApproachObj, PyM.bind_ok hin, PyM.bind_error (e := e) (s' := s1) (by rw [hl1, h2]; rfl), h1, hf]
    · rw [he1] at h2
      have hb1 : estObjLoop1 A iters cutoff step a s' = (s1, .ok (ans, C)) := by rw [hl1, h2]; rfl
      simp only
      by_cases hC : C = 0
      · rw [if_pos hC]
        obtain ⟨⟨lg2, ms2, n2, h3⟩, h4⟩ := estObjLoop2_spec A _ k 50 ans s1 le_rfl
        have hi2 : innerOf A s1 = innerOf A s := by rw [h1, hf]; rfl
        rw [hi2] at h4
        rcases hl2 : estObjLoop2 A 50 ans s1 with ⟨s2, r2⟩
        rw [hl2] at h3 h4
        simp only at h3 h4
        rcases he2 : estLoop2 (innerOf A s) k 50 ans with e | ⟨ans', k'⟩
        · rw [he2] at h4
          refine ⟨lg2, ms2, n2, ?_⟩
          rw [estimateApproachObj, PyM.bind_ok hin, PyM.bind_ok hb1]
          simp only [if_pos hC]
          rw [PyM.bind_error (e := e) (s' := s2) (by rw [hl2, h4]; rfl), h3, h1, hf]
        · rw [he2] at h4
          refine ⟨lg2, ms2, n2, ?_⟩
          rw [estimateApproachObj, PyM.bind_ok hin, PyM.bind_ok hb1]
          simp only [if_pos hC]
          rw [PyM.bind_ok (a := ans') (s' := s2) (by rw [hl2, h4]; rfl), h3, h1, hf]
          rfl
      · rw [if_neg hC]
        refine ⟨lg1, ms1, n1, ?_⟩
        rw [estimateApproachObj, PyM.bind_ok hin, PyM.bind_ok hb1]
        simp only [if_neg hC]
        rw [PyM.bind_ok (a := ans) (s' := s1) rfl, h1, hf]
        rfl

/-! ## Means and errors -/

theorem sum_bounds (rs : List ℚ) (lo hi : ℚ) (h : ∀ r ∈ rs, lo ≤ r ∧ r ≤ hi) :
    rs.length * lo ≤ rs.sum ∧ rs.sum ≤ rs.length * hi := by
  induction rs with
  | nil => simp
  | cons r rs ih =>
    obtain ⟨h1, h2⟩ := ih fun x hx => h x (List.mem_cons_of_mem _ hx)
    obtain ⟨h3, h4⟩ := h r List.mem_cons_self
    simp only [List.length_cons, List.sum_cons]
    push_cast
    constructor <;> linarith

theorem mean_bounds {rs : List ℚ} (hne : rs ≠ []) {lo hi : ℚ} (h : ∀ r ∈ rs, lo ≤ r ∧ r ≤ hi) :
    lo ≤ mean rs ∧ mean rs ≤ hi := by
  have hn : (0 : ℚ) < rs.length := by exact_mod_cast List.length_pos_iff.2 hne
  obtain ⟨h1, h2⟩ := sum_bounds rs lo hi h
  rw [mean, le_div_iff₀ hn, div_le_iff₀ hn]
  constructor <;> linarith

theorem mean_pos {rs : List ℚ} (hne : rs ≠ []) (h : ∀ r ∈ rs, 0 < r) : 0 < mean rs := by
  have hn : (0 : ℚ) < rs.length := by exact_mod_cast List.length_pos_iff.2 hne
  exact div_pos (List.sum_pos _ h hne) hn

theorem mean_le {rs : List ℚ} (hne : rs ≠ []) {hi : ℚ} (h : ∀ r ∈ rs, r ≤ hi) : mean rs ≤ hi := by
  have hn : (0 : ℚ) < rs.length := by exact_mod_cast List.length_pos_iff.2 hne
  rw [mean, div_le_iff₀ hn]
  clear hne hn
  induction rs with
  | nil => simp
  | cons r rs ih =>
    have := ih fun x hx => h x (List.mem_cons_of_mem _ hx)
    have := h r List.mem_cons_self
    simp only [List.length_cons, List.sum_cons]
    push_cast
    linarith

theorem exists_gt_of_mean {rs : List ℚ} (hne : rs ≠ []) {t : ℚ} (h : t < mean rs) : ∃ r ∈ rs, t < r := by
  by_contra hc
  push Not at hc
  exact absurd (mean_le hne hc) (not_le.2 h)

/-- What is assumed of `mpf.sqrt`: it exceeds the true square root by at most a factor of two (in fact by a relative
error of `10^-dps`). -/
def SqrtOk (A : Analysis) : Prop := ∀ x y : ℚ, 0 ≤ y → x ≤ y ^ 2 → A.sqrt x ≤ 2 * y

/-- What is assumed of `x ** mpf(0.5)`: it is monotone, and above 1 for the numbers above the threshold. -/
structure RootOk (A : Analysis) : Prop where
  mono : Monotone A.root
  gt_one : ∀ x, 11 / 10 < x → 1 < A.root x

theorem relErr_le {A : Analysis} (hA : SqrtOk A) {rs : List ℚ} (h6 : 6 ≤ rs.length) {lo hi : ℚ} (hlo : 0 < lo)
    (hhi : hi ≤ 3 / 2 * lo) (h : ∀ r ∈ rs, lo ≤ r ∧ r ≤ hi) : relErr A rs ≤ 1 / 2 := by
  have hne : rs ≠ [] := by intro h0; rw [h0] at h6; simp at h6
  obtain ⟨m1, m2⟩ := mean_bounds hne h
  have hm : 0 < mean rs := lt_of_lt_of_le hlo m1
  have hn : (6 : ℚ) ≤ rs.length := by exact_mod_cast h6
  have hsum : ((rs.map fun r => (r - mean rs) ^ 2).sum) ≤ rs.length * (mean rs / 2) ^ 2 := by
    have := (sum_bounds (rs.map fun r => (r - mean rs) ^ 2) 0 ((mean rs / 2) ^ 2) (by
      intro x hx
      obtain ⟨r, hr, rfl⟩ := List.mem_map.1 hx
      obtain ⟨h1, h2⟩ := h r hr
      refine ⟨by positivity, ?_⟩
      rw [sq_le_sq, abs_of_pos (by linarith : (0:ℚ) < mean rs / 2), abs_le]
      constructor <;> linarith)).2
    simpa using this
  have hs : A.sqrt ((rs.map fun r => (r - mean rs) ^ 2).sum) ≤ 2 * (rs.length * mean rs / 4) := by
    apply hA _ _ (by positivity)
    refine hsum.trans ?_
    have : (rs.length * mean rs / 4) ^ 2 - rs.length * (mean rs / 2) ^ 2 =
        (mean rs) ^ 2 * rs.length * (rs.length - 4) / 16 := by ring
    have h2 : 0 ≤ (mean rs) ^ 2 * rs.length * (rs.length - 4) / 16 := by
      apply div_nonneg _ (by norm_num)
      apply mul_nonneg (by positivity)
      linarith
    linarith
  rw [relErr, div_le_iff₀ hm, div_le_iff₀ (by linarith)]
  linarith

/-! ## Coefficients -/

theorem coeffList_pos {p : ℚ} (hp : 1 < p) : ∀ ds : List Delta, ∀ c ∈ coeffList p ds, 0 < c := by
  intro ds
  have hden : 1 - p ^ (-2 : ℤ) ≠ 0 := by
    rw [sub_ne_zero]
    intro h
    have : p ^ (-2 : ℤ) < 1 := zpow_lt_one_of_neg₀ hp (by decide)
    rw [← h] at this
    exact lt_irrefl _ this
  induction ds with
  | nil => intro c hc; simp [coeffList] at hc
  | cons d ds ih =>
    obtain ⟨i, o⟩ := d
    cases o with
    | none => intro c hc; exact ih c hc
    | some d =>
      intro c hc
      rw [coeffList] at hc
      split at hc
      · rename_i hd
        rcases List.mem_cons.1 hc with rfl | hc
        · exact abs_pos.2 (div_ne_zero (mul_ne_zero hd (zpow_ne_zero _ (by linarith))) hden)
        · exact ih c hc
      · exact ih c hc

theorem coeffList_ne_nil (p : ℚ) : ∀ ds : List Delta, ratios ds ≠ [] → coeffList p ds ≠ []
  | [], h => absurd rfl h
  | [_], h => absurd rfl h
  | (i, o) :: (i', o') :: ds, h => by
    have ih := coeffList_ne_nil p ds
    rw [ratios] at h
    cases o with
    | none =>
      cases o' with
      | none => exact ih h
      | some y =>
        simp only at h
        rw [coeffList, coeffList]
        split
        · simp
        · exact ih h
    | some x =>
      cases o' with
      | none =>
        simp only at h
        rw [coeffList]
        split
        · simp
        · exact ih h
      | some y =>
        simp only at h
        rw [coeffList]
        split
        · simp
        · rename_i hx
          rw [coeffList]
          split
          · simp
          · rw [if_neg (by rintro ⟨h1, -⟩; exact hx h1)] at h
            exact ih h

/-- The exponential branch never fails and gives usable parameters. -/
theorem expParams_ok {A : Analysis} (hA : ∀ x, 11 / 10 < x → 1 < A.root x) {dp dodd : List Delta} (hp : ratios dp ≠ [])
    (ho : ratios dodd ≠ []) {mp mo : ℚ} (hmp : 11 / 10 < mp) (hmo : 11 / 10 < mo) :
    ∃ coeff, expParams A dp dodd mp mo = .ok (min (A.root mp) (A.root mo), coeff) ∧ 0 < coeff ∧
      1 < min (A.root mp) (A.root mo) := by
  have h1 : 1 < min (A.root mp) (A.root mo) := lt_min (hA _ hmp) (hA _ hmo)
  set p := min (A.root mp) (A.root mo) with hpdef
  have hlt : p ^ (-2 : ℤ) < 1 := zpow_lt_one_of_neg₀ h1 (by decide)
  refine ⟨min (mean (coeffList p dp)) (mean (coeffList p dodd)), ?_, ?_, h1⟩
  · rw [expParams]
    simp only [← hpdef]
    rw [if_neg (by rintro (h | h) <;> linarith), if_neg (by
      rintro (h | h)
      · exact coeffList_ne_nil p dp hp h
      · exact coeffList_ne_nil p dodd ho h)]
  · exact lt_min (mean_pos (coeffList_ne_nil p dp hp) (coeffList_pos h1 dp))
      (mean_pos (coeffList_ne_nil p dodd ho) (coeffList_pos h1 dodd))

/-! ## Samples of a sequence -/

/-- The six results of a sequence of numbers at index `i`, as the estimator records them. -/
def sixOf (x : ℕ → ℚ) (i : ℕ) : ℤ × List Num := ((i : ℤ), (List.range 6).map fun t => .fin (x (i + t)))

theorem deltaPair_sixOf (x : ℕ → ℚ) (is : List ℕ) : deltaPair (is.map (sixOf x)) =
    is.flatMap fun (i : ℕ) => [((i : ℤ), some |x (i + 2) - x i|), ((i : ℤ) + 2, some |x (i + 4) - x (i + 2)|)] := by
  rw [deltaPair, List.flatMap_map]
  rfl

theorem deltaOdd_sixOf (x : ℕ → ℚ) (is : List ℕ) : deltaOdd (is.map (sixOf x)) =
    is.flatMap fun (i : ℕ) => [((i : ℤ) + 1, some |x (i + 3) - x (i + 1)|), ((i : ℤ) + 3, some |x (i + 5) - x (i + 3)|)] := by
  rw [deltaOdd, List.flatMap_map]
  rfl

theorem ratios_flatMap (is : List ℕ) (u v : ℕ → ℤ) (f g : ℕ → ℚ) (h : ∀ i ∈ is, f i ≠ 0 ∧ g i ≠ 0) :
    ratios (is.flatMap fun i => [(u i, some (f i)), (v i, some (g i))]) = is.map fun i => f i / g i := by
  induction is with
  | nil => rfl
  | cons i is ih =>
    rw [List.flatMap_cons, List.map_cons, List.cons_append, List.cons_append, List.nil_append, ratios]
    simp only
    rw [if_pos (h i List.mem_cons_self), ih fun j hj => h j (List.mem_cons_of_mem _ hj)]

end PiCF.ContFrac
