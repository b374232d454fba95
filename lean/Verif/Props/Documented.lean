import Verif.Lemmas.Documented
import Verif.Model.Nips
import Verif.Props.Process

/-!
# C112: the documented continued fractions
-/

namespace PiCF.Process
open PiCF.ContFrac PiCF.Spec Filter Topology

/-- `build_contfrac_errors` on a new object without vanishing terms. -/
theorem errors_near {a b : Coeffs} {s : CF} (hs : init a b true none true = .ok s) (hb : ∀ n, 1 ≤ n → seqAt b n ≠ 0)
    (hq : ∀ n, contQ (seqAt a) (seqAt b) (n + 1) ≠ 0) (l : ℝ) (t : ℚ) (n : ℕ) :
    ∃ s' errors, buildErrors (.fin t) n s = (s', .ok errors) ∧ errors.map Prod.fst = (List.range n).map (· + 1) ∧
      ∀ i e, (i, e) ∈ errors → ∃ x : ℚ, e = .fin x ∧
        |x - convError (seqAt a) (seqAt b) l i| ≤ |t - l| := by
  have hp : s.params.a = a ∧ s.params.b = b := by
    rw [init] at hs
    split at hs
    · cases hs
    · simp only at hs
      split at hs
      · cases hs
      · cases hs; exact ⟨rfl, rfl⟩
  have hg := reachable_good hs []
  have hrun : runOps [] s = s := rfl
  rw [hrun] at hg
  obtain ⟨s1, e1, h1, c1, -⟩ := gen_ok hg 0 true (fun j h1 h2 => by omega)
  have hg1 := good_of_core c1 hg
  obtain ⟨s2, e2, c2⟩ := errorsLoop_closed (.fin t) n 0 s1 h1 (by
    rw [hg1.avoid]
    exact fun j h1 h2 h3 => hb j (by omega) (by rw [← hp.2]; exact h3.2))
  have hg2 := good_of_core c2 hg1
  obtain ⟨s3, e3, h3, c3, -⟩ := gen_ok hg2 0 true (fun j h1 h2 => by omega)
  refine ⟨s3, (List.range n).map fun t' => (0 + t' + 1, Mitm.absNum (Mitm.subNum (convVal s.params.a s.params.b (0 + t' + 1)) (.fin t))),
    ?_, ?_, ?_⟩
  · rw [buildErrors, PyM.bind_ok (show genIterations 0 true s = (s1, .ok ()) from e1), PyM.bind_ok e2,
      PyM.bind_ok (show genIterations 0 true s2 = (s3, .ok ()) from e3)]
    rfl
  · rw [List.map_map]
    exact List.map_congr_left fun x _ => by simp
  · intro i e hmem
    obtain ⟨x, -, hx⟩ := List.mem_map.1 hmem
    injection hx with hx1 hx2
    subst hx1 hx2
    rw [hp.1, hp.2]
    refine ⟨|(contP (seqAt a) (seqAt b) (0 + x + 1 + 1) : ℚ) / contQ (seqAt a) (seqAt b) (0 + x + 1 + 1) - t|, ?_, ?_⟩
    · rw [convVal, quotient, if_neg (hq _)]
      rfl
    · rw [convError]
      push_cast
      refine (abs_abs_sub_abs_le _ _).trans ?_
      rw [abs_sub_comm]
      ring_nf
      exact le_rfl

theorem b2_ne (n : ℕ) (hn : 1 ≤ n) : seqAt [[0, 3, -2]] n ≠ 0 := by
  rw [b2_eq]
  intro h
  have : (n : ℤ) * (3 - 2 * n) = 0 := by linarith
  rcases mul_eq_zero.1 this with h | h <;> omega

/-- The objects `cf1`, …, `cf4` with their targets. -/
noncomputable def documented : List (Except PyErr CF × ℝ) :=
  [(cf1, 1 / (Real.exp 1 / 2 - 1)), (cf2, 4 / Real.pi), (cf3, 4 / Real.pi), (cf4, Real.pi + 3)]

/-- **C112, the errors.** For each of the four objects and every approximation `t` of its target, `build_contfrac_errors` yields numbers `e_i`, one
for each `i = 1, …, n`, with `|e_i - |c_i - target|| ≤ |t - target|`, where `c_i` is the `i`-th convergent
(`convError` is `|c_i - target|`). -/
theorem C112_errors (x : Except PyErr CF × ℝ) (hx : x ∈ documented) : ∃ s, x.1 = .ok s ∧ ∀ (t : ℚ) (n : ℕ),
    ∃ s' errors, buildErrors (.fin t) n s = (s', .ok errors) ∧ errors.map Prod.fst = (List.range n).map (· + 1) ∧
      ∀ i e, (i, e) ∈ errors → contQ (seqAt s.params.a) (seqAt s.params.b) (i + 1) ≠ 0 ∧ ∃ y : ℚ, e = .fin y ∧
        |y - convError (seqAt s.params.a) (seqAt s.params.b) x.2 i| ≤ |t - x.2| := by
  have key : ∀ {a b : Coeffs} {s : CF} (l : ℝ), init a b true none true = .ok s → s.params.a = a → s.params.b = b →
      (∀ n, 1 ≤ n → seqAt b n ≠ 0) → (∀ n, contQ (seqAt a) (seqAt b) (n + 1) ≠ 0) → ∃ s', init a b true none true = .ok s' ∧ ∀ (t : ℚ) (n : ℕ),
      ∃ s'' errors, buildErrors (.fin t) n s' = (s'', .ok errors) ∧ errors.map Prod.fst = (List.range n).map (· + 1) ∧
        ∀ i e, (i, e) ∈ errors → contQ (seqAt s'.params.a) (seqAt s'.params.b) (i + 1) ≠ 0 ∧ ∃ y : ℚ, e = .fin y ∧
          |y - convError (seqAt s'.params.a) (seqAt s'.params.b) l i| ≤ |t - l| := by
    intro a b s l hs ha hb h0 hq
    refine ⟨s, hs, fun t n => ?_⟩
    obtain ⟨s'', er, h1, h2, h3⟩ := errors_near hs h0 hq l t n
    refine ⟨s'', er, h1, h2, fun i e he => ?_⟩
    rw [ha, hb]
    exact ⟨hq i, h3 i e he⟩
  simp only [documented, List.mem_cons, List.not_mem_nil, or_false] at hx
  rcases hx with rfl | rfl | rfl | rfl
  · exact key (a := [[2, 2]]) (b := [[0, 4]]) _ rfl rfl rfl (fun n hn => (cf1_pos n hn).2.ne') (fun n => (contQ_pos cf1_pos n).2.ne')
  · exact key (a := [[1, 3]]) (b := [[0, 3, -2]]) _ rfl rfl rfl b2_ne cf2_contQ
  · exact key (a := [[1, 2]]) (b := [[0, 0, 1]]) _ rfl rfl rfl (fun n hn => (cf3_pos n hn).2.ne') (fun n => (contQ_pos cf3_pos n).2.ne')
  · exact key (a := [[6]]) (b := [[1, -4, 4]]) _ rfl rfl rfl (fun n hn => by rw [b4_eq]; exact pow_ne_zero 2 (by omega)) cf4_contQ

example : (cf3, 4 / Real.pi) ∈ documented ∧ ∀ s, cf3 = .ok s →
    (buildErrors (.fin (4 / 3)) 2 s).2 = .ok [(1, .fin 0), (2, .fin (4 / 57))] := by
  refine ⟨by simp [documented], fun s hs => ?_⟩
  cases hs
  decide +kernel

theorem degree_lin (c d : ℤ) (hd : d ≠ 0) : IsDegree [c, d] 1 :=
  .inr ⟨1, rfl, by simpa using hd, fun j hj => List.getD_eq_default _ _ (by simp; omega)⟩

theorem degree_quad (c d e : ℤ) (he : e ≠ 0) : IsDegree [c, d, e] 2 :=
  .inr ⟨2, rfl, by simpa using he, fun j hj => List.getD_eq_default _ _ (by simp; omega)⟩

/-- **C112, `cf1`.** "super exponential": the convergents approach `1 / (e/2 - 1)` faster than every exponential rate. -/
theorem C112_cf1 : ∃ s, cf1 = .ok s ∧ ConvergesFast (seqAt s.params.a) (seqAt s.params.b) (1 / (Real.exp 1 / 2 - 1)) := by
  have hb0 : ∀ n, 1 ≤ n → seqAt [[0, 4]] n ≠ 0 := fun n hn => (cf1_pos n hn).2.ne'
  refine ⟨_, rfl, fastTo_of (fast_dichotomy hb0 (small_of_degree ((degree_prod (degree_lin 2 2 (by decide)) (degree_lin 0 4 (by decide))
    (realPoly_ne (hb0 1 le_rfl))).2 (by decide)))) cf1_tendsto fun n => (contQ_pos cf1_pos n).2.ne'⟩

/-- **C112, `cf2`.** "exponential": the convergents approach `4/π` exponentially, and not faster. -/
theorem C112_cf2 : ∃ s, cf2 = .ok s ∧ ConvergesExpTo (seqAt s.params.a) (seqAt s.params.b) (4 / Real.pi) ∧
    ¬ ConvergesFast (seqAt s.params.a) (seqAt s.params.b) (4 / Real.pi) := by
  have hB := balanced_of_degree (i := 1) (degree_lin 1 3 (by decide)) (degree_quad 0 3 (-2) (by decide)) b2_ne
  exact ⟨_, rfl, expTo_of (hB.exp (by norm_num)) cf2_tendsto cf2_contQ, hB.not_fast _⟩

/-- **C112, `cf3`.** "exponential": the convergents approach `4/π` exponentially, and not faster. -/
theorem C112_cf3 : ∃ s, cf3 = .ok s ∧ ConvergesExpTo (seqAt s.params.a) (seqAt s.params.b) (4 / Real.pi) ∧
    ¬ ConvergesFast (seqAt s.params.a) (seqAt s.params.b) (4 / Real.pi) := by
  have hb0 : ∀ n, 1 ≤ n → seqAt [[0, 0, 1]] n ≠ 0 := fun n hn => (cf3_pos n hn).2.ne'
  have hB := balanced_of_degree (i := 1) (degree_lin 1 2 (by decide)) (degree_quad 0 0 1 (by decide)) hb0
  exact ⟨_, rfl, expTo_of (hB.exp (by norm_num)) cf3_tendsto fun n => (contQ_pos cf3_pos n).2.ne', hB.not_fast _⟩

/-- **C112, `cf4`.** "polynomial": the distance of the `n`-th convergent to `π + 3` is of the order `n⁻³`. -/
theorem C112_cf4 : ∃ s, cf4 = .ok s ∧ ConvergesPolyTo (seqAt s.params.a) (seqAt s.params.b) (Real.pi + 3) 3 :=
  ⟨_, rfl, cf4_poly⟩

end PiCF.Process
