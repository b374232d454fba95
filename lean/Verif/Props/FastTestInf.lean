import Verif.Lemmas.Infinite
import Verif.Props.FastTest
import Verif.Props.EstimatorLimit
import Verif.Props.ExpFilter

/-!
# C116, C117: continued fractions that tend to infinity
-/

namespace PiCF
open PiCF.Spec PiCF.EnumPoly PiCF.ContFrac Filter Topology Polynomial

theorem inv_ratio (pa pb : List ℤ) (h0 : ∀ n, 1 ≤ n → seqAt [pb] n ≠ 0) (hd : DivergesExp (seqAt [pa]) (seqAt [pb])) :
    ∃ ρ : ℝ, 0 ≤ ρ ∧ ρ < 1 ∧ RatioLimit (invA (seqAt [pa])) (invB (seqAt [pb])) ρ := by
  have hc := hd.inv
  have hexp : ConvergesExp (invA (seqAt [pa])) (invB (seqAt [pb])) := by
    obtain ⟨c, κ, N, h⟩ := hc
    exact ⟨0, c, κ, N, h⟩
  obtain ⟨hl, hq⟩ := expTo_tendsto hc
  have hnd := not_both hl hq
  have hne := realPoly_ne (h0 1 le_rfl)
  have hda := polynomDegree_spec pa
  have hdb := polynomDegree_spec pb
  obtain ⟨j, hj, dj⟩ := (realPoly_degree hdb).resolve_left fun h => hne h.2
  have hdeg : polynomDegree pb ≤ 2 * polynomDegree pa := by
    by_contra hgt
    refine not_convergesExp (invB_ne h0) ?_ ?_ hexp
    · refine (tendsto_add_atTop_iff_nat 2).1 ?_
      have hz : ((realPoly pa) ^ 2).degree < (realPoly pb).degree := by
        rcases realPoly_degree hda with ⟨-, h⟩ | ⟨i, hi, di⟩
        · rw [h, dj]; simp
        · rw [degree_pow, di, dj, nsmul_eq_mul]
          have : 2 * i < j := by omega
          exact_mod_cast this
      exact ((tendsto_add_atTop_iff_nat 1).2 (ratio_zero hz)).congr fun n => by simp only [invA, invB]
    · refine (tendsto_add_atTop_iff_nat 2).1 ?_
      exact ((tendsto_add_atTop_iff_nat 1).2 (ratio_one hne)).congr fun n => by simp only [invB]
  rw [hj] at hdb hdeg
  obtain ⟨i, hi⟩ := Int.eq_ofNat_of_zero_le (show 0 ≤ polynomDegree pa by omega)
  rw [hi] at hda hdeg
  rcases Nat.lt_or_ge j (2 * i) with hlt | hge
  · exact ⟨0, le_rfl, one_pos, (small_of_degree ((degree_prod hda hdb hne).2 (by omega))).inv.ratio (invB_ne h0) hnd⟩
  · obtain rfl : j = 2 * i := by omega
    have hB := (balanced_of_degree hda (by exact_mod_cast hdb) h0).inv
    obtain ⟨r, t, h1, hrt, ht, ht0⟩ := roots_exist (lt_of_not_ge fun h => hB.not_exp h hexp) hB.lne
    rw [← hrt] at hB
    refine ⟨(t / r) ^ 2, sq_nonneg _, ?_, hB.ratio h1 ht ht0 hnd⟩
    have hr : 0 < r := (abs_nonneg t).trans_lt ht
    rw [div_pow, div_lt_one (by positivity), ← sq_abs t]
    exact pow_lt_pow_left₀ ht (abs_nonneg t) (by norm_num)

/-- **C116.** A continued fraction of two polynomials (`b_n ≠ 0`) that tends to infinity exponentially is not answered as fast: with a
large enough cutoff `is_convergence_fast()` is False.  With `C116_exponential` and C111 this settles all cases with `deg b < 2 deg a`, and
those with `deg b = 2 deg a` and a positive discriminant. -/
theorem C116_infinite (pa pb : List ℤ) (h0 : ∀ n, 1 ≤ n → seqAt [pb] n ≠ 0) (hd : DivergesExp (seqAt [pa]) (seqAt [pb])) :
    Answers [pa] [pb] False := by
  obtain ⟨ρ, hρ0, hρ1, hR⟩ := inv_ratio pa pb h0 hd
  obtain ⟨N, hN⟩ := not_shrinks_of_inverse hρ0 hρ1 h0 hR (expTo_tendsto hd.inv).1
  exact answers_of_shrinks h0 ⟨N, fun m hm => iff_of_false (hN m hm).1 id⟩

-- the hypotheses are met by the continued fraction of `C111_divergent_violated`
example : (∀ n, 1 ≤ n → seqAt [[-1, 2]] n ≠ 0) ∧ DivergesExp (seqAt [[-4, 2]]) (seqAt [[-1, 2]]) ∧ Answers [[-4, 2]] [[-1, 2]] False := by
  have h0 : ∀ n, 1 ≤ n → seqAt [[-1, 2]] n ≠ 0 := fun n hn => by
    rw [seqAt_single]
    simp only [horner, mul_zero, add_zero]
    omega
  have hd := PiCF.DivergesFast.exp C111_divergent_violated.2.1
  exact ⟨h0, hd, C116_infinite _ _ h0 hd⟩

/-! ### The estimator -/

/-- The sampled distances do not shrink by more than 1.1. -/
theorem estimate_growing {a₀ b₀ : Coeffs} {z l : Bool} {s₀ : CF} (hinit : init a₀ b₀ z none l = .ok s₀)
    (ops : List CFOp) (A : Analysis) (hfloat : ∀ x, 0 < x → 0 < A.toFloat x) (iters cutoff step : ℕ) (hstep : 5 ≤ step)
    (hc : 0 < cutoff) (h6 : cutoff + 5 * step ≤ iters)
    (hz : z = true → ∀ j, 1 ≤ j → j ≤ iters + 5 → seqAt (runOps ops s₀).params.b j ≠ 0) (x : ℕ → ℚ)
    (hx : ∀ j, cutoff + j * step ≤ iters → ∀ t < 6,
      contQ (seqAt (runOps ops s₀).params.a) (seqAt (runOps ops s₀).params.b) (cutoff + j * step + t + 1) ≠ 0 ∧
      x (cutoff + j * step + t) = (contP (seqAt (runOps ops s₀).params.a) (seqAt (runOps ops s₀).params.b) (cutoff + j * step + t + 1) : ℚ) /
        contQ (seqAt (runOps ops s₀).params.a) (seqAt (runOps ops s₀).params.b) (cutoff + j * step + t + 1))
    (hb : ∀ j, cutoff + j * step ≤ iters → ∀ t < 2, let i := cutoff + j * step + t
      0 < |x (i + 2) - x i| ∧ |x (i + 2) - x i| ≤ 11 / 10 * |x (i + 4) - x (i + 2)|) :
    ∃ s', estimateApproachObj A iters cutoff step (runOps ops s₀) = (s', .ok ()) ∧
      (s'.approachType = .poly ∨ s'.approachType = .undefined) := by
  have hg : Good (runOps ops s₀) z l := reachable_good hinit ops
  have hz' : NoZero z (runOps ops s₀).params.b 0 (max cutoff iters + 5) := fun j h1 h2 h3 => hz h3.1 j (by omega) (by omega) h3.2
  have hmem : ∀ {i}, i ∈ sampleIdx iters cutoff step → ∃ j, i = cutoff + j * step ∧ i ≤ iters :=
    fun h => (mem_sampleIdx (by omega) (by omega)).1 h
  obtain ⟨s1, e⟩ := inner_finite hg A iters cutoff step hstep (Or.inl hc) hz' x (by
    intro i hi t ht
    obtain ⟨j, rfl, hj⟩ := hmem hi
    exact hx j hj t ht)
  have hpos : ∀ i ∈ sampleIdx iters cutoff step, ∀ t < 2, 0 < |x (i + t + 2) - x (i + t)| ∧ 0 < |x (i + t + 4) - x (i + t + 2)| ∧
      |x (i + t + 2) - x (i + t)| / |x (i + t + 4) - x (i + t + 2)| ≤ 11 / 10 := by
    intro i hi t ht
    obtain ⟨j, rfl, hj⟩ := hmem hi
    obtain ⟨h1, h2⟩ := hb j hj t ht
    have h3 : 0 < |x (cutoff + j * step + t + 4) - x (cutoff + j * step + t + 2)| := by linarith
    exact ⟨h1, h3, by rwa [div_le_iff₀ h3]⟩
  have hne : ∀ i ∈ sampleIdx iters cutoff step, ∀ t < 2,
      |x (i + t + 2) - x (i + t)| ≠ 0 ∧ |x (i + t + 4) - x (i + t + 2)| ≠ 0 := fun i hi t ht =>
    ⟨(hpos i hi t ht).1.ne', (hpos i hi t ht).2.1.ne'⟩
  obtain ⟨hr1, hr2⟩ := ratios_band hne
  obtain ⟨hlogp, hlogo⟩ := logOk_samples hfloat (fun i hi => by
    obtain ⟨j, rfl, hj⟩ := hmem hi
    omega) hne
  have hlen := sampleIdx_len (iters := iters) (cutoff := cutoff) (step := step) (by omega) h6
  set dp := deltaPair ((sampleIdx iters cutoff step).map (sixOf x)) with hdp
  set dodd := deltaOdd ((sampleIdx iters cutoff step).map (sixOf x)) with hdodd
  have hbp : ∀ r ∈ ratios dp, 0 < r ∧ r ≤ 11 / 10 := by
    rw [hr1]
    intro r hr
    obtain ⟨i, hi', rfl⟩ := List.mem_map.1 hr
    obtain ⟨h1, h2, h3⟩ := hpos i hi' 0 (by norm_num)
    exact ⟨div_pos h1 h2, h3⟩
  have hbo : ∀ r ∈ ratios dodd, 0 < r ∧ r ≤ 11 / 10 := by
    rw [hr2]
    intro r hr
    obtain ⟨i, hi', rfl⟩ := List.mem_map.1 hr
    obtain ⟨h1, h2, h3⟩ := hpos i hi' 1 (by norm_num)
    exact ⟨div_pos h1 h2, h3⟩
  have hlp : 6 ≤ (ratios dp).length := by rw [hr1, List.length_map]; exact hlen
  have hlo' : 6 ≤ (ratios dodd).length := by rw [hr2, List.length_map]; exact hlen
  have hnp : ratios dp ≠ [] := by intro h; rw [h] at hlp; simp at hlp
  have hno : ratios dodd ≠ [] := by intro h; rw [h] at hlo'; simp at hlo'
  have hmean : ∀ rs : List ℚ, rs ≠ [] → (∀ r ∈ rs, 0 < r ∧ r ≤ 11 / 10) → 0 < mean rs ∧ mean rs ≤ 11 / 10 := by
    intro rs h1 h2
    refine ⟨?_, (mean_bounds h1 (lo := 0) fun r hr => ⟨(h2 r hr).1.le, (h2 r hr).2⟩).2⟩
    rw [mean]
    exact div_pos (List.sum_pos rs (fun r hr => (h2 r hr).1) h1) (by exact_mod_cast List.length_pos_iff.2 h1)
  obtain ⟨m1, m2⟩ := hmean _ hnp hbp
  obtain ⟨m3, m4⟩ := hmean _ hno hbo
  have hmeans : ∀ sup, classifyMeans A sup dp dodd (mean (ratios dp)) (mean (ratios dodd)) = .ok (.poly, none) := by
    intro sup
    rw [classifyMeans, decide_eq_false (show ¬ mean (ratios dp) > expThreshold by unfold expThreshold; linarith),
      decide_eq_false (show ¬ mean (ratios dodd) > expThreshold by unfold expThreshold; linarith)]
    simp only [polyParams, hlogp, hlogo, Bool.and_self, if_true]
  have hcl : classify A dp dodd = .ok (.poly, none) ∨ classify A dp dodd = .ok (.undefined, none) := by
    simp only [classify]
    rw [if_neg (by omega), if_neg hno, if_neg (by rintro (h | h) <;> linarith)]
    split_ifs
    · exact .inl (hmeans true)
    · exact .inr rfl
    · exact .inl (hmeans false)
  rcases hcl with h | h
  all_goals
    rw [h] at e
    obtain ⟨s2, g1, g2, -⟩ := estimate_first e (by simp) (by exact_mod_cast hc.ne')
    exact ⟨s2, g1, by simp [g2]⟩

/-- **C117.** A continued fraction of two polynomials (`b_n ≠ 0`) that tends to infinity exponentially is never given an exponential type:
with a large enough cutoff and exact results the type `'poly2sympoly'` or `'undefined'` is stored. -/
theorem C117_infinite (pa pb : List ℤ) (h0 : ∀ n, 1 ≤ n → seqAt [pb] n ≠ 0) (hd : DivergesExp (seqAt [pa]) (seqAt [pb]))
    (A : Analysis) (hfloat : ∀ x, 0 < x → 0 < A.toFloat x) :
    Estimates A [pa] [pb] (fun r s => r = .ok () ∧ (s.approachType = .poly ∨ s.approachType = .undefined)) := by
  obtain ⟨ρ, hρ0, hρ1, hR⟩ := inv_ratio pa pb h0 hd
  obtain ⟨N, hN⟩ := not_shrinks_of_inverse hρ0 hρ1 h0 hR (expTo_tendsto hd.inv).1
  refine ⟨N + 1, fun a₀ b₀ z lg s₀ ops iters cutoff step hinit ea eb hc hs hi => ?_⟩
  obtain ⟨s', g1, g2⟩ := estimate_growing hinit ops A hfloat iters cutoff step hs (by omega) hi
    (fun _ j hj _ => by rw [eb]; exact h0 j hj) (convSeq (seqAt [pa]) (seqAt [pb]))
    (fun j _ t _ => by rw [ea, eb]; exact ⟨(hN _ (by omega)).2.1, rfl⟩) (fun j _ t _ => by
      set i := cutoff + j * step + t with hi'
      have hiN : N ≤ i := by omega
      have d1 := diff_ne h0 (hN (i + 1 + 1) (by omega)).2.2 (hN (i + 1) (by omega)).2.1 (hN (i + 1 + 2) (by omega)).2.1
      have d2 := diff_step (hN (i + 1 + 1) (by omega)).2.2 (hN (i + 1) (by omega)).2.1 (hN (i + 1 + 2) (by omega)).2.1
        (hN (i + 1 + 4) (by omega)).2.1
      have d3 := (hN (i + 1) (by omega)).1
      rw [shrinks_iff_ratio h0 (hN (i + 1 + 1) (by omega)).2.2 (hN (i + 1 + 4) (by omega)).2.1, not_lt] at d3
      have k1 : (0 : ℝ) < ((|convSeq (seqAt [pa]) (seqAt [pb]) (i + 2) - convSeq (seqAt [pa]) (seqAt [pb]) i| : ℚ) : ℝ) := by
        rw [convSeq_sub]; exact abs_pos.2 d1
      refine ⟨by exact_mod_cast k1, ?_⟩
      rw [← Rat.cast_le (K := ℝ), Rat.cast_mul, show i + 4 = i + 2 + 2 from rfl, convSeq_sub _ _ (i + 2),
        show i + 2 + 1 + 2 = i + 1 + 4 by ring, show i + 2 + 1 = i + 1 + 2 by ring, d2, abs_mul]
      rw [convSeq_sub] at k1 ⊢
      push_cast
      nlinarith)
  exact ⟨s', _, g1, rfl, g2⟩

-- the same continued fraction
example : Estimates roughAnalysis [[-4, 2]] [[-1, 2]] (fun r s => r = .ok () ∧ (s.approachType = .poly ∨ s.approachType = .undefined)) :=
  C117_infinite _ _ (fun n hn => by
    rw [seqAt_single]
    simp only [horner, mul_zero, add_zero]
    omega) (PiCF.DivergesFast.exp C111_divergent_violated.2.1) _ fun _ h => h

end PiCF
