import Verif.Lemmas.Apery
import Verif.Props.Documented
import Verif.Props.EnumSparse
import Verif.Props.ExpFilter

/-!
# C113: the continued fraction of Apéry's constant
-/

namespace PiCF
open PiCF.ContFrac PiCF.Spec PiCF.EnumPoly PiCF.Process

/-- **C113, the value.** The continued fraction recorded in enum_poly_params.py:275-277, `a_n = 2 + n (2 + n) (4 + 3n)`, `b_n = 2n⁵ (2n - 1)`, converges
to `5 / (2 ζ(3))`, exponentially and not faster. -/
theorem C113_value {a b : ℕ → ℤ} (ha : ∀ n : ℕ, a n = 2 + n * (2 + n) * (4 + 3 * n)) (hb : ∀ n : ℕ, b n = 2 * n ^ 5 * (-1 + 2 * n)) :
    ConvergesExpTo a b (5 / (2 * (riemannZeta 3).re)) ∧ ¬ ConvergesFast a b (5 / (2 * (riemannZeta 3).re)) := by
  have ea : a = seqAt [[2, 8, 10, 3]] := funext fun n => by rw [ha, aA_eq]; ring
  have eb : b = seqAt [[0, 0, 0, 0, 0, -2, 4]] := funext fun n => by rw [hb, bA_eq]; ring
  have hB := balanced_of_degree (pa := [2, 8, 10, 3]) (pb := [0, 0, 0, 0, 0, -2, 4]) (i := 3)
    (.inr ⟨3, rfl, by simp, fun j hj => List.getD_eq_default _ _ (by simp; omega)⟩)
    (.inr ⟨6, rfl, by simp, fun j hj => List.getD_eq_default _ _ (by simp; omega)⟩) fun n hn => (cfA_pos n hn).2.ne'
  rw [ea, eb, ← apery_eq]
  exact ⟨expTo_of (hB.exp (by norm_num)) apery_tendsto fun n => (contQ_pos cfA_pos n).2.ne', hB.not_fast _⟩

example : ∃ a b : ℕ → ℤ, (∀ n : ℕ, a n = 2 + n * (2 + n) * (4 + 3 * n)) ∧ (∀ n : ℕ, b n = 2 * n ^ 5 * (-1 + 2 * n)) ∧
    (contP a b 2, contQ a b 2) = (48, 23) := ⟨_, _, fun _ => rfl, fun _ => rfl, by decide⟩

/-- **C113, the search.** Every sparse enumeration with enough positions whose ranges contain the coefficients yields it (whatever the
order of python's sets, the filters and the number of iterations), with polynomials that have these values. -/
theorem C113_enumerated {so} (hso : IsSetOrder so) (cfg : Config) (nA nB : ℕ) (hA : 4 ≤ nA) (hB : 7 ≤ nB) (r0 r1 r2 r3 s0 s1 : Rng)
    (h0 : r0.1 ≤ 2 ∧ 2 < r0.2) (h1 : r1.1 ≤ 8 ∧ 8 < r1.2) (h2 : r2.1 ≤ 10 ∧ 10 < r2.2) (h3 : r3.1 ≤ 3 ∧ 3 < r3.2)
    (h4 : s0.1 ≤ -2 ∧ -2 < s0.2) (h5 : s1.1 ≤ 4 ∧ 4 < s1.2) :
    ∃ pas pbs, (pas, pbs) ∈ (polysGenerator (manipSparse so nA nB) cfg [[r0, r1, r2, r3]] [[s0, s1]]).1.map Item.pair ∧
      (∀ n : ℕ, seqAt pas n = 2 + n * (2 + n) * (4 + 3 * n)) ∧ ∀ n : ℕ, seqAt pbs n = 2 * n ^ 5 * (-1 + 2 * n) := by
  obtain ⟨i, rfl⟩ := Nat.exists_eq_add_of_le hA
  obtain ⟨j, rfl⟩ := Nat.exists_eq_add_of_le hB
  obtain ⟨-, hs⟩ := sparse_spec hso cfg (4 + i) (7 + j) 4 2 [[r0, r1, r2, r3]] [[s0, s1]] (by simp) (by simp) (by simp) (by simp)
    (fun _ => by omega)
  have eA : placePoly (4 + i) [2, 8, 10, 3] [0, 1, 2, 3] = [2, 8, 10, 3] ++ List.replicate i 0 := by
    apply List.ext_getElem (by simp [placePoly]; omega)
    intro n h1 h2
    simp only [placePoly, List.getElem_map, List.getElem_range]
    match n with
    | 0 | 1 | 2 | 3 => rfl
    | n + 4 =>
      rw [List.getElem_append_right (by simp)]
      simp
  have eB : placePoly (7 + j) [-2, 4] [5, 6] = [0, 0, 0, 0, 0, -2, 4] ++ List.replicate j 0 := by
    apply List.ext_getElem (by simp [placePoly]; omega)
    intro n h1 h2
    simp only [placePoly, List.getElem_map, List.getElem_range]
    match n with
    | 0 | 1 | 2 | 3 | 4 | 5 | 6 => rfl
    | n + 7 =>
      rw [List.getElem_append_right (by simp)]
      simp
  have vA : ∀ n : ℕ, seqAt [[2, 8, 10, 3] ++ List.replicate i 0] n = 2 + n * (2 + n) * (4 + 3 * n) := fun n => by
    rw [seqAt_single, horner_append_zeros]; simp [horner]; ring
  have vB : ∀ n : ℕ, seqAt [[0, 0, 0, 0, 0, -2, 4] ++ List.replicate j 0] n = 2 * n ^ 5 * (-1 + 2 * n) := fun n => by
    rw [seqAt_single, horner_append_zeros]; simp [horner]; ring
  refine ⟨squeeze [[2, 8, 10, 3] ++ List.replicate i 0], squeeze [[0, 0, 0, 0, 0, -2, 4] ++ List.replicate j 0], ?_, by rwa [seqAt_squeeze],
    by rwa [seqAt_squeeze]⟩
  rw [hs]
  refine List.mem_flatMap.2 ⟨[[2, 8, 10, 3] ++ List.replicate i 0], List.mem_flatMap.2 ⟨[[2, 8, 10, 3]], (mem_coeffTuples _ _).2 ?_, ?_⟩,
    List.mem_flatMap.2 ⟨[[0, 0, 0, 0, 0, -2, 4] ++ List.replicate j 0], List.mem_flatMap.2 ⟨[[-2, 4]], (mem_coeffTuples _ _).2 ?_, ?_⟩,
      (mem_emit _ _ _ _).2 ⟨⟨?_, ?_, ?_⟩, rfl⟩⟩⟩
  · simp [InRanges, h0, h1, h2, h3]
  · refine List.mem_map.2 ⟨[[0, 1, 2, 3]], (mem_masksList hso _ _ _ _).2 ⟨rfl, ?_⟩, by simp [eA]⟩
    simp [IsMask]; omega
  · simp [InRanges, h4, h5]
  · refine List.mem_map.2 ⟨[[5, 6]], (mem_masksList hso _ _ _ _).2 ⟨rfl, ?_⟩, by simp [eB]⟩
    simp [IsMask]; omega
  · intro _ pb hpb
    rw [List.mem_singleton.1 hpb, hasIntRoots,
      show [0, 0, 0, 0, 0, -2, 4] ++ List.replicate j (0 : ℤ) = List.replicate 5 0 ++ [-2, 4] ++ List.replicate j 0 from rfl,
      factorOut_core 5 j _ (by simp)]
    decide +kernel
  · intro _ pa pb ea eb
    have e1 : pa = [2, 8, 10, 3] ++ List.replicate i 0 := by
      have : squeeze [[2, 8, 10, 3] ++ List.replicate i (0 : ℤ)] = [[2, 8, 10, 3] ++ List.replicate i 0] :=
        ((squeezed_iff _ _).1 (not_squeezed _)).symm
      rw [this] at ea
      simpa using ea.symm
    have e2 : pb = [0, 0, 0, 0, 0, -2, 4] ++ List.replicate j 0 := by
      have : squeeze [[0, 0, 0, 0, 0, -2, 4] ++ List.replicate j (0 : ℤ)] = [[0, 0, 0, 0, 0, -2, 4] ++ List.replicate j 0] :=
        ((squeezed_iff _ _).1 (not_squeezed _)).symm
      rw [this] at eb
      simpa using eb.symm
    have zeros : ∀ (n k : ℕ), (List.replicate n (0 : ℤ)).getD k 0 = 0 := fun n k => by
      rw [List.getD_eq_getElem?_getD, List.getElem?_replicate]
      split <;> rfl
    have d1 : IsDegree pa 3 := by
      rw [e1]
      refine .inr ⟨3, rfl, by simp, fun k hk => ?_⟩
      rw [List.getD_append_right _ _ _ _ (by simp; omega), zeros]
    have d2 : IsDegree pb 6 := by
      rw [e2]
      refine .inr ⟨6, rfl, by simp, fun k hk => ?_⟩
      rw [List.getD_append_right _ _ _ _ (by simp; omega), zeros]
    rw [isDegree_unique (polynomDegree_spec pa) d1, isDegree_unique (polynomDegree_spec pb) d2]
    norm_num
  · intro _ _ n hn _
    rw [vB]
    have : (1 : ℤ) ≤ n := by exact_mod_cast hn
    exact mul_ne_zero (by positivity) (by omega)

/-- The ranges of tests/fixtures/apery_sanitycheck_config.ini. -/
example {so} (hso : IsSetOrder so) : ∃ pas pbs, (pas, pbs) ∈
    (polysGenerator (manipSparse so 4 7) {} [[(2, 3), (8, 9), (10, 11), (3, 4)]] [[(-2, -1), (4, 5)]]).1.map Item.pair ∧
      ConvergesExpTo (seqAt pas) (seqAt pbs) (5 / (2 * (riemannZeta 3).re)) := by
  obtain ⟨pas, pbs, h1, h2, h3⟩ := C113_enumerated hso {} 4 7 (by decide) (by decide) (2, 3) (8, 9) (10, 11) (3, 4) (-2, -1) (4, 5) (by decide)
    (by decide) (by decide) (by decide) (by decide) (by decide)
  exact ⟨pas, pbs, h1, (C113_value h2 h3).1⟩

end PiCF
