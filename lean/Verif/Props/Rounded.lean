import Verif.Lemmas.Rounded
import Verif.Props.Limit

/-!
# C118: rounding to the working precision
-/

namespace PiCF
open PiCF.Spec PiCF.Mitm PiCF.Lhs PiCF.ContFrac PiCF.DecStr PiCF.Rounded Filter Topology

variable {L : Type}

/-- **C118.** `get_result()` after `n` iterations, whatever happened to the object before: the integers that are divided are the exact
numerator and denominator of the convergent; the result is NaN if the denominator is zero, and else it is the convergent up to three
roundings, whatever the size of the integers. -/
theorem C118_get_result {a₀ b₀ : Coeffs} {z l : Bool} {s₀ : CF} (hinit : init a₀ b₀ z none l = .ok s₀) (ops : List CFOp) (n : ℕ)
    (hz : z = true → ∀ j, 1 ≤ j → j ≤ n → seqAt (runOps ops s₀).params.b j ≠ 0) {rnd : ℚ → ℚ} {u : ℚ} {M : ℤ} (h : RoundOk rnd u M) :
    let p := contP (seqAt (runOps ops s₀).params.a) (seqAt (runOps ops s₀).params.b) (n + 1)
    let q := contQ (seqAt (runOps ops s₀).params.a) (seqAt (runOps ops s₀).params.b) (n + 1)
    (∃ s', genIterations (n : ℤ) true (runOps ops s₀) = (s', .ok ()) ∧
      (s'.mats.getLastD s'.first).1.1 = p ∧ (s'.mats.getLastD s'.first).2.1 = q) ∧
    (q = 0 → quotientR rnd p q = .nan) ∧
    (q ≠ 0 → ∃ θ, quotientR rnd p q = .fin (θ * ((p : ℚ) / q)) ∧ (1 - u) ^ 3 ≤ θ ∧ θ ≤ (1 - u)⁻¹ ^ 3) := by
  intro p q
  refine ⟨?_, fun hq => ?_, fun hq => ?_⟩
  · obtain ⟨s', e, hs, -⟩ := gen_ok (reachable_good hinit ops) n true (fun j h1 h2 h3 => hz h3.1 j (by omega) (by omega) h3.2)
    exact ⟨s', e, by rw [hs.hm]; rfl, by rw [hs.hm]; rfl⟩
  · rw [quotientR, if_pos (h.eq_zero.2 (by exact_mod_cast hq))]
  · have hq' : (q : ℚ) ≠ 0 := by exact_mod_cast hq
    rw [quotientR, if_neg (fun h0 => hq' (h.eq_zero.1 h0))]
    obtain ⟨θ₁, e1, l1, u1⟩ := h.factor p
    obtain ⟨θ₂, e2, l2, u2⟩ := h.factor q
    obtain ⟨θ₃, e3, l3, u3⟩ := h.factor (rnd p / rnd q)
    obtain ⟨g1, g2, g3⟩ := inv_bounds h
    have hu0 := h.u0
    have t2 : 0 < θ₂ := by linarith
    have i1 : θ₂⁻¹ ≤ (1 - u)⁻¹ := inv_anti₀ g3 l2
    have i2 : 1 - u ≤ θ₂⁻¹ := by
      rw [le_inv_comm₀ g3 t2]
      exact u2.trans g2
    refine ⟨θ₃ * θ₁ * θ₂⁻¹, ?_, ?_, ?_⟩
    · rw [e3, e1, e2]
      congr 1
      field_simp
    · calc (1 - u) ^ 3 = (1 - u) * (1 - u) * (1 - u) := by ring
        _ ≤ θ₃ * θ₁ * θ₂⁻¹ := mul_le_mul (mul_le_mul l3 l1 g3.le (by linarith)) i2 g3.le (mul_nonneg (by linarith) (by linarith))
    · calc θ₃ * θ₁ * θ₂⁻¹ ≤ (1 - u)⁻¹ * (1 - u)⁻¹ * (1 - u)⁻¹ := by
            gcongr
            · linarith
            · exact u3.trans g2
            · exact u1.trans g2
        _ = (1 - u)⁻¹ ^ 3 := by ring

/-- All values of the polynomials up to the depth are small enough to be exact. -/
def SmallTerms (cs : Coeffs) (depth : ℕ) (M : ℤ) : Prop := ∀ i < depth, absSum (cs.getD (i % cs.length) []) i < M

/-- The exact and the rounded evaluation run the same loop on the same numbers. -/
theorem eval_loops {a b : Coeffs} (ha : a ≠ []) (hb : b ≠ []) (n : ℕ) {rnd : ℚ → ℚ} {u : ℚ} {M : ℤ} (h : RoundOk rnd u M)
    (hMa : SmallTerms a (n + 1) M) (hMb : SmallTerms b (n + 1) M) :
    let xs := (((List.range n).map fun i => (seqAt a i : ℚ)).reverse.zip ((List.range' 1 n).map fun i => (seqAt b i : ℚ)).reverse)
    evalByPolys a b (n + 1) = evalLoop xs (seqAt a n) ∧ evalByPolysR rnd a b (n + 1) = evalLoopR rnd xs (seqAt a n) := by
  have hR : ∀ cs : Coeffs, SmallTerms cs (n + 1) M → ∀ i < n + 1,
      subsR rnd ((cs.getD (i % cs.length) []).map fun (c : ℤ) => rnd (c : ℚ)) i = (seqAt cs i : ℚ) := by
    intro cs hM i hi
    rw [subsR_exact h _ _ (hM i hi), Utils.subsInPolynom_eq_horner]
    rfl
  have hE : ∀ (cs : Coeffs) (i : ℕ),
      Utils.subsInPolynom ((cs.getD (i % cs.length) []).map (Int.cast : ℤ → ℚ)) (i : ℚ) = ((seqAt cs i : ℤ) : ℚ) := by
    intro cs i
    rw [Utils.subsInPolynom_eq_horner, seqAt, ← horner_cast]
    simp
  have hla : ∀ f : ℕ → ℚ, ((List.range (n + 1)).map f).dropLast = (List.range n).map f := by
    intro f; rw [List.range_succ, List.map_append, List.map_singleton, List.dropLast_concat]
  have hll : ∀ f : ℕ → ℚ, ((List.range (n + 1)).map f).getLastD 0 = f n := by
    intro f; rw [List.range_succ, List.map_append, List.map_singleton]; simp
  constructor
  · rw [evalByPolys, if_neg (by simp [ha, hb])]
    simp only [hE, Nat.add_sub_cancel]
    rw [evalContfrac]
    simp only [List.length_map, List.length_range, List.length_range']
    rw [if_neg (by omega), if_pos trivial, hla, hll]
  · rw [evalByPolysR, if_neg (by simp [ha, hb])]
    have e1 : ((List.range (n + 1)).map fun i => subsR rnd ((a.getD (i % a.length) []).map fun (c : ℤ) => rnd (c : ℚ)) i) =
        (List.range (n + 1)).map fun i => (seqAt a i : ℚ) := by
      apply List.map_congr_left
      intro i hi
      exact hR a hMa i (List.mem_range.1 hi)
    have e2 : ((List.range' 1 (n + 1 - 1)).map fun i => subsR rnd ((b.getD (i % b.length) []).map fun (c : ℤ) => rnd (c : ℚ)) i) =
        (List.range' 1 n).map fun i => (seqAt b i : ℚ) := by
      rw [Nat.add_sub_cancel]
      apply List.map_congr_left
      intro i hi
      rw [List.mem_range'_1] at hi
      exact hR b hMb i (by omega)
    rw [e1, e2, evalContfracR]
    simp only [List.length_map, List.length_range, List.length_range']
    rw [if_neg (by omega), if_pos trivial, hla, hll]

/-- **C118.** `eval_dec_contfrac_by_polys` on a continued fraction with positive terms: with `n` divisions, the computed value is within a
factor of `(1-u)^(-2n)` of the exact one, `u` being the relative error of one rounding. -/
theorem C118_eval_positive {a b : Coeffs} (ha : a ≠ []) (hb : b ≠ []) (n : ℕ) (h0 : 0 ≤ seqAt a 0)
    (hp : ∀ i, 1 ≤ i → i ≤ n → 0 < seqAt a i ∧ 0 < seqAt b i) {rnd : ℚ → ℚ} {u : ℚ} {M : ℤ} (h : RoundOk rnd u M)
    (hMa : SmallTerms a (n + 1) M) (hMb : SmallTerms b (n + 1) M) :
    ∃ v v', nested (fun i => (seqAt a i : ℚ)) (fun i => (seqAt b i : ℚ)) 0 n = some v ∧ evalByPolysR rnd a b (n + 1) = .ok v' ∧
      0 ≤ v ∧ v' ≤ (1 - u)⁻¹ ^ (2 * n) * v ∧ v ≤ (1 - u)⁻¹ ^ (2 * n) * v' := by
  obtain ⟨e1, e2⟩ := eval_loops ha hb n h hMa hMb
  have hval : ∀ v, evalByPolys a b (n + 1) = .ok v → nested (fun i => (seqAt a i : ℚ)) (fun i => (seqAt b i : ℚ)) 0 n = some v := by
    intro v hv
    have hE : ∀ (cs : Coeffs) (i : ℕ),
        Utils.subsInPolynom ((cs.getD (i % cs.length) []).map (Int.cast : ℤ → ℚ)) (i : ℚ) = ((seqAt cs i : ℤ) : ℚ) := by
      intro cs i
      rw [Utils.subsInPolynom_eq_horner, seqAt, ← horner_cast]
      simp
    rw [evalByPolys, if_neg (by simp [ha, hb])] at hv
    simp only [hE] at hv
    rw [(C21_eval_contfrac_partial _ _).1 (by simp), Nat.add_sub_cancel, List.range_eq_range',
      nestedList_range (fun i => ((seqAt a i : ℤ) : ℚ)) (fun i => ((seqAt b i : ℤ) : ℚ))] at hv
    cases hn : nested (fun i => ((seqAt a i : ℤ) : ℚ)) (fun i => ((seqAt b i : ℤ) : ℚ)) 0 n with
    | none => rw [hn] at hv; cases hv
    | some w => rw [hn] at hv; cases hv; rfl
  rcases Nat.eq_zero_or_pos n with rfl | hn
  · have e1' : evalByPolys a b (0 + 1) = .ok (seqAt a 0 : ℚ) := by rw [e1]; rfl
    have e2' : evalByPolysR rnd a b (0 + 1) = .ok (seqAt a 0 : ℚ) := by rw [e2]; rfl
    exact ⟨_, _, hval _ e1', e2', by exact_mod_cast h0, by simp, by simp⟩
  · have hr : (0 : ℚ) < seqAt a n := by exact_mod_cast (hp n hn le_rfl).1
    obtain ⟨v, v', g1, g2, v0, -, hw⟩ := evalLoopR_pos h
      (((List.range n).map fun i => (seqAt a i : ℚ)).reverse.zip ((List.range' 1 n).map fun i => (seqAt b i : ℚ)).reverse) 1 (seqAt a n)
      (seqAt a n) (fun x hx => by
        obtain ⟨h1, h2⟩ := List.of_mem_zip (a := x.1) (b := x.2) hx
        obtain ⟨i, hi, hi'⟩ := List.mem_map.1 (List.mem_reverse.1 h1)
        obtain ⟨j, hj, hj'⟩ := List.mem_map.1 (List.mem_reverse.1 h2)
        rw [List.mem_range] at hi
        rw [List.mem_range'_1] at hj
        rw [← hi', ← hj']
        constructor
        · rcases Nat.eq_zero_or_pos i with rfl | hi0
          · exact_mod_cast h0
          · exact_mod_cast (hp i hi0 hi.le).1.le
        · exact_mod_cast (hp j hj.1 (by omega)).2) hr hr le_rfl ⟨by simp, by simp⟩
    rw [← e1] at g1
    rw [← e2] at g2
    have hlen : (((List.range n).map fun i => (seqAt a i : ℚ)).reverse.zip ((List.range' 1 n).map fun i => (seqAt b i : ℚ)).reverse).length = n := by
      simp
    rw [hlen, one_mul] at hw
    exact ⟨v, v', hval v g1, g2, v0.le, hw.1, hw.2⟩

theorem smallTerms_exists (a b : Coeffs) (n : ℕ) : ∃ M : ℤ, SmallTerms a n M ∧ SmallTerms b n M := by
  have key : ∀ f : ℕ → ℤ, ∃ M, ∀ i < n, f i < M := by
    intro f
    obtain ⟨M, hM⟩ := ((List.range n).map f).toFinset.bddAbove
    refine ⟨M + 1, fun i hi => ?_⟩
    have := hM (show f i ∈ _ by simp only [List.coe_toFinset, Set.mem_ofPred_eq]; exact List.mem_map.2 ⟨i, List.mem_range.2 hi, rfl⟩)
    omega
  obtain ⟨M1, h1⟩ := key fun i => absSum (a.getD (i % a.length) []) i
  obtain ⟨M2, h2⟩ := key fun i => absSum (b.getD (i % b.length) []) i
  exact ⟨max M1 M2, fun i hi => (h1 i hi).trans_le (le_max_left _ _), fun i hi => (h2 i hi).trans_le (le_max_right _ _)⟩

/-- **C118.** For every continued fraction and depth whose exact evaluation returns: with enough precision the computed value is as near
to the exact one as wanted. -/
theorem C118_precision {a b : Coeffs} (n : ℕ) (v : ℚ) (hv : evalByPolys a b (n + 1) = .ok v) (ε : ℚ) (hε : 0 < ε) :
    ∃ δ > 0, ∃ M : ℤ, ∀ (rnd : ℚ → ℚ) (u : ℚ) (M' : ℤ), RoundOk rnd u M' → u ≤ δ → M ≤ M' →
      ∃ v', evalByPolysR rnd a b (n + 1) = .ok v' ∧ |v' - v| ≤ ε := by
  have hab : a ≠ [] ∧ b ≠ [] := by
    rw [evalByPolys] at hv
    split at hv
    · cases hv
    · rename_i h
      push Not at h
      exact h
  obtain ⟨M, hM⟩ := smallTerms_exists a b (n + 1)
  have hex : RoundOk id 0 M := ⟨le_rfl, zero_lt_one, fun x => by simp, fun m _ => rfl⟩
  obtain ⟨δ, h1, hf⟩ := evalLoopR_near _ _ v ((eval_loops hab.1 hab.2 n hex hM.1 hM.2).1 ▸ hv) ε hε
  refine ⟨δ, h1, M, fun rnd u M' hR hu hMM => ?_⟩
  obtain ⟨-, e⟩ := eval_loops hab.1 hab.2 n hR (fun i hi => (hM.1 i hi).trans_le hMM) (fun i hi => (hM.2 i hi).trans_le hMM)
  obtain ⟨v', g1, g2⟩ := hf rnd u M' hR hu (seqAt a n) (by simpa using h1.le)
  exact ⟨v', by rw [e, g1], g2⟩

/-- **C118.** `eval_contfrac` on lists of numbers: lists of the same length, or with one more `a` than `b`, give with enough precision a result as
near to the exact one as wanted, whatever the signs, as long as the exact evaluation does not divide by zero; other lengths raise ValueError. -/
theorem C118_lists (a b : List ℚ) :
    (∀ v, evalContfrac a (some b) = .ok v → ∀ ε > 0, ∃ δ > 0, ∀ (rnd : ℚ → ℚ) (u : ℚ) (M : ℤ), RoundOk rnd u M → u ≤ δ →
      ∃ v', evalContfracR rnd a b = .ok v' ∧ |v' - v| ≤ ε) ∧
    (a.length ≠ b.length → a.length ≠ b.length + 1 → ∀ rnd, evalContfracR rnd a b = .error .valueError) := by
  refine ⟨fun v hv ε hε => ?_, fun h1 h2 rnd => by rw [evalContfracR, if_neg h1, if_neg h2]⟩
  rw [evalContfrac] at hv
  split_ifs at hv with h1 h2
  · obtain ⟨δ, hδ, f⟩ := evalLoopR_near _ _ v hv ε hε
    refine ⟨δ, hδ, fun rnd u M hR hu => ?_⟩
    rw [evalContfracR, if_pos h1]
    exact f rnd u M hR hu 1 (by simpa using hδ.le)
  · obtain ⟨δ, hδ, f⟩ := evalLoopR_near _ _ v hv ε hε
    refine ⟨δ, hδ, fun rnd u M hR hu => ?_⟩
    rw [evalContfracR, if_neg h1, if_pos h2]
    exact f rnd u M hR hu _ (by simpa using hδ.le)

open Classical in
/-- **C118.** The refinement with rounding: for a continued fraction with positive terms whose convergents tend to `r`, a function that maps
the numbers near `r` to numbers near `l`, and an LHS near `l'`, there are `N` and `η > 0` such that with `m ≥ N` iterations and a precision
with `(1-u)^(-2m) ≤ 1 + η` (about `2 m u ≤ η`) `refine_clicks_with_const_num_of_iters` keeps the click iff `l` and `l'` have the same first
`n` digits. -/
theorem C118_refine {l l' r : ℝ} (hx : Decidable10 (l, l')) (n : ℕ) : ∃ ε > 0,
    ∀ (C : LhsClass L) (Inv : L → Prop) (env : RefineEnv) (c : Click L) (f : Num → Except PyErr Num) (w : ℚ), LhsTotal C Inv →
      env.trunc = true → env.accuracy = n → Prints env.eng ε → c.a ≠ [] → c.b ≠ [] → 0 ≤ seqAt c.a 0 →
      (∀ n, 1 ≤ n → 0 < seqAt c.a n ∧ 0 < seqAt c.b n) →
      Tendsto (fun n => (contP (seqAt c.a) (seqAt c.b) (n + 1) : ℝ) / contQ (seqAt c.a) (seqAt c.b) (n + 1)) atTop (𝓝 r) →
      env.funcs[c.post]? = some f → (∃ η > 0, ∀ x : ℚ, |(x : ℝ) - r| < η → ∃ y : ℚ, f (.fin x) = .ok (.fin y) ∧ |(y : ℝ) - l| < ε) →
      Inv c.lhs → C.val c.lhs = .fin w → |(w : ℝ) - l'| < ε →
      ∃ N, ∃ η > (0 : ℚ), ∀ m, N ≤ m → ∀ (rnd : ℚ → ℚ) (u : ℚ) (M : ℤ), RoundOk rnd u M → SmallTerms c.a m M → SmallTerms c.b m M →
        (1 - u)⁻¹ ^ (2 * m) ≤ 1 + η →
        ∃ kept, refineClicks C { env with eval := evalConstR rnd m } (none, [c]) = ((none, kept), .ok ()) ∧
          List.Forall₂ SameClick (if DigitsAgree n l l' then [c] else []) kept := by
  obtain ⟨ε, he, hf⟩ := C114_limit_partial (L := L) [(l, l')] (by simpa using hx) n
  refine ⟨ε, he, fun C Inv env c f w laws ht ha hE hca hcb h0 hp hlim hfun hmap hinv hw hwl => ?_⟩
  obtain ⟨η, hη, hmap⟩ := hmap
  obtain ⟨N, hN⟩ := (Metric.tendsto_atTop.1 hlim) (min (η / 2) 1) (by positivity)
  obtain ⟨η', h1, h2⟩ := exists_rat_btwn (show (0 : ℝ) < η / 2 / (|r| + 1) by positivity)
  have h1' : (0 : ℚ) < η' := by exact_mod_cast h1
  refine ⟨N + 1, η', h1', fun m hm rnd u M hR hMa hMb hu => ?_⟩
  obtain ⟨m, rfl⟩ : ∃ k, m = k + 1 := ⟨m - 1, by omega⟩
  have hd := hN m (by omega)
  rw [Real.dist_eq] at hd
  obtain ⟨v, v', e1, e2, v0, w1, w2⟩ := C118_eval_positive hca hcb m h0 (fun i hi _ => hp i hi) hR hMa hMb
  obtain ⟨g1, g2, g3⟩ := inv_bounds hR
  have hg : (1 - u)⁻¹ ^ (2 * m) ≤ 1 + η' := (pow_le_pow_right₀ g1 (by omega)).trans hu
  have hg1 : 1 ≤ (1 - u)⁻¹ ^ (2 * m) := one_le_pow₀ g1
  have hv : v = (contP (seqAt c.a) (seqAt c.b) (m + 1) : ℚ) / contQ (seqAt c.a) (seqAt c.b) (m + 1) := (nested_eq_cont _ _ _ _ e1).2
  set F := (1 - u)⁻¹ ^ (2 * m)
  have hvv : |v' - v| ≤ η' * v := by
    rw [abs_le]
    constructor
    · have h3 : (2 - F) * v ≤ v' := by
        by_contra hneg
        push Not at hneg
        nlinarith [mul_nonneg v0 (sq_nonneg (F - 1)), mul_lt_mul_of_pos_left hneg (show 0 < F by linarith)]
      nlinarith
    · nlinarith
  have hvr : |(v : ℝ) - r| < min (η / 2) 1 := by
    rw [hv]
    push_cast
    exact hd
  have hvv' : |(v' : ℝ) - v| ≤ η' * v := by exact_mod_cast hvv
  have hnear : |(v' : ℝ) - r| < η := by
    have k1 := hvr.trans_le (min_le_left _ _)
    have k2 := hvr.trans_le (min_le_right _ _)
    have k3 : (v : ℝ) ≤ |r| + 1 := by
      have := (abs_lt.1 k2).2
      have := le_abs_self r
      linarith
    have k4 : (η' : ℝ) * v ≤ η / 2 := by
      calc (η' : ℝ) * v ≤ η' * (|r| + 1) := by gcongr
        _ ≤ η / 2 / (|r| + 1) * (|r| + 1) := by gcongr
        _ = η / 2 := by field_simp
    calc |(v' : ℝ) - r| ≤ |(v' : ℝ) - v| + |(v : ℝ) - r| := abs_sub_le _ _ _
      _ < η := by linarith
  obtain ⟨y, hy1, hy2⟩ := hmap v' hnear
  obtain ⟨kept, hk1, hk2⟩ := hf C Inv { env with eval := evalConstR rnd (m + 1) } [c] laws ht ha hE
    (.cons ⟨hinv, ⟨f, _, y, hfun, by
      show Except.map Num.fin (evalByPolysR rnd c.a c.b (m + 1)) = _
      rw [e2]
      rfl, hy1, hy2⟩, w, hw, hwl⟩ .nil)
  refine ⟨kept, hk1, ?_⟩
  by_cases hD : DigitsAgree n l l'
  · simpa [hD] using hk2
  · simpa [hD] using hk2

theorem factor_le {u η : ℚ} (n : ℕ) (h1 : u < 1) (h2 : 0 < 1 + η) (h : 1 ≤ (1 + η) * (1 - n * u)) : (1 - u)⁻¹ ^ n ≤ 1 + η := by
  rw [inv_pow, inv_le_comm₀ (pow_pos (by linarith) n) h2]
  have := one_add_mul_le_pow (a := -u) (by linarith) n
  rw [← sub_eq_add_neg] at this
  refine le_trans ?_ this
  rw [inv_le_iff_one_le_mul₀' h2]
  linarith

/-- With enough bits the bounds on the precision are met. -/
theorem enough_bits (a b : Coeffs) (m : ℕ) {η : ℚ} (hη : 0 < η) : ∃ p₀, ∀ p, p₀ ≤ p → RoundOk (roundBin p) (1 / 2 ^ p) (2 ^ p) ∧
    SmallTerms a m (2 ^ p) ∧ SmallTerms b m (2 ^ p) ∧ (1 - 1 / 2 ^ p : ℚ)⁻¹ ^ (2 * m) ≤ 1 + η := by
  obtain ⟨M, h1, h2⟩ := smallTerms_exists a b m
  have ht : Tendsto (fun p : ℕ => (1 - (1 / 2) ^ p : ℝ)⁻¹ ^ (2 * m)) atTop (𝓝 ((1 - 0)⁻¹ ^ (2 * m))) :=
    ((tendsto_const_nhds.sub (tendsto_pow_atTop_nhds_zero_of_lt_one (by norm_num) (by norm_num))).inv₀ (by norm_num)).pow _
  rw [sub_zero, inv_one, one_pow] at ht
  obtain ⟨p₁, hp₁⟩ := eventually_atTop.1 (ht.eventually (gt_mem_nhds (show (1 : ℝ) < 1 + η by
    have : (0 : ℝ) < η := by exact_mod_cast hη
    linarith)))
  refine ⟨max (max p₁ M.toNat) 1, fun p hp => ?_⟩
  have hM : M ≤ 2 ^ p := by
    have k1 : M ≤ p := by omega
    have k2 : p < 2 ^ p := Nat.lt_two_pow_self
    have k3 : (p : ℤ) < 2 ^ p := by exact_mod_cast k2
    linarith
  refine ⟨roundBin_ok p (by omega), fun i hi => (h1 i hi).trans_le hM, fun i hi => (h2 i hi).trans_le hM, ?_⟩
  have := (hp₁ p (by omega)).le
  rw [one_div_pow] at this
  have e : (((1 - 1 / 2 ^ p : ℚ)⁻¹ ^ (2 * m) : ℚ) : ℝ) ≤ ((1 + η : ℚ) : ℝ) := by
    push_cast
    exact this
  exact_mod_cast e

open Classical in
/-- **C118.** The same for the numbers of mpmath: with enough iterations, and then with enough bits, the click is kept iff `l` and `l'` have
the same first `n` digits. -/
theorem C118_refine_mpf {l l' r : ℝ} (hx : Decidable10 (l, l')) (n : ℕ) : ∃ ε > 0,
    ∀ (C : LhsClass L) (Inv : L → Prop) (env : RefineEnv) (c : Click L) (f : Num → Except PyErr Num) (w : ℚ), LhsTotal C Inv →
      env.trunc = true → env.accuracy = n → Prints env.eng ε → c.a ≠ [] → c.b ≠ [] → 0 ≤ seqAt c.a 0 →
      (∀ n, 1 ≤ n → 0 < seqAt c.a n ∧ 0 < seqAt c.b n) →
      Tendsto (fun n => (contP (seqAt c.a) (seqAt c.b) (n + 1) : ℝ) / contQ (seqAt c.a) (seqAt c.b) (n + 1)) atTop (𝓝 r) →
      env.funcs[c.post]? = some f → (∃ η > 0, ∀ x : ℚ, |(x : ℝ) - r| < η → ∃ y : ℚ, f (.fin x) = .ok (.fin y) ∧ |(y : ℝ) - l| < ε) →
      Inv c.lhs → C.val c.lhs = .fin w → |(w : ℝ) - l'| < ε →
      ∃ N, ∀ m, N ≤ m → ∃ p₀, ∀ p, p₀ ≤ p →
        ∃ kept, refineClicks C { env with eval := evalConstR (roundBin p) m } (none, [c]) = ((none, kept), .ok ()) ∧
          List.Forall₂ SameClick (if DigitsAgree n l l' then [c] else []) kept := by
  obtain ⟨ε, he, hf⟩ := C118_refine (L := L) (r := r) hx n
  refine ⟨ε, he, fun C Inv env c f w laws ht ha hE hca hcb h0 hp hlim hfun hmap hinv hw hwl => ?_⟩
  obtain ⟨N, η, hη, hN⟩ := hf C Inv env c f w laws ht ha hE hca hcb h0 hp hlim hfun hmap hinv hw hwl
  refine ⟨N, fun m hm => ?_⟩
  obtain ⟨p₀, hp₀⟩ := enough_bits c.a c.b m hη
  refine ⟨p₀, fun p hp => ?_⟩
  obtain ⟨k1, k2, k3, k4⟩ := hp₀ p hp
  exact hN m hm _ _ _ k1 k2 k3 k4

/-- **C118 (violated).** With terms of both signs there is no bound: the exact evaluation of this continued fraction divides by zero (and
it would be skipped), but with 50 decimal digits (169 binary ones) a number above `10^49` is computed. -/
theorem C118_cancellation_violated : evalByPolys [[-31, 18, -1]] [[43, -14]] 4 = .error .zeroDivision ∧
    ∃ v, evalByPolysR (roundBin 169) [[-31, 18, -1]] [[43, -14]] 4 = .ok v ∧ 10 ^ 49 < |v| := by
  exact ⟨by decide +kernel, -1356273519443077908093019524760710642240705399881760, by decide +kernel, by norm_num⟩

/-! ### Examples -/

/-- `1 + 1/(2 - 3/1)` and `1 + 1/2` -/
example : evalContfrac [1, 2] (some [1, -3]) = .ok 0 ∧ evalContfrac [1, 2] (some [1]) = .ok (3 / 2) := by decide +kernel

/-- With 169 bits (`mp.dps = 50`) the relative error of a rounding is at most `2^(-169)`. -/
example : RoundOk (roundBin 169) (1 / 2 ^ 169) (2 ^ 169) := roundBin_ok 169 (by norm_num)

example : ∃ s₀, init [[1, 2]] [[0, 0, 1]] true none false = .ok s₀ ∧
    ∃ θ, quotientR (roundBin 20) (contP (seqAt [[1, 2]]) (seqAt [[0, 0, 1]]) 41) (contQ (seqAt [[1, 2]]) (seqAt [[0, 0, 1]]) 41) =
      .fin (θ * (contP (seqAt [[1, 2]]) (seqAt [[0, 0, 1]]) 41 / contQ (seqAt [[1, 2]]) (seqAt [[0, 0, 1]]) 41)) ∧ 1 - 1 / 10 ^ 5 < θ ∧
      2 ^ 169 < contQ (seqAt [[1, 2]]) (seqAt [[0, 0, 1]]) 41 := by
  refine ⟨_, rfl, ?_⟩
  have hb : ∀ j, 1 ≤ j → seqAt [[0, 0, 1]] j ≠ 0 := fun j hj => (cf3_pos j hj).2.ne'
  have hq : (2 : ℤ) ^ 169 < contQ (seqAt [[1, 2]]) (seqAt [[0, 0, 1]]) 41 := by decide +kernel
  obtain ⟨-, -, h⟩ := C118_get_result (a₀ := [[1, 2]]) (b₀ := [[0, 0, 1]]) (z := true) (l := false) rfl [] 40 (fun _ j hj _ => hb j hj)
    (roundBin_ok 20 (by norm_num))
  obtain ⟨θ, h1, h2, -⟩ := h (lt_trans (by norm_num) hq).ne'
  exact ⟨θ, h1, lt_of_lt_of_le (by norm_num) h2, hq⟩

/-- `4/π = 1 + 1/(3 + 4/(5 + 9/(7 + ...)))` with 300 divisions and 169 bits: the relative error is below `10^(-48)`. -/
example : ∃ v v', nested (fun i => (seqAt [[1, 2]] i : ℚ)) (fun i => (seqAt [[0, 0, 1]] i : ℚ)) 0 300 = some v ∧
    evalByPolysR (roundBin 169) [[1, 2]] [[0, 0, 1]] 301 = .ok v' ∧ v' ≤ (1 + 1 / 10 ^ 48) * v ∧ v ≤ (1 + 1 / 10 ^ 48) * v' := by
  obtain ⟨v, v', h1, h2, v0, w1, w2⟩ := C118_eval_positive (a := [[1, 2]]) (b := [[0, 0, 1]]) (by simp) (by simp) 300 (by decide)
    (fun i hi _ => cf3_pos i hi) (roundBin_ok 169 (by norm_num))
    (fun i hi => by
      have : (i : ℤ) < 301 := by exact_mod_cast hi
      simp [absSum, Nat.mod_one, List.range_succ]
      linarith)
    (fun i hi => by
      have : (i : ℤ) < 301 := by exact_mod_cast hi
      simp [absSum, Nat.mod_one, List.range_succ]
      nlinarith)
  have hF := factor_le (u := 1 / 2 ^ 169) (η := 1 / 10 ^ 48) (2 * 300) (by norm_num) (by norm_num) (by norm_num)
  have hF0 : (0 : ℚ) < ((1 - 1 / 2 ^ 169 : ℚ)⁻¹) ^ (2 * 300) := pow_pos (by norm_num) _
  generalize ((1 - 1 / 2 ^ 169 : ℚ)⁻¹) ^ (2 * 300) = F at w1 w2 hF hF0
  have v0' : 0 ≤ v' := by
    by_contra hn
    push Not at hn
    nlinarith
  exact ⟨v, v', h1, h2, w1.trans (mul_le_mul_of_nonneg_right hF v0), w2.trans (mul_le_mul_of_nonneg_right hF v0')⟩

/-- The fraction of `C118_cancellation_violated` at depth 3, where nothing cancels. -/
example : ∃ δ > 0, ∃ M : ℤ, ∀ (rnd : ℚ → ℚ) (u : ℚ) (M' : ℤ), RoundOk rnd u M' → u ≤ δ → M ≤ M' →
    ∃ v', evalByPolysR rnd [[-31, 18, -1]] [[43, -14]] 3 = .ok v' ∧ |v' - (-2)| ≤ 1 / 1000 :=
  C118_precision 2 _ (by decide +kernel) _ (by norm_num)

/-- As the example of C114, now with the rounding of mpmath: for every accuracy, with enough printed digits, iterations and bits the
click of `4/π` is kept. -/
example (n : ℕ) : ∃ ε > 0, ∀ (w : ℚ) (P : ℕ), |(w : ℝ) - 4 / Real.pi| < ε → w ≠ 0 → 1 / 10 ^ P ≤ ε → ∃ N, ∀ m, N ≤ m → ∃ p₀, ∀ p, p₀ ≤ p →
    ∃ c', refineClicks ulcdClass ⟨[fun x => .ok x], true, n, cutEng P, evalConstR (roundBin p) m⟩
      (none, [⟨[[1, 2]], [[0, 0, 1]], exUlcd w, 0, none⟩]) = ((none, [c']), .ok ()) := by
  obtain ⟨ε, he, hf⟩ := C118_refine_mpf (L := Ulcd) (r := 4 / Real.pi) (l := 4 / Real.pi) (l' := 4 / Real.pi) four_div_pi_decidable n
  refine ⟨ε, he, fun w P hw hw0 hP => ?_⟩
  obtain ⟨N, hN⟩ := hf ulcdClass (UlcdOk w) ⟨[fun x => .ok x], true, n, cutEng P, evalConst 0⟩ ⟨[[1, 2]], [[0, 0, 1]], exUlcd w, 0, none⟩
    (fun x => .ok x) w (ulcd_laws w).total rfl rfl (Prints.mono (cutEng_prints P) hP) (by simp) (by simp) (by simp [seqAt, horner]) cf3_pos cf3_tendsto rfl
    ⟨ε, he, fun x hx => ⟨x, rfl, hx⟩⟩ (exUlcd_ok hw0) rfl hw
  refine ⟨N, fun m hm => ?_⟩
  obtain ⟨p₀, hp₀⟩ := hN m hm
  refine ⟨p₀, fun p hp => ?_⟩
  obtain ⟨kept, k1, k2⟩ := hp₀ p hp
  rw [if_pos ((digitsAgree_cases n _ _).1 rfl)] at k2
  cases k2 with
  | cons h h' =>
    cases h'
    exact ⟨_, k1⟩

end PiCF
