import Verif.Lemmas.Ratio
import Verif.Props.ContFracConv
import Verif.Props.EnumPoly

/-!
# C116: the answer of `is_convergence_fast()` and the speed of convergence
-/

namespace PiCF
open PiCF.Spec PiCF.EnumPoly PiCF.ContFrac Filter Topology Polynomial

/-- With a large enough `initial_cutoff`, whatever the other arguments (at least one comparison is made) and whatever happened to the
object before, `is_convergence_fast()` answers `v` for these coefficients. -/
def Answers (a b : Coeffs) (v : Prop) : Prop :=
  ∃ N : ℕ, ∀ (a₀ b₀ : Coeffs) (z lg : Bool) (s₀ : CF) (ops : List CFOp) (iters cutoff step : ℕ), init a₀ b₀ z none lg = .ok s₀ →
    (runOps ops s₀).params.a = a → (runOps ops s₀).params.b = b → N ≤ cutoff → 5 ≤ step → cutoff + step ≤ iters →
    ∃ s' r, isConvergenceFast iters cutoff step (runOps ops s₀) = (s', .ok r) ∧ (r = true ↔ v)

theorem answers_of_shrinks {a b : Coeffs} (h0 : ∀ n, 1 ≤ n → seqAt b n ≠ 0) {v : Prop}
    (h : ∃ N, ∀ m, N ≤ m → (Shrinks (seqAt a) (seqAt b) m ↔ v)) : Answers a b v := by
  obtain ⟨N, hN⟩ := h
  refine ⟨N, fun a₀ b₀ z lg s₀ ops iters cutoff step hinit ea eb hc hs hi => ?_⟩
  obtain ⟨s', r, e, hr, -⟩ := C16_is_convergence_fast hinit ops iters cutoff step hs (fun _ j hj _ => by rw [eb]; exact h0 j hj)
  refine ⟨s', r, e, ?_⟩
  rw [hr, ea, eb]
  constructor
  · intro hall
    exact (hN _ (by omega)).1 (hall 0 (by simpa using hi)).1
  · intro hv j _
    exact ⟨(hN _ (by omega)).2 hv, (hN _ (by omega)).2 hv⟩

theorem expTo_tendsto {a b : ℕ → ℤ} {l : ℝ} (h : ConvergesExpTo a b l) :
    Tendsto (fun n => (contP a b (n + 1) : ℝ) / contQ a b (n + 1)) atTop (𝓝 l) ∧ ∃ N, ∀ n, N ≤ n → contQ a b (n + 1) ≠ 0 := by
  obtain ⟨c, κ, N, h0, h1, h⟩ := h
  refine ⟨?_, N, fun n hn => (h n hn).1⟩
  rw [tendsto_iff_norm_sub_tendsto_zero]
  refine squeeze_zero_norm' (a := fun n => c * κ ^ n) ?_ ?_
  · filter_upwards [eventually_ge_atTop N] with n hn
    rw [Real.norm_eq_abs, Real.norm_eq_abs, abs_abs]; exact (h n hn).2
  · simpa using (tendsto_pow_atTop_nhds_zero_of_lt_one h0 h1).const_mul c

/-- The limiting ratio, with its value. -/
theorem exp_ratio (pa pb : List ℤ) (h0 : ∀ n, 1 ≤ n → seqAt [pb] n ≠ 0) (l : ℝ)
    (hc : ConvergesExpTo (seqAt [pa]) (seqAt [pb]) l) :
    ∃ ρ : ℝ, 0 ≤ ρ ∧ ρ < 1 ∧ RatioLimit (seqAt [pa]) (seqAt [pb]) ρ ∧
      (∀ k : ℕ, ¬ IsSquare (k * (k + 1)) → ρ ≠ k / (k + 1)) ∧
      ∃ da db : ℕ, IsDegree pa da ∧ IsDegree pb db ∧ db ≤ 2 * da ∧ (db < 2 * da → ρ = 0) ∧
        (db = 2 * da → ρ = ((|(pa.getD da 0 : ℝ)| - √((pa.getD da 0 : ℝ) ^ 2 + 4 * (pb.getD db 0 : ℝ))) /
          (|(pa.getD da 0 : ℝ)| + √((pa.getD da 0 : ℝ) ^ 2 + 4 * (pb.getD db 0 : ℝ)))) ^ 2) := by
  have hexp : ConvergesExp (seqAt [pa]) (seqAt [pb]) := by
    obtain ⟨c, κ, N, h⟩ := hc
    exact ⟨l, c, κ, N, h⟩
  obtain ⟨hl, hq⟩ := expTo_tendsto hc
  have hnd := not_both hl hq
  have hne := realPoly_ne (h0 1 le_rfl)
  have hda := polynomDegree_spec pa
  have hdb := polynomDegree_spec pb
  have hd : polynomDegree pb ≤ 2 * polynomDegree pa := by
    by_contra hd
    exact not_exp_of_degree hda hdb (by omega) h0 hexp
  obtain ⟨j, hj, -⟩ := (realPoly_degree hdb).resolve_left fun h => hne h.2
  rw [hj] at hdb hd
  obtain ⟨i, hi⟩ := Int.eq_ofNat_of_zero_le (show 0 ≤ polynomDegree pa by omega)
  rw [hi] at hda hd
  rcases Nat.lt_or_ge j (2 * i) with hlt | hge
  · have hR := (small_of_degree ((degree_prod hda hdb hne).2 (by omega))).ratio h0 hnd
    refine ⟨0, le_rfl, one_pos, hR, fun k hk h => ?_, i, j, hda, hdb, by omega, fun _ => rfl, fun h => by omega⟩
    have hk0 : k ≠ 0 := by rintro rfl; exact hk ⟨0, by simp⟩
    have : (0 : ℝ) < k / (k + 1) := by positivity
    linarith
  · obtain rfl : j = 2 * i := by omega
    have hB := balanced_of_degree hda (by exact_mod_cast hdb) h0
    have hla : ((pa.getD i 0 : ℤ) : ℝ) ≠ 0 := fun h => hB.lne (by rw [h]; simp)
    have hlt : -((pb.getD (2 * i) 0 : ℤ) : ℝ) / ((pa.getD i 0 : ℤ) : ℝ) ^ 2 < 1 / 4 := by
      by_contra hge
      exact hB.not_exp (not_lt.1 hge) hexp
    set la := ((pa.getD i 0 : ℤ) : ℝ) with hla'
    set lb := ((pb.getD (2 * i) 0 : ℤ) : ℝ) with hlb'
    have hla2 : 0 < la ^ 2 := by positivity
    have hD : 0 < la ^ 2 + 4 * lb := by
      rw [div_lt_iff₀ hla2] at hlt
      linarith
    have hA : 0 < |la| := abs_pos.2 hla
    have hs : 0 < √(la ^ 2 + 4 * lb) := Real.sqrt_pos.2 hD
    have hs2 : √(la ^ 2 + 4 * lb) ^ 2 = la ^ 2 + 4 * lb := Real.sq_sqrt hD.le
    set s := √(la ^ 2 + 4 * lb) with hsdef
    set r := (|la| + s) / (2 * |la|) with hr
    set t := (|la| - s) / (2 * |la|) with ht
    have hA2 : |la| ^ 2 = la ^ 2 := sq_abs la
    have hrt1 : r + t = 1 := by rw [hr, ht]; field_simp; ring
    have hrt : r * t = -lb / la ^ 2 := by
      rw [hr, ht, ← hA2]
      field_simp
      nlinarith
    have hr0 : 0 < r := by rw [hr]; positivity
    have htr : |t| < r := by
      rw [abs_lt]
      constructor
      · linarith
      · rw [hr, ht]; gcongr; linarith
    have ht0 : t ≠ 0 := fun h => hB.lne (by rw [← hrt, h, mul_zero])
    have hρ : (t / r) ^ 2 = ((|la| - s) / (|la| + s)) ^ 2 := by
      rw [hr, ht]
      congr 1
      field_simp
    have hρ1 : (t / r) ^ 2 < 1 := by
      rw [div_pow, div_lt_one (by positivity), ← sq_abs t]
      exact pow_lt_pow_left₀ htr (abs_nonneg t) (by norm_num)
    rw [← hrt] at hB
    have hR := hB.ratio hrt1 htr ht0 hnd
    exact ⟨(t / r) ^ 2, sq_nonneg _, hρ1, hR, fun k hk => ratio_ne (q := -(pb.getD (2 * i) 0 : ℚ) / (pa.getD i 0 : ℚ) ^ 2) hrt1 hr0 (by
      rw [hrt, hla', hlb']; push_cast; rfl) hk, i, 2 * i, hda, hdb, le_rfl, fun h => by omega, fun _ => hρ⟩

/-- **C116.** Let `b_n ≠ 0` and let the continued fraction of two polynomials converge exponentially to `l`.  Then the distances to `l` two
steps apart have a limiting ratio `ρ < 1`, and with a large enough cutoff `is_convergence_fast()` answers whether `ρ < 16/17`.
The ratio is `0` if `deg b < 2 deg a`, and `((|la| - √D) / (|la| + √D))²` with `D = la² + 4 lb` for leading coefficients `la`, `lb` if
`deg b = 2 deg a`. -/
theorem C116_exponential (pa pb : List ℤ) (h0 : ∀ n, 1 ≤ n → seqAt [pb] n ≠ 0) (l : ℝ)
    (hc : ConvergesExpTo (seqAt [pa]) (seqAt [pb]) l) :
    ∃ ρ : ℝ, 0 ≤ ρ ∧ ρ < 1 ∧ (∃ N, ∀ n, N ≤ n → convError (seqAt [pa]) (seqAt [pb]) l n ≠ 0) ∧
      Tendsto (fun n => convError (seqAt [pa]) (seqAt [pb]) l (n + 2) / convError (seqAt [pa]) (seqAt [pb]) l n) atTop (𝓝 ρ) ∧
      Answers [pa] [pb] (ρ < 16 / 17) ∧
      ∃ da db : ℕ, IsDegree pa da ∧ IsDegree pb db ∧ db ≤ 2 * da ∧ (db < 2 * da → ρ = 0) ∧
        (db = 2 * da → ρ = ((|(pa.getD da 0 : ℝ)| - √((pa.getD da 0 : ℝ) ^ 2 + 4 * (pb.getD db 0 : ℝ))) /
          (|(pa.getD da 0 : ℝ)| + √((pa.getD da 0 : ℝ) ^ 2 + 4 * (pb.getD db 0 : ℝ)))) ^ 2) := by
  obtain ⟨ρ, hρ0, hρ1, hR, hk, hd⟩ := exp_ratio pa pb h0 l hc
  obtain ⟨e1, e2⟩ := hR.errors h0 hρ0 hρ1 (expTo_tendsto hc).1
  refine ⟨ρ, hρ0, hρ1, e1, e2, answers_of_shrinks h0 (hR.shrinks h0 hρ0 ?_), hd⟩
  have := hk 16 (not_square_of_between (m := 16) (by norm_num) (by norm_num))
  norm_num at this
  exact this

theorem ratio_one_signed {p : List ℤ} (h : realPoly p ≠ 0) :
    Tendsto (fun n : ℕ => (seqAt [p] (n + 1) : ℝ) / (seqAt [p] n : ℝ)) atTop (𝓝 1) := by
  have := (div_tendsto_atTop_leadingCoeff_div_of_degree_eq (taylor 1 (realPoly p)) (realPoly p) (degree_taylor _ _)).comp
    (tendsto_natCast_atTop_atTop (R := ℝ))
  rw [leadingCoeff_taylor, div_self (leadingCoeff_ne_zero.2 h)] at this
  refine this.congr fun n => ?_
  simp only [Function.comp, taylor_eval, seqAt_single]
  rw [eval_realPoly, ← Nat.cast_add_one, eval_realPoly]

theorem pos_ratio (pa pb : List ℤ) (hp : ∀ n, 1 ≤ n → 0 < seqAt [pa] n ∧ 0 < seqAt [pb] n)
    (hc : ¬ ConvergesExp (seqAt [pa]) (seqAt [pb])) : RatioLimit (seqAt [pa]) (seqAt [pb]) 1 := by
  have h0 : ∀ n, 1 ≤ n → seqAt [pb] n ≠ 0 := fun n hn => (hp n hn).2.ne'
  have hne := realPoly_ne (h0 1 le_rfl)
  have hnea := realPoly_ne (hp 1 le_rfl).1.ne'
  have hda := polynomDegree_spec pa
  have hdb := polynomDegree_spec pb
  have hd : 2 * polynomDegree pa < polynomDegree pb := by
    by_contra hd
    obtain ⟨M, hM, N, hN⟩ := bounded_of_degree ((degree_prod hda hdb hne).1 (by omega))
    exact hc (exp_of_pos hp hM hN)
  obtain ⟨j, hj, dj⟩ := (realPoly_degree hdb).resolve_left fun h => hne h.2
  obtain ⟨i, hi, di⟩ := (realPoly_degree hda).resolve_left fun h => hnea h.2
  have he : Tendsto (fun m : ℕ => (seqAt [pa] (m + 1) * seqAt [pa] m : ℝ) / seqAt [pb] (m + 1)) atTop (𝓝 0) := by
    have hdeg : (taylor 1 (realPoly pa) * realPoly pa).degree < (taylor 1 (realPoly pb)).degree := by
      rw [degree_mul, degree_taylor, degree_taylor, di, dj]
      have : i + i < j := by omega
      exact_mod_cast this
    have := (div_tendsto_atTop_zero_of_degree_lt _ _ hdeg).comp (tendsto_natCast_atTop_atTop (R := ℝ))
    refine this.congr fun n => ?_
    simp only [Function.comp, eval_mul, eval_taylor_nat, eval_realPoly, seqAt_single]
  exact slow_of_pos hp he (ratio_one_signed hnea) (ratio_one_signed hne)

/-- **C116.** For positive terms the answer is also right if the continued fraction does not converge exponentially. -/
theorem C116_positive (pa pb : List ℤ) (hp : ∀ n, 1 ≤ n → 0 < seqAt [pa] n ∧ 0 < seqAt [pb] n)
    (hc : ¬ ConvergesExp (seqAt [pa]) (seqAt [pb])) : Answers [pa] [pb] False := by
  have h0 : ∀ n, 1 ≤ n → seqAt [pb] n ≠ 0 := fun n hn => (hp n hn).2.ne'
  have hR := pos_ratio pa pb hp hc
  refine answers_of_shrinks h0 ?_
  obtain ⟨N, hN⟩ := hR.shrinks h0 zero_le_one (by norm_num)
  exact ⟨N, fun m hm => (hN m hm).trans (iff_of_false (by norm_num) id)⟩

/-! ### Witnesses -/

theorem seqAt_const (c : ℤ) : seqAt [[c]] = fun _ => c := by
  funext n
  rw [seqAt_single]; simp [horner]

theorem exp_to {a b : ℕ → ℤ} (h : ConvergesExp a b) : ∃ l, ConvergesExpTo a b l := by
  obtain ⟨l, c, κ, N, h⟩ := h
  exact ⟨l, c, κ, N, h⟩

theorem exp_const {A B : ℤ} (hA : 1 ≤ A) (hB : 1 ≤ B) : ConvergesExp (seqAt [[A]]) (seqAt [[B]]) := by
  rw [seqAt_const, seqAt_const]
  have hB' : (1 : ℝ) ≤ B := by exact_mod_cast hB
  have hA' : (1 : ℝ) ≤ A := by exact_mod_cast hA
  refine exp_of_pos (M := B) (N := 0) (fun n _ => ⟨by omega, by omega⟩) (by linarith) fun n _ => ?_
  rw [abs_of_pos (by linarith : (0 : ℝ) < B), abs_of_pos (by linarith : (0 : ℝ) < A)]
  exact le_mul_of_one_le_right (by linarith) (one_le_mul_of_one_le_of_one_le hA' hA')

theorem degree_const {c : ℤ} {d : ℕ} (h : IsDegree [c] d) : d = 0 := by
  rcases h with ⟨h1, -⟩ | ⟨i, h1, h2, -⟩
  · omega
  · rcases i with _ | i
    · omega
    · simp at h2

-- the hypotheses of C116_exponential are met by 1 + 2/(1 + 2/(1 + ...)), with ratio 1/4
example : ∃ l, (∀ n, 1 ≤ n → seqAt [[2]] n ≠ 0) ∧ ConvergesExpTo (seqAt [[1]]) (seqAt [[2]]) l ∧ Answers [[1]] [[2]] True := by
  obtain ⟨l, hl⟩ := exp_to (exp_const (A := 1) (B := 2) (by norm_num) (by norm_num))
  have h0 : ∀ n, 1 ≤ n → seqAt [[2]] n ≠ 0 := fun n _ => by rw [seqAt_const]; norm_num
  refine ⟨l, h0, hl, ?_⟩
  obtain ⟨ρ, -, -, -, -, hans, da, db, hda, hdb, -, -, hρ⟩ := C116_exponential [1] [2] h0 l hl
  obtain rfl := degree_const hda
  obtain rfl := degree_const hdb
  have h3 : √((1 : ℝ) ^ 2 + 4 * 2) = 3 := by
    rw [show (1 : ℝ) ^ 2 + 4 * 2 = 3 ^ 2 by norm_num]; exact Real.sqrt_sq (by norm_num)
  have := hρ rfl
  simp only [List.getD_cons_zero, Int.cast_one, Int.cast_ofNat, abs_one, h3] at this
  rw [this, show ((1 - 3 : ℝ) / (1 + 3)) ^ 2 < 16 / 17 ↔ True from iff_true_intro (by norm_num)] at hans
  exact hans

-- the hypotheses of C116_positive are met by 1 + 1/(1 + 4/(1 + 9/(1 + ...)))
example : (∀ n, 1 ≤ n → 0 < seqAt [[1]] n ∧ 0 < seqAt [[0, 0, 1]] n) ∧ ¬ ConvergesExp (seqAt [[1]]) (seqAt [[0, 0, 1]]) := by
  have hp : ∀ n, 1 ≤ n → 0 < seqAt [[1]] n ∧ 0 < seqAt [[0, 0, 1]] n := fun n hn => by
    rw [seqAt_single, seqAt_single]
    simp only [horner]
    have : (0 : ℤ) < n := by omega
    constructor
    · simp
    · simp; positivity
  refine ⟨hp, not_exp_of_degree (da := 0) (db := 2) ?_ ?_ (by norm_num) fun n hn => (hp n hn).2.ne'⟩
  · exact .inr ⟨0, rfl, by simp, fun j hj => by rcases j with _ | j <;> simp at hj ⊢⟩
  · exact .inr ⟨2, rfl, by simp, fun j hj => by rcases j with _ | _ | _ | j <;> simp at hj ⊢⟩

/-- **C116 (violated).** Not every exponentially converging continued fraction is recognised: for `1 + 2000/(1 + 2000/(1 + ...))` the answer
is False for every large cutoff. -/
theorem C116_slow_violated : ConvergesExp (seqAt [[1]]) (seqAt [[2000]]) ∧ Answers [[1]] [[2000]] False := by
  have hexp := exp_const (A := 1) (B := 2000) (by norm_num) (by norm_num)
  refine ⟨hexp, ?_⟩
  obtain ⟨l, hl⟩ := exp_to hexp
  have h0 : ∀ n, 1 ≤ n → seqAt [[2000]] n ≠ 0 := fun n _ => by rw [seqAt_const]; norm_num
  obtain ⟨ρ, -, -, -, -, hans, da, db, hda, hdb, -, -, hρ⟩ := C116_exponential [1] [2000] h0 l hl
  obtain rfl := degree_const hda
  obtain rfl := degree_const hdb
  have := hρ rfl
  simp only [List.getD_cons_zero, Int.cast_one, Int.cast_ofNat, abs_one] at this
  set s := √((1 : ℝ) ^ 2 + 4 * 2000) with hs
  have h89 : 89 ≤ s := by
    rw [hs]
    exact Real.le_sqrt_of_sq_le (by norm_num)
  have hlt : ¬ ρ < 16 / 17 := by
    rw [this, not_lt, div_pow, div_le_div_iff₀ (by norm_num) (by positivity)]
    nlinarith
  rw [show ρ < 16 / 17 ↔ False from iff_false_intro hlt] at hans
  exact hans

/-- The convergents of `A - B/(A - B/(A - ...))` with `A² < 4 B` have no limit. -/
theorem no_limit {A B : ℤ} (h : A ^ 2 < 4 * B) (l : ℝ) :
    ¬ ((∃ N, ∀ n, N ≤ n → contQ (seqAt [[A]]) (seqAt [[-B]]) (n + 1) ≠ 0) ∧
      Tendsto (fun n => (contP (seqAt [[A]]) (seqAt [[-B]]) (n + 1) : ℝ) / contQ (seqAt [[A]]) (seqAt [[-B]]) (n + 1)) atTop (𝓝 l)) := by
  rintro ⟨⟨N, hN⟩, hl⟩
  rw [seqAt_const, seqAt_const] at hN hl
  set P := contP (fun _ => A) (fun _ => -B) with hP
  set Q := contQ (fun _ => A) (fun _ => -B) with hQ
  have hPQ : ∀ n, P n = Q (n + 1) ∧ P (n + 1) = Q (n + 2) := by
    intro n
    induction n with
    | zero => simp [hP, hQ, contP, contQ]
    | succ n ih =>
      refine ⟨ih.2, ?_⟩
      have e1 : P (n + 2) = A * P (n + 1) + -B * P n := contP_solves (fun _ => A) (fun _ => -B) n
      have e2 : Q (n + 3) = A * Q (n + 2) + -B * Q (n + 1) := contQ_solves (fun _ => A) (fun _ => -B) (n + 1)
      rw [e1, ih.1, ih.2, ← e2]
  have h1 := ((tendsto_add_atTop_iff_nat 1).2 hl).mul hl
  have h2 : Tendsto (fun n => (A : ℝ) * ((P (n + 1) : ℝ) / Q (n + 1)) - B) atTop (𝓝 (A * l - B)) := (hl.const_mul _).sub_const _
  have h3 := tendsto_nhds_unique (h1.congr' (f₂ := fun n => (A : ℝ) * ((P (n + 1) : ℝ) / Q (n + 1)) - B) (by
    filter_upwards [eventually_ge_atTop N] with n hn
    have q1 : (Q (n + 1) : ℝ) ≠ 0 := Int.cast_ne_zero.2 (hN n hn)
    have q2 : (Q (n + 2) : ℝ) ≠ 0 := Int.cast_ne_zero.2 (hN (n + 1) (by omega))
    have e1 : (P (n + 2) : ℝ) = A * P (n + 1) + -B * P n := by
      have := contP_solves (fun _ => A) (fun _ => -B) n
      exact_mod_cast this
    have e2 : (P (n + 1) : ℝ) = Q (n + 2) := by exact_mod_cast (hPQ n).2
    have e3 : (P n : ℝ) = Q (n + 1) := by exact_mod_cast (hPQ n).1
    simp only [show n + 1 + 1 = n + 2 from rfl]
    rw [e1, e2, e3]
    field_simp
    ring)) h2
  have h4 : (A : ℝ) ^ 2 < 4 * B := by exact_mod_cast h
  nlinarith [sq_nonneg (2 * l - A)]

/-- **C116 (violated).** Continued fractions without a limit may be accepted: with the default arguments the answer for
`9 - 21/(9 - 21/(9 - ...))` is True; and for `3 - 3/(3 - 3/(3 - ...))` with `iters_step=6` the answer is True for arbitrarily large
cutoffs and numbers of iterations. -/
theorem C116_divergent_violated :
    (∃ s₀ s', init [[9]] [[-21]] true none false = .ok s₀ ∧ isConvergenceFast 600 200 50 s₀ = (s', .ok true) ∧
      ∀ l, ¬ ((∃ N, ∀ n, N ≤ n → contQ (seqAt [[9]]) (seqAt [[-21]]) (n + 1) ≠ 0) ∧
        Tendsto (fun n => (contP (seqAt [[9]]) (seqAt [[-21]]) (n + 1) : ℝ) / contQ (seqAt [[9]]) (seqAt [[-21]]) (n + 1)) atTop (𝓝 l))) ∧
    (∃ s₀, init [[3]] [[-3]] true none false = .ok s₀ ∧ (∀ k iters : ℕ, ∃ s', isConvergenceFast iters ((5 + 6 * k : ℕ) : ℤ) 6 s₀ = (s', .ok true)) ∧
      ∀ l, ¬ ((∃ N, ∀ n, N ≤ n → contQ (seqAt [[3]]) (seqAt [[-3]]) (n + 1) ≠ 0) ∧
        Tendsto (fun n => (contP (seqAt [[3]]) (seqAt [[-3]]) (n + 1) : ℝ) / contQ (seqAt [[3]]) (seqAt [[-3]]) (n + 1)) atTop (𝓝 l))) := by
  constructor
  · obtain ⟨s', r, h, hr, -⟩ := C16_is_convergence_fast (a₀ := [[9]]) (b₀ := [[-21]]) (z := true) (l := false) rfl [] 600 200 50
      (by decide) (fun _ j _ _ => by simp [runOps, seqAt, horner, Nat.mod_one])
    refine ⟨_, s', rfl, ?_, fun l => no_limit (A := 9) (B := 21) (by norm_num) l⟩
    have hrt : r = true := by
      rw [hr]
      intro j hj
      have hj' : j < 8 := by omega
      show Shrinks (seqAt [[9]]) (seqAt [[-21]]) _ ∧ Shrinks (seqAt [[9]]) (seqAt [[-21]]) _
      rw [seqAt_const, seqAt_const]
      interval_cases j <;> decide +kernel
    rw [hrt] at h
    exact h
  · refine ⟨_, rfl, fun k iters => ?_, fun l => no_limit (A := 3) (B := 3) (by norm_num) l⟩
    obtain ⟨s', r, h, hr, -⟩ := C16_is_convergence_fast (a₀ := [[3]]) (b₀ := [[-3]]) (z := true) (l := false) rfl [] iters (5 + 6 * k) 6
      (by decide) (fun _ j _ _ => by simp [runOps, seqAt, horner, Nat.mod_one])
    refine ⟨s', ?_⟩
    have hrt : r = true := by
      rw [hr]
      intro j _
      show Shrinks (seqAt [[3]]) (seqAt [[-3]]) _ ∧ Shrinks (seqAt [[3]]) (seqAt [[-3]]) _
      rw [seqAt_const, seqAt_const]
      set Q := contQ (fun _ => 3) (fun _ => -3) with hQ
      have hrec : ∀ n, Q (n + 2) = 3 * Q (n + 1) + -3 * Q n := contQ_solves (fun _ => 3) (fun _ => -3)
      have hval : ∀ i : ℕ, Q (5 + 6 * i) = (-27) ^ i * 9 ∧ Q (5 + 6 * i + 1) = 0 := by
        intro i
        induction i with
        | zero => decide +kernel
        | succ i ih =>
          have r2 := hrec (5 + 6 * i)
          have r3 := hrec (5 + 6 * i + 1)
          have r4 := hrec (5 + 6 * i + 2)
          have r5 := hrec (5 + 6 * i + 3)
          have r6 := hrec (5 + 6 * i + 4)
          have r7 := hrec (5 + 6 * i + 5)
          simp only [Nat.add_assoc, Nat.reduceAdd] at *
          rw [show 5 + 6 * (i + 1) = 5 + (6 * i + 6) by ring, show 5 + (6 * (i + 1) + 1) = 5 + (6 * i + 7) by ring, pow_succ]
          constructor <;> linarith
      have hi : 5 + 6 * k + j * 6 = 5 + 6 * (k + j) := by ring
      rw [hi]
      obtain ⟨v0, v1⟩ := hval (k + j)
      set i := k + j
      have r2 := hrec (5 + 6 * i)
      have r3 := hrec (5 + 6 * i + 1)
      have r4 := hrec (5 + 6 * i + 2)
      have r5 := hrec (5 + 6 * i + 3)
      have hb : ∀ n : ℕ, 1 ≤ n → (fun _ : ℕ => (-3 : ℤ)) n ≠ 0 := fun n _ => by norm_num
      have hpow : (-27 : ℤ) ^ i ≠ 0 := pow_ne_zero _ (by norm_num)
      have v4 : Q (5 + 6 * i + 4) = (-27) ^ i * -162 := by
        simp only [Nat.add_assoc, Nat.reduceAdd] at *
        linarith
      have v5 : Q (5 + 6 * i + 1 + 4) = (-27) ^ i * -243 := by
        simp only [Nat.add_assoc, Nat.reduceAdd] at *
        linarith
      constructor
      · rw [shrinks_iff_ratio hb (by norm_num) (by rw [← hQ, v4]; exact mul_ne_zero hpow (by norm_num))]
        unfold diffRatio
        rw [← hQ, v4, v0]
        have hp' : (((-27 : ℤ) ^ i : ℤ) : ℝ) ≠ 0 := Int.cast_ne_zero.2 hpow
        generalize ((-27 : ℤ) ^ i) = w at *
        have e : ((3 : ℤ) : ℝ) * (((-3 : ℤ) : ℝ) * ((-3 : ℤ) : ℝ)) * ((w * 9 : ℤ) : ℝ) / (((3 : ℤ) : ℝ) * ((w * -162 : ℤ) : ℝ)) = -1 / 2 := by
          push_cast
          field_simp
          norm_num
        rw [e]
        norm_num [abs_lt]
      · rw [shrinks_iff_ratio hb (by norm_num) (by rw [← hQ, v5]; exact mul_ne_zero hpow (by norm_num))]
        unfold diffRatio
        rw [← hQ, v1]
        norm_num
    rw [hrt] at h
    exact h

end PiCF
