import Verif.Lemmas.Discriminant
import Verif.Props.ContFracEval
import Verif.Props.EnumPoly

/-!
# C110, C111: what the option `enum_only_exp_conv` leaves out
-/

namespace PiCF
open PiCF.Spec PiCF.EnumPoly PiCF.ContFrac Filter Topology

theorem seqAt_squeezed {ps ps' : List (List ℤ)} (h : Squeezed ps ps') : seqAt ps' = seqAt ps := by
  rcases h with ⟨m, p, rfl, rfl⟩ | ⟨-, rfl⟩
  · funext i
    exact ((C20_squeeze p (m + 2) (by omega)).1 i).symm
  · rfl

/-! ### C110 -/

/-- **C110.** With `enum_only_exp_conv` no continued fraction is lost that converges exponentially: every pair in the ranges that
passes the root filter (and, if continued fractions are generated, has no zero `b`), never has `b_n = 0`, and converges exponentially is
yielded. -/
theorem C110_no_exponential_lost (cfg : Config) (ra rb : Ranges) (hs : ShapeOK cfg ra rb) (he : cfg.expOnly = true)
    (pas pbs pas' pbs' : List (List ℤ)) (ha : InRanges ra pas) (hb : InRanges rb pbs) (sa : Squeezed pas pas') (sb : Squeezed pbs pbs')
    (hroot : cfg.avoidIntRoots = true → ∀ pb ∈ pbs, hasIntRoots pb = false) (h0 : ∀ n, 1 ≤ n → seqAt pbs n ≠ 0)
    (hc : ConvergesExp (seqAt pas) (seqAt pbs)) : (pas', pbs') ∈ (polysGenerator manipBasic cfg ra rb).1.map Item.pair := by
  refine (C41_exp_filter cfg ra rb hs he).2 pas pbs pas' pbs' ha hb sa sb hroot (fun _ _ j hj _ => h0 j hj) ?_
  by_cases h1 : pas'.length = 1
  · by_cases h2 : pbs'.length = 1
    · obtain ⟨pa, rfl⟩ := List.length_eq_one_iff.1 h1
      obtain ⟨pb, rfl⟩ := List.length_eq_one_iff.1 h2
      refine .inr (.inr ⟨pa, pb, _, _, rfl, rfl, polynomDegree_spec pa, polynomDegree_spec pb, ?_⟩)
      by_contra hd
      rw [← seqAt_squeezed sa, ← seqAt_squeezed sb] at hc
      rw [← seqAt_squeezed sb] at h0
      exact not_exp_of_degree (polynomDegree_spec pa) (polynomDegree_spec pb) (by omega) h0 hc
    · exact .inr (.inl h2)
  · exact .inl h1

/-- The coefficients `1 + 2/(1 + 2/(1 + ...))`: the distance to the limit `2` is halved in each step. -/
theorem example_rate : ConvergesExp (seqAt [[1]]) (seqAt [[2]]) := by
  have ha : ∀ n, seqAt [[1]] n = 1 := fun n => by rw [seqAt_single]; simp [horner]
  have hb : ∀ n, seqAt [[2]] n = 2 := fun n => by rw [seqAt_single]; simp [horner]
  refine exp_of_pos (M := 2) (N := 0) (fun n _ => ?_) (by norm_num) fun n _ => ?_
  · rw [ha, hb]; decide
  · rw [ha, ha, hb]; simp

example : ([[1]], [[2]]) ∈ (polysGenerator manipBasic { numIters := 3, expOnly := true } [[(1, 2)]] [[(2, 3)]]).1.map Item.pair :=
  C110_no_exponential_lost { numIters := 3, expOnly := true } [[(1, 2)]] [[(2, 3)]] (fun _ => ⟨⟨_, _, _, rfl⟩, by simp⟩) rfl [[1]] [[2]]
    [[1]] [[2]] (by simp [InRanges]) (by simp [InRanges])
    (.inr ⟨by rintro ⟨m, p, h⟩; simpa using congrArg List.length h, rfl⟩)
    (.inr ⟨by rintro ⟨m, p, h⟩; simpa using congrArg List.length h, rfl⟩) (fun _ pb hpb => by
      rw [List.mem_singleton.1 hpb]; decide) (fun n _ => by rw [seqAt_single]; simp [horner]) example_rate

/-! ### C111 -/

/-- **C111.** The non-interlaced pairs that `enum_only_exp_conv` lets through (and that have no `b_n = 0`), classified by the degrees and
the leading coefficients `la`, `lb`.
(1) If `deg b < 2 deg a`, the convergents tend to a limit faster than every exponential rate, or they tend to infinity so.
(2) If `deg b = 2 deg a` and `la² + 4 lb > 0`, they tend to a limit or to infinity exponentially, and to a limit not faster.
(3) If `deg b = 2 deg a` and `la² + 4 lb ≤ 0`, they tend neither to a limit nor to infinity exponentially.
(4) If all `a_n`, `b_n` with `n ≥ 1` are positive, they tend to a limit exponentially fast.
One of (1), (2), (3) applies. The claim of the docstring, "skip enumeration over non-exponential converging continued fractions", is
false in general, see below. -/
theorem C111_kept_partial (cfg : Config) (ra rb : Ranges) (hs : ShapeOK cfg ra rb) (he : cfg.expOnly = true)
    (it : Item) (hit : it ∈ (polysGenerator manipBasic cfg ra rb).1) (pa pb : List ℤ) (e1 : it.pas = [pa]) (e2 : it.pbs = [pb])
    (h0 : ∀ n, 1 ≤ n → seqAt [pb] n ≠ 0) :
    (∃ da db : ℕ, IsDegree pa da ∧ IsDegree pb db ∧ db ≤ 2 * da ∧
      (db < 2 * da → (∃ l, ConvergesFast (seqAt [pa]) (seqAt [pb]) l) ∨ DivergesFast (seqAt [pa]) (seqAt [pb])) ∧
      (db = 2 * da → 0 < pa.getD da 0 ^ 2 + 4 * pb.getD db 0 →
        ConvergesExp (seqAt [pa]) (seqAt [pb]) ∨ DivergesExp (seqAt [pa]) (seqAt [pb])) ∧
      (db = 2 * da → pa.getD da 0 ^ 2 + 4 * pb.getD db 0 ≤ 0 →
        ¬ ConvergesExp (seqAt [pa]) (seqAt [pb]) ∧ ¬ DivergesExp (seqAt [pa]) (seqAt [pb])) ∧
      (db = 2 * da → ∀ l, ¬ ConvergesFast (seqAt [pa]) (seqAt [pb]) l)) ∧
    ((∀ n, 1 ≤ n → 0 < seqAt [pa] n ∧ 0 < seqAt [pb] n) → ConvergesExp (seqAt [pa]) (seqAt [pb])) := by
  have hne := realPoly_ne (h0 1 le_rfl)
  have hd := (C41_exp_filter cfg ra rb hs he).1 it hit pa pb _ _ e1 e2 (polynomDegree_spec pa) (polynomDegree_spec pb)
  constructor
  · obtain ⟨j, hj, -⟩ : ∃ j : ℕ, polynomDegree pb = j ∧ (realPoly pb).degree = j := by
      rcases realPoly_degree (polynomDegree_spec pb) with ⟨-, h⟩ | h
      · exact absurd h hne
      · exact h
    have hdb := polynomDegree_spec pb
    have hda := polynomDegree_spec pa
    rw [hj] at hdb hd
    obtain ⟨i, hi⟩ := Int.eq_ofNat_of_zero_le (show 0 ≤ polynomDegree pa by omega)
    rw [hi] at hda hd
    refine ⟨i, j, hda, hdb, by omega, fun h => ?_, fun h hpos => ?_, fun h hneg => ?_, fun h => ?_⟩
    · exact fast_dichotomy h0 (small_of_degree ((degree_prod hda hdb hne).2 (by omega)))
    · subst h
      have hB := balanced_of_degree hda (by exact_mod_cast hdb) h0
      refine hB.exp ?_
      have hla : ((pa.getD i 0 : ℤ) : ℝ) ^ 2 ≠ 0 := fun h => hB.lne (by rw [h, div_zero])
      have hla' : 0 < ((pa.getD i 0 : ℤ) : ℝ) ^ 2 := lt_of_le_of_ne (sq_nonneg _) hla.symm
      have : (0 : ℝ) < ((pa.getD i 0 : ℤ) : ℝ) ^ 2 + 4 * ((pb.getD (2 * i) 0 : ℤ) : ℝ) := by exact_mod_cast hpos
      rw [div_lt_iff₀ hla']
      linarith
    · subst h
      have hB := balanced_of_degree hda (by exact_mod_cast hdb) h0
      suffices h : 1 / 4 ≤ -((pb.getD (2 * i) 0 : ℤ) : ℝ) / ((pa.getD i 0 : ℤ) : ℝ) ^ 2 from ⟨hB.not_exp h, hB.not_div h⟩
      have hla : ((pa.getD i 0 : ℤ) : ℝ) ^ 2 ≠ 0 := fun h => hB.lne (by rw [h, div_zero])
      have hla' : 0 < ((pa.getD i 0 : ℤ) : ℝ) ^ 2 := lt_of_le_of_ne (sq_nonneg _) hla.symm
      have : ((pa.getD i 0 : ℤ) : ℝ) ^ 2 + 4 * ((pb.getD (2 * i) 0 : ℤ) : ℝ) ≤ 0 := by exact_mod_cast hneg
      rw [le_div_iff₀ hla']
      linarith
    · subst h
      exact (balanced_of_degree hda (by exact_mod_cast hdb) h0).not_fast
  · intro hp
    obtain ⟨M, hM, N, hN⟩ := bounded_of_degree ((degree_prod (polynomDegree_spec pa) (polynomDegree_spec pb) hne).1 hd)
    exact exp_of_pos hp hM hN

/-- (4) of the previous theorem with C110: for positive `a_n`, `b_n` the filter is exact. -/
theorem C111_positive (cfg : Config) (ra rb : Ranges) (hs : ShapeOK cfg ra rb) (he : cfg.expOnly = true)
    (pas pbs : List (List ℤ)) (pa pb : List ℤ) (ha : InRanges ra pas) (hb : InRanges rb pbs) (sa : Squeezed pas [pa])
    (sb : Squeezed pbs [pb]) (hroot : cfg.avoidIntRoots = true → ∀ pb ∈ pbs, hasIntRoots pb = false)
    (hp : ∀ n, 1 ≤ n → 0 < seqAt [pa] n ∧ 0 < seqAt [pb] n) :
    ([pa], [pb]) ∈ (polysGenerator manipBasic cfg ra rb).1.map Item.pair ↔ ConvergesExp (seqAt [pa]) (seqAt [pb]) := by
  have h0 : ∀ n, 1 ≤ n → seqAt [pb] n ≠ 0 := fun n hn => (hp n hn).2.ne'
  constructor
  · intro h
    obtain ⟨it, hit, e⟩ := List.mem_map.1 h
    have e1 : it.pas = [pa] := congrArg Prod.fst e
    have e2 : it.pbs = [pb] := congrArg Prod.snd e
    exact (C111_kept_partial cfg ra rb hs he it hit pa pb e1 e2 h0).2 hp
  · intro h
    refine C110_no_exponential_lost cfg ra rb hs he pas pbs [pa] [pb] ha hb sa sb hroot ?_ ?_
    · rwa [← seqAt_squeezed sb]
    · rwa [← seqAt_squeezed sa, ← seqAt_squeezed sb]

theorem not_squeezed (p : List ℤ) : Squeezed [p] [p] :=
  .inr ⟨by rintro ⟨m, q, h⟩; simpa using congrArg List.length h, rfl⟩

/-- `n / (n + n / (n + ...))`, over the default configuration of `MITM` -/
example : ([[0, 1]], [[0, 1]]) ∈
    (polysGenerator manipBasic { expOnly := true, avoidIntRoots := false } [[(0, 1), (1, 2)]] [[(0, 1), (1, 2)]]).1.map Item.pair ↔
    ConvergesExp (seqAt [[0, 1]]) (seqAt [[0, 1]]) :=
  C111_positive _ _ _ (fun _ => ⟨⟨_, _, _, rfl⟩, by simp⟩) rfl [[0, 1]] [[0, 1]] [0, 1] [0, 1] (by simp [InRanges]) (by simp [InRanges])
    (not_squeezed _) (not_squeezed _) (fun h => by cases h) (fun n hn => by rw [seqAt_single]; simp [horner]; omega)

/-- A pair with `deg b ≤ 2 deg a` and the default options is yielded. -/
theorem single_yielded {pa pb : List ℤ} {ra rb : List (ℤ × ℤ)} (ha : InRanges [ra] [pa]) (hb : InRanges [rb] [pb]) (hra : ra ≠ [])
    (hroot : hasIntRoots pb = false) (h0 : ∀ n, 1 ≤ n → seqAt [pb] n ≠ 0) {da db : ℤ} (hda : IsDegree pa da) (hdb : IsDegree pb db)
    (hd : db ≤ 2 * da) : ([pa], [pb]) ∈ (polysGenerator manipBasic { expOnly := true } [ra] [rb]).1.map Item.pair := by
  obtain ⟨x, xs, rfl⟩ := List.exists_cons_of_ne_nil hra
  exact (C41_exp_filter { expOnly := true } [x :: xs] [rb] (fun _ => ⟨⟨_, _, _, rfl⟩, by simp⟩) rfl).2 [pa] [pb] [pa] [pb] ha hb
    (not_squeezed _) (not_squeezed _) (fun _ p hp => by rw [List.mem_singleton.1 hp]; exact hroot) (fun _ _ j hj _ => h0 j hj)
    (.inr (.inr ⟨pa, pb, da, db, rfl, rfl, hda, hdb, hd⟩))

/-- `a_n = 1 + 3n`, `b_n = 1 + 3n - 2n²`: discriminant `9 - 8 > 0` -/
example : ConvergesExp (seqAt [[1, 3]]) (seqAt [[1, 3, -2]]) ∨ DivergesExp (seqAt [[1, 3]]) (seqAt [[1, 3, -2]]) := by
  have h0 : ∀ n, 1 ≤ n → seqAt [[1, 3, -2]] n ≠ 0 := fun n _ h => by
    rw [seqAt_single] at h
    simp [horner] at h
    rcases n with _ | _ | _ | n
    · omega
    · norm_num at h
    · norm_num at h
    · push_cast at h; nlinarith
  have da : IsDegree [1, 3] 1 := .inr ⟨1, rfl, by simp, fun j hj => List.getD_eq_default _ _ (by simp; omega)⟩
  have db : IsDegree [1, 3, -2] 2 := .inr ⟨2, rfl, by simp, fun j hj => List.getD_eq_default _ _ (by simp; omega)⟩
  obtain ⟨it, hit, e⟩ := List.mem_map.1 (single_yielded (ra := [(1, 2), (3, 4)]) (rb := [(1, 2), (3, 4), (-2, -1)])
    (by simp [InRanges]) (by simp [InRanges]) (by simp) (by decide +kernel) h0 da db (by decide))
  obtain ⟨⟨i, j, hi, hj, -, -, h, -⟩, -⟩ := C111_kept_partial _ _ _ (fun _ => ⟨⟨_, _, _, rfl⟩, by simp⟩) rfl it hit _ _
    (congrArg Prod.fst e) (congrArg Prod.snd e) h0
  obtain rfl : i = 1 := by exact_mod_cast isDegree_unique hi da
  obtain rfl : j = 2 := by exact_mod_cast isDegree_unique hj db
  exact h rfl (by decide)

/-- `2 - 1/(2 - 1/(2 - ...))` is enumerated with `enum_only_exp_conv`; its convergents `(n + 2)/(n + 1)` approach `1` slowly. -/
theorem C111_slow_violated :
    ([[2]], [[-1]]) ∈ (polysGenerator manipBasic { expOnly := true } [[(2, 3)]] [[(-1, 0)]]).1.map Item.pair ∧
    (∀ n, contP (seqAt [[2]]) (seqAt [[-1]]) (n + 1) = n + 2 ∧ contQ (seqAt [[2]]) (seqAt [[-1]]) (n + 1) = n + 1) ∧
    ¬ ConvergesExp (seqAt [[2]]) (seqAt [[-1]]) := by
  have ha : ∀ n, seqAt [[2]] n = 2 := fun n => by rw [seqAt_single]; simp [horner]
  have hb : ∀ n, seqAt [[-1]] n = -1 := fun n => by rw [seqAt_single]; simp [horner]
  have hpq : ∀ n : ℕ, (contP (seqAt [[2]]) (seqAt [[-1]]) (n + 1) = n + 2 ∧ contQ (seqAt [[2]]) (seqAt [[-1]]) (n + 1) = n + 1) ∧
      contP (seqAt [[2]]) (seqAt [[-1]]) (n + 2) = n + 3 ∧ contQ (seqAt [[2]]) (seqAt [[-1]]) (n + 2) = n + 2 := by
    intro n
    induction n with
    | zero => simp [contP, contQ, ha, hb]
    | succ n ih =>
      obtain ⟨⟨h1, h2⟩, h3, h4⟩ := ih
      refine ⟨⟨by rw [h3]; push_cast; ring, by rw [h4]; push_cast; ring⟩, ?_, ?_⟩
      · rw [show n + 1 + 2 = (n + 1) + 2 from rfl, contP, h1, h3, ha, hb]; push_cast; ring
      · rw [show n + 1 + 2 = (n + 1) + 2 from rfl, contQ, h2, h4, ha, hb]; push_cast; ring
  refine ⟨single_yielded (da := 0) (db := 0) (by simp [InRanges]) (by simp [InRanges]) (by simp) (by decide) (fun n _ => by rw [hb]; decide)
    (.inr ⟨0, rfl, by simp, fun j hj => List.getD_eq_default _ _ (by simp; omega)⟩)
    (.inr ⟨0, rfl, by simp, fun j hj => List.getD_eq_default _ _ (by simp; omega)⟩) le_rfl, fun n => (hpq n).1, ?_⟩
  rintro ⟨l, c, κ, N, hκ0, hκ1, h⟩
  have hlim := (tendsto_pow_const_mul_const_pow_of_abs_lt_one 2 (abs_lt.2 ⟨by linarith, hκ1⟩)).const_mul (12 * c)
  rw [mul_zero] at hlim
  obtain ⟨n, hn, hn'⟩ := ((hlim.eventually (gt_mem_nhds one_pos)).and (eventually_ge_atTop (max N 1))).exists
  have n1 : (1 : ℝ) ≤ n := by exact_mod_cast (le_max_right N 1).trans hn'
  have e1 := (h n (by omega)).2
  have e2 := (h (n + 1) (by omega)).2
  rw [show n + 1 + 1 = n + 2 from rfl] at e2
  rw [(hpq n).1.1, (hpq n).1.2] at e1
  rw [(hpq n).2.1, (hpq n).2.2] at e2
  push_cast at e1 e2
  have hc : 0 ≤ c * κ ^ n := (abs_nonneg _).trans e1
  have hs : c * κ ^ (n + 1) ≤ c * κ ^ n := by rw [pow_succ, ← mul_assoc]; exact mul_le_of_le_one_right hc hκ1.le
  have t : ((n : ℝ) + 2) / (n + 1) - (n + 3) / (n + 2) ≤ 2 * (c * κ ^ n) := by
    have := abs_le.1 e1
    have := abs_le.1 e2
    linarith
  have t2 : ((n : ℝ) + 2) / (n + 1) - (n + 3) / (n + 2) = 1 / ((n + 1) * (n + 2)) := by field_simp; ring
  rw [t2, div_le_iff₀ (by positivity)] at t
  have t3 : ((n : ℝ) + 1) * (n + 2) ≤ 6 * n ^ 2 := by nlinarith
  have := mul_le_mul_of_nonneg_left t3 hc
  nlinarith

/-- `-4 + 1/(-2 + 3/(0 + 5/(2 + ...)))`, with `a_n = 2n - 4` and `b_n = 2n - 1`, is enumerated with `enum_only_exp_conv`; its convergents
tend to infinity. -/
theorem C111_divergent_violated :
    ([[-4, 2]], [[-1, 2]]) ∈ (polysGenerator manipBasic { expOnly := true } [[(-4, -3), (2, 3)]] [[(-1, 0), (2, 3)]]).1.map Item.pair ∧
    DivergesFast (seqAt [[-4, 2]]) (seqAt [[-1, 2]]) ∧ ¬ ConvergesExp (seqAt [[-4, 2]]) (seqAt [[-1, 2]]) := by
  have ha : ∀ n : ℕ, seqAt [[-4, 2]] n = 2 * n - 4 := fun n => by rw [seqAt_single]; simp [horner]; ring
  have hb : ∀ n : ℕ, seqAt [[-1, 2]] n = 2 * n - 1 := fun n => by rw [seqAt_single]; simp [horner]; ring
  have hb0 : ∀ n, 1 ≤ n → seqAt [[-1, 2]] n ≠ 0 := fun n hn => by rw [hb]; omega
  have dega : IsDegree [-4, 2] 1 := .inr ⟨1, rfl, by simp, fun j hj => List.getD_eq_default _ _ (by simp; omega)⟩
  have degb : IsDegree [-1, 2] 1 := .inr ⟨1, rfl, by simp, fun j hj => List.getD_eq_default _ _ (by simp; omega)⟩
  have hq : ∀ n : ℕ, contQ (seqAt [[-4, 2]]) (seqAt [[-1, 2]]) (n + 1) = (-1) ^ n * (n + 1) ∧
      contQ (seqAt [[-4, 2]]) (seqAt [[-1, 2]]) (n + 2) = (-1) ^ (n + 1) * (n + 2) := by
    intro n
    induction n with
    | zero => simp [contQ, ha]
    | succ n ih =>
      obtain ⟨h1, h2⟩ := ih
      refine ⟨by rw [h2]; push_cast; ring, ?_⟩
      rw [show n + 1 + 2 = (n + 1) + 2 from rfl, contQ, h1, h2, ha, hb]; push_cast; ring
  have hprod : ∀ n : ℕ, (n + 1) * (n + 2) ≤ 2 * prodB (seqAt [[-1, 2]]) (n + 1) := by
    intro n
    induction n with
    | zero => simp [prodB, hb]
    | succ n ih =>
      rw [prodB, hb]
      push_cast
      have h1 := mul_le_mul_of_nonneg_right ih (by omega : (0 : ℤ) ≤ 2 * n + 3)
      have h2 : (0 : ℤ) ≤ (n + 2) * (2 * n * n + 4 * n) := by positivity
      linarith
  have hnot : ¬ ∃ (l c κ : ℝ) (N : ℕ), 0 ≤ κ ∧ κ < 1 ∧ ∀ n, N ≤ n → contQ (seqAt [[-4, 2]]) (seqAt [[-1, 2]]) (n + 1) ≠ 0 ∧
      |(contP (seqAt [[-4, 2]]) (seqAt [[-1, 2]]) (n + 1) : ℝ) / contQ (seqAt [[-4, 2]]) (seqAt [[-1, 2]]) (n + 1) - l| ≤ c * κ ^ n := by
    rintro ⟨l, c, κ, N, hκ0, hκ1, h⟩
    have hlim := (tendsto_pow_atTop_nhds_zero_of_lt_one hκ0 hκ1).const_mul (4 * c)
    rw [mul_zero] at hlim
    obtain ⟨n, hn, hn'⟩ := ((hlim.eventually (gt_mem_nhds one_pos)).and (eventually_ge_atTop N)).exists
    obtain ⟨q1, e1⟩ := h n hn'
    obtain ⟨q2, e2⟩ := h (n + 1) (by omega)
    rw [show n + 1 + 1 = n + 2 from rfl] at q2 e2
    have hd := dist_consec q1 q2
    have hc : 0 ≤ c * κ ^ n := (abs_nonneg _).trans e1
    have hs : c * κ ^ (n + 1) ≤ c * κ ^ n := by rw [pow_succ, ← mul_assoc]; exact mul_le_of_le_one_right hc hκ1.le
    have t := abs_sub_le ((contP (seqAt [[-4, 2]]) (seqAt [[-1, 2]]) (n + 2) : ℝ) / contQ (seqAt [[-4, 2]]) (seqAt [[-1, 2]]) (n + 2)) l
      (contP (seqAt [[-4, 2]]) (seqAt [[-1, 2]]) (n + 1) / contQ (seqAt [[-4, 2]]) (seqAt [[-1, 2]]) (n + 1))
    rw [abs_sub_comm l, hd, (hq n).1, (hq n).2] at t
    have hP : ((n : ℝ) + 1) * (n + 2) ≤ 2 * (prodB (seqAt [[-1, 2]]) (n + 1) : ℝ) := by exact_mod_cast hprod n
    have hP0 : (0 : ℝ) ≤ prodB (seqAt [[-1, 2]]) (n + 1) := by nlinarith [(Nat.cast_nonneg n : (0 : ℝ) ≤ n)]
    push_cast at t
    rw [abs_mul, abs_mul, abs_pow, abs_pow, abs_neg, abs_one, one_pow, one_pow, one_mul, one_mul, abs_of_nonneg hP0,
      abs_of_nonneg (by positivity : (0 : ℝ) ≤ n + 1), abs_of_nonneg (by positivity : (0 : ℝ) ≤ n + 2)] at t
    have t2 : (1 : ℝ) / 2 ≤ (prodB (seqAt [[-1, 2]]) (n + 1) : ℝ) / ((n + 1) * (n + 2)) := by
      rw [div_le_div_iff₀ (by norm_num) (by positivity)]; linarith
    rw [(hq n).1] at e1
    rw [(hq n).2] at e2
    push_cast at e1 e2
    nlinarith
  refine ⟨single_yielded (by simp [InRanges]) (by simp [InRanges]) (by simp) (by decide) hb0 dega degb (by decide), ?_, hnot⟩
  rcases fast_dichotomy hb0 (small_of_degree ((degree_prod dega degb (realPoly_ne (hb0 1 le_rfl))).2 (by decide))) with ⟨l, hl⟩ | h
  · obtain ⟨c, N, h⟩ := hl (1 / 2) (by norm_num)
    exact absurd ⟨l, c, 1 / 2, N, by norm_num, by norm_num, h⟩ hnot
  · exact h

end PiCF
