import Mathlib.Tactic.Linarith
import Mathlib.Tactic.NormNum
import Mathlib.Tactic.Positivity
import Mathlib.Tactic.FieldSimp
import Mathlib.Tactic.LinearCombination
import Verif.Model.FloatRoots
import Verif.Spec.FloatRoots
import Verif.Lemmas.Rounded

/-!
# C124: floats in the integer root test
-/

namespace PiCF
open PiCF.ContFrac PiCF.Spec PiCF.EnumPoly PiCF.Rounded

theorem isInt_iff (x : ℚ) : isInt x = true ↔ ∃ n : ℤ, x = n := by
  rw [isInt, beq_iff_eq]
  constructor
  · intro h; exact ⟨x.num, ((Rat.den_eq_one_iff x).1 h).symm⟩
  · rintro ⟨n, rfl⟩; exact Rat.den_intCast n

/-- The quotient of integers of moderate size: a float quotient is an integer exactly if the division is exact. -/
theorem isInt_div {rnd : ℚ → ℚ} {u : ℚ} {M : ℤ} (h : RoundOk rnd u M) {x y : ℤ} (hy : y ≠ 0) (hx : |x| < M) (hu : u * |(x : ℚ)| < 1) :
    isInt (rnd ((x : ℚ) / y)) = decide (y ∣ x) := by
  have hyq : (y : ℚ) ≠ 0 := by exact_mod_cast hy
  rw [Bool.eq_iff_iff, isInt_iff, decide_eq_true_iff]
  constructor
  · rintro ⟨n, hn⟩
    have he := h.err ((x : ℚ) / y)
    rw [hn, abs_div, mul_div_assoc', le_div_iff₀ (abs_pos.2 hyq), ← abs_mul, sub_mul, div_mul_cancel₀ _ hyq] at he
    have h1 : |n * y - x| < 1 := by
      have : |((n * y - x : ℤ) : ℚ)| < 1 := by push_cast; linarith
      exact_mod_cast this
    have h2 : n * y - x = 0 := by rw [abs_lt] at h1; omega
    exact ⟨n, by linarith⟩
  · rintro ⟨k, rfl⟩
    refine ⟨k, ?_⟩
    have : ((y * k : ℤ) : ℚ) / y = k := by push_cast; field_simp
    rw [this]
    apply h.exact
    rw [abs_mul] at hx
    have := Int.one_le_abs hy
    nlinarith [abs_nonneg k]

/-- One of the two tests of the quadratic branch for a discriminant which is no square. -/
theorem isInt_root {rnd : ℚ → ℚ} (h : RoundOk rnd (1 / 2 ^ 53) (2 ^ 53)) {c0 c1 d : ℤ} {s : ℚ} (h0 : c0 ≠ 0) (h1 : |c1| < 2 ^ 20)
    (hd : 0 ≤ d) (hd2 : d < 2 ^ 44) (hs : |s ^ 2 - d| ≤ 1 / 2 ^ 50 * d) (hns : ∀ k : ℤ, k ^ 2 ≠ d) :
    isInt (rnd (rnd (s - c1) / (2 * c0 : ℤ))) = false := by
  rw [Bool.eq_false_iff, Ne, isInt_iff]
  rintro ⟨n, hn⟩
  have hcq : ((2 * c0 : ℤ) : ℚ) ≠ 0 := by exact_mod_cast (by omega : 2 * c0 ≠ 0)
  have hdq : (d : ℚ) < 2 ^ 44 := by exact_mod_cast hd2
  have hd0 : (0 : ℚ) ≤ d := by exact_mod_cast hd
  have h1q : |(c1 : ℚ)| < 2 ^ 20 := by exact_mod_cast h1
  rw [abs_lt] at h1q
  have hs2 : |s| < 2 ^ 23 := by
    apply abs_lt_of_sq_lt_sq _ (by norm_num)
    rw [abs_le] at hs
    norm_num at hs hdq ⊢
    linarith
  have hs3 := abs_lt.1 hs2
  have ht := h.err (s - c1)
  set t := rnd (s - c1) with htdef
  have hsc : |s - c1| < 2 ^ 24 := by rw [abs_lt]; constructor <;> norm_num at * <;> linarith
  have ht1 : |t - (s - c1)| ≤ 1 / 2 ^ 29 := by
    refine ht.trans ?_
    calc (1 : ℚ) / 2 ^ 53 * |s - c1| ≤ 1 / 2 ^ 53 * 2 ^ 24 := by gcongr
      _ = 1 / 2 ^ 29 := by norm_num
  have ht2 : |t| < 2 ^ 25 := by
    rw [abs_lt] at *; rw [abs_le] at ht1
    constructor <;> norm_num at * <;> linarith
  have hu := h.err (t / (2 * c0 : ℤ))
  rw [hn, abs_div, mul_div_assoc', le_div_iff₀ (abs_pos.2 hcq), ← abs_mul, sub_mul, div_mul_cancel₀ _ hcq] at hu
  have hu1 : |(n : ℚ) * (2 * c0 : ℤ) - t| ≤ 1 / 2 ^ 28 := by
    refine hu.trans ?_
    calc (1 : ℚ) / 2 ^ 53 * |t| ≤ 1 / 2 ^ 53 * 2 ^ 25 := by gcongr
      _ = 1 / 2 ^ 28 := by norm_num
  set m : ℤ := n * (2 * c0) + c1 with hm
  have hms : |(m : ℚ) - s| ≤ 1 / 2 ^ 27 := by
    have : (m : ℚ) - s = (n * (2 * c0 : ℤ) - t) + (t - (s - c1)) := by rw [hm]; push_cast; ring
    rw [this]
    refine (abs_add_le _ _).trans ?_
    norm_num at *; linarith
  have hmm : |(m : ℚ) ^ 2 - s ^ 2| < 1 / 2 := by
    have hfac : (m : ℚ) ^ 2 - s ^ 2 = (m - s) * (m + s) := by ring
    have hsum : |(m : ℚ) + s| ≤ 2 ^ 25 := by
      rw [abs_le] at *
      constructor <;> norm_num at * <;> linarith
    rw [hfac, abs_mul]
    calc |(m : ℚ) - s| * |(m : ℚ) + s| ≤ 1 / 2 ^ 27 * 2 ^ 25 := by gcongr
      _ < 1 / 2 := by norm_num
  have hfin : |((m ^ 2 - d : ℤ) : ℚ)| < 1 := by
    have : ((m ^ 2 - d : ℤ) : ℚ) = ((m : ℚ) ^ 2 - s ^ 2) + (s ^ 2 - d) := by push_cast; ring
    rw [this]
    refine (abs_add_le _ _).trans_lt ?_
    have : (1 : ℚ) / 2 ^ 50 * d ≤ 1 / 2 ^ 50 * 2 ^ 44 := by gcongr
    norm_num at *; linarith
  have hfin' : |m ^ 2 - d| < 1 := by exact_mod_cast hfin
  rw [abs_lt] at hfin'
  exact hns m (by omega)

/-- **C124.** With coefficients below `2^20` in absolute value the test gives the same answer with floats (53 binary digits, correctly
rounded) as with exact arithmetic, so C36 describes the real function. -/
theorem C124_floats {rnd : ℚ → ℚ} (h : RoundOk rnd (1 / 2 ^ 53) (2 ^ 53)) {pow : ℤ → ℚ} (hp : PowHalfOk pow) (p : Poly)
    (hc : ∀ c ∈ p, |c| < 2 ^ 20) : hasIntRootsF rnd pow p = hasIntRoots p := by
  have hsub : ∀ c ∈ factorOut p, |c| < 2 ^ 20 ∧ c ≠ 0 := by
    intro c hm
    rw [factorOut] at hm
    exact ⟨hc c ((List.dropWhile_suffix _).subset ((List.takeWhile_prefix _).subset hm)), by simpa using List.all_eq_true.1 List.all_takeWhile c hm⟩
  rw [hasIntRootsF, hasIntRoots]
  match hf : factorOut p with
  | [] => rfl
  | [_] => rfl
  | [c0, c1] =>
    rw [hf] at hsub
    have h0 := hsub c0 (by simp)
    have h1 := hsub c1 (by simp)
    have h0q : |(c0 : ℚ)| < 2 ^ 20 := by exact_mod_cast h0.1
    simp only
    rw [isInt_div h h1.2 (h0.1.trans (by norm_num)) (by norm_num at *; linarith)]
  | [c0, c1, c2] =>
    rw [hf] at hsub
    obtain ⟨h0, h0'⟩ := hsub c0 (by simp)
    obtain ⟨h1, h1'⟩ := hsub c1 (by simp)
    obtain ⟨h2, h2'⟩ := hsub c2 (by simp)
    simp only
    set d := c1 ^ 2 - 4 * c0 * c2 with hd
    by_cases hneg : d < 0
    · rw [if_pos hneg, if_pos hneg]
    rw [if_neg hneg, if_neg hneg]
    have hd0 : 0 ≤ d := not_lt.1 hneg
    have hd44 : d < 2 ^ 44 := by
      have e1 : c1 ^ 2 ≤ 2 ^ 40 := by rw [← sq_abs]; nlinarith [abs_nonneg c1]
      have e2 : -(c0 * c2) ≤ 2 ^ 40 := by
        have := neg_le_abs (c0 * c2)
        rw [abs_mul] at this
        nlinarith [abs_nonneg c0, abs_nonneg c2]
      rw [hd]; linarith
    by_cases hsq : Int.sqrt d * Int.sqrt d = d
    · rw [if_pos hsq]
      set r := Int.sqrt d with hr
      have hr0 : 0 ≤ r := Int.sqrt_nonneg d
      have hpr : pow d = r := by rw [← hsq, ← sq]; exact hp.exact r hr0 (by rw [sq, hsq]; exact hd44)
      have hr23 : r < 2 ^ 22 := by nlinarith
      rw [abs_lt] at h1
      have k1 : |r - c1| < 2 ^ 23 := by rw [abs_lt]; constructor <;> linarith
      have k2 : |-r - c1| < 2 ^ 23 := by rw [abs_lt]; constructor <;> linarith
      have key : ∀ z : ℤ, |z| < 2 ^ 23 → isInt (rnd (rnd (z : ℚ) / (2 * c0 : ℤ))) = decide (2 * c0 ∣ z) := by
        intro z hz
        have hzq : |(z : ℚ)| < 2 ^ 23 := by exact_mod_cast hz
        rw [h.exact z (hz.trans (by norm_num)), isInt_div h (by omega) (hz.trans (by norm_num)) (by norm_num at *; linarith)]
      rw [hpr]
      have e1 : (r : ℚ) - c1 = ((r - c1 : ℤ) : ℚ) := by push_cast; ring
      have e2 : -(r : ℚ) - c1 = ((-r - c1 : ℤ) : ℚ) := by push_cast; ring
      rw [e1, e2, key _ k1, key _ k2]
    · rw [if_neg hsq]
      have hns : ∀ k : ℤ, k ^ 2 ≠ d := fun k hk => hsq ((Int.exists_mul_self d).1 ⟨k, by rw [← hk, sq]⟩)
      have herr := hp.err d hd0 hd44
      rw [isInt_root h h0' h1 hd0 hd44 herr hns, isInt_root h h0' h1 hd0 hd44 (by rw [neg_sq]; exact herr) hns]
      rfl
  | _ :: _ :: _ :: _ :: _ => rfl

/-- A square root with 53 binary digits: the assumption on `d ** 0.5` can be met by floats. -/
def floatSqrt (d : ℤ) : ℚ := roundBin 53 ((Int.sqrt (d * 4 ^ 60) : ℚ) / 2 ^ 60)

theorem floatSqrt_ok : PowHalfOk floatSqrt := by
  have hr := roundBin_ok 53 (by norm_num)
  have hn : ∀ x : ℚ, 0 ≤ x → 0 ≤ roundBin 53 x ∧ |roundBin 53 x - x| ≤ 1 / 2 ^ 53 * x := by
    intro x hx
    have := hr.err x
    rw [abs_of_nonneg hx] at this
    refine ⟨?_, this⟩
    rw [abs_le] at this
    norm_num at this
    linarith
  have hy : ∀ d : ℤ, (0 : ℚ) ≤ (Int.sqrt (d * 4 ^ 60) : ℚ) / 2 ^ 60 := fun d =>
    div_nonneg (by exact_mod_cast Int.sqrt_nonneg _) (by norm_num)
  refine ⟨fun d _ _ => (hn _ (hy d)).1, fun d hd _ => ?_, fun k hk hk2 => ?_⟩
  · rcases hd.eq_or_lt with rfl | hd
    · have : floatSqrt 0 = 0 := by rw [floatSqrt]; norm_num [roundBin]
      rw [this]; norm_num
    obtain ⟨h1, h2⟩ := hn _ (hy d)
    rw [floatSqrt]
    set y : ℚ := (Int.sqrt (d * 4 ^ 60) : ℚ) / 2 ^ 60 with hydef
    have hy0 := hy d
    rw [← hydef] at hy0
    set r := roundBin 53 y
    set q := Int.sqrt (d * 4 ^ 60) with hq
    have hqq : (q : ℚ) = y * 2 ^ 60 := by rw [hydef]; field_simp
    have hdn : d * 4 ^ 60 = ((d * 4 ^ 60).toNat : ℤ) := (Int.toNat_of_nonneg (by positivity)).symm
    have hqn : q = (Nat.sqrt (d * 4 ^ 60).toNat : ℤ) := rfl
    have b1 : q * q ≤ d * 4 ^ 60 := by rw [hqn, hdn]; exact_mod_cast Nat.sqrt_le _
    have b2 : d * 4 ^ 60 < (q + 1) * (q + 1) := by rw [hqn, hdn]; exact_mod_cast Nat.lt_succ_sqrt _
    have c1 : (q : ℚ) * q ≤ d * 4 ^ 60 := by exact_mod_cast b1
    have c2 : (d : ℚ) * 4 ^ 60 < (q + 1) * (q + 1) := by exact_mod_cast b2
    have hd1 : (1 : ℚ) ≤ d := by exact_mod_cast hd
    rw [hqq] at c1 c2
    have e1 : y ^ 2 ≤ d := by norm_num at c1; nlinarith
    have hyd : y ≤ d := by nlinarith
    have e2 : (d : ℚ) - y ^ 2 ≤ 3 / 2 ^ 60 * d := by norm_num at c2 ⊢; nlinarith
    have hfac : r ^ 2 - d = (r - y) * (r + y) - (d - y ^ 2) := by ring
    have hry : |r + y| ≤ 3 * y := by
      rw [abs_le] at h2
      rw [abs_of_nonneg (by linarith)]
      norm_num at h2; linarith
    have hprod : |(r - y) * (r + y)| ≤ 3 / 2 ^ 53 * d := by
      rw [abs_mul]
      calc |r - y| * |r + y| ≤ (1 / 2 ^ 53 * y) * (3 * y) := by gcongr
        _ = 3 / 2 ^ 53 * y ^ 2 := by ring
        _ ≤ 3 / 2 ^ 53 * d := by gcongr
    rw [hfac]
    refine (abs_sub _ _).trans ?_
    rw [abs_of_nonneg (show (0 : ℚ) ≤ d - y ^ 2 by linarith)]
    norm_num at *; linarith
  · have : Int.sqrt (k ^ 2 * 4 ^ 60) = k * 2 ^ 60 := by
      have e : k ^ 2 * 4 ^ 60 = (k * 2 ^ 60) * (k * 2 ^ 60) := by ring
      rw [e, Int.sqrt_eq, Int.natAbs_of_nonneg (by positivity)]
    rw [floatSqrt, this]
    have e : ((k * 2 ^ 60 : ℤ) : ℚ) / 2 ^ 60 = k := by push_cast; field_simp; norm_num
    rw [e]
    refine hr.exact k ?_
    rw [abs_of_nonneg hk]
    nlinarith

/-- The assumptions of `C124_floats` are met by floats, and both answers occur. -/
example : RoundOk (roundBin 53) (1 / 2 ^ 53) (2 ^ 53) ∧ PowHalfOk floatSqrt ∧
    hasIntRootsF (roundBin 53) floatSqrt [1, -5, 6] = true ∧ hasIntRootsF (roundBin 53) floatSqrt [3, -5, 1] = false ∧
    hasIntRootsF (roundBin 53) floatSqrt [0, 6, -3] = true := by
  have hr := roundBin_ok 53 (by norm_num)
  refine ⟨hr, floatSqrt_ok, ?_, ?_, ?_⟩ <;> rw [C124_floats hr floatSqrt_ok _ (by decide)] <;> decide +kernel

/-- A bound on the coefficients is needed: `-(2^54 + 1) + 2x` has no integer root, but the float quotient is the integer `-2^53`. -/
theorem C124_bound_needed : ∀ pow : ℤ → ℚ, hasIntRootsF (roundBin 53) pow [-(2 ^ 54 + 1), 2] = true ∧ hasIntRoots [-(2 ^ 54 + 1), 2] = false := by
  intro pow
  refine ⟨?_, by decide +kernel⟩
  have h : factorOut [-(2 ^ 54 + 1), 2] = [-(2 ^ 54 + 1), 2] := by decide +kernel
  rw [hasIntRootsF, h]
  show (isInt (roundBin 53 (((-(2 ^ 54 + 1) : ℤ) : ℚ) / (2 : ℤ))) && (decide ((-(2 ^ 54 + 1) : ℤ) > 0) != decide ((2 : ℤ) > 0))) = true
  decide +kernel

end PiCF
