import Mathlib.Algebra.Order.Archimedean.Real.Basic
import Verif.Spec.Limit
import Verif.Props.Digits

/-!
# Digits of numbers near an irrational number
-/

namespace PiCF.DecStr
open PiCF.Hashtable PiCF.PyStr PiCF.Mitm PiCF.Spec

theorem fract_pos {t : ℝ} (h : Irrational t) : 0 < Int.fract t := by
  refine lt_of_le_of_ne (Int.fract_nonneg t) fun h0 => ?_
  have := Int.self_sub_fract t
  rw [← h0, sub_zero] at this
  exact h ⟨⌊t⌋, by rw [this]; simp⟩

/-- Numbers near an irrational number have the same integer part and are no integers. -/
theorem near_floor {t : ℝ} (h : Irrational t) : ∃ ε > 0, ∀ s, |s - t| < ε → (⌊t⌋ : ℝ) < s ∧ s < ⌊t⌋ + 1 := by
  have h0 := fract_pos h
  have h1 := Int.fract_lt_one t
  have e := Int.self_sub_fract t
  refine ⟨min (Int.fract t) (1 - Int.fract t), lt_min h0 (by linarith), fun s hs => ?_⟩
  have := abs_lt.1 hs
  have m1 := min_le_left (Int.fract t) (1 - Int.fract t)
  have m2 := min_le_right (Int.fract t) (1 - Int.fract t)
  constructor <;> linarith

theorem irrational_abs {l : ℝ} (h : Irrational l) : Irrational |l| := by
  rcases abs_choice l with e | e <;> rw [e]
  · exact h
  · exact h.neg

theorem irrational_fract {l : ℝ} (h : Irrational l) : Irrational (Int.fract l) := by
  rw [Int.fract]; exact h.sub_intCast _

theorem near_fract {l : ℝ} (h : Irrational l) : ∃ ε > 0, ∀ y : ℝ, |y - l| < ε →
    abs (Int.fract |y| - Int.fract |l|) ≤ |y - l| := by
  obtain ⟨ε, he, hf⟩ := near_floor (irrational_abs h)
  refine ⟨ε, he, fun y hy => ?_⟩
  have h1 := abs_abs_sub_abs_le y l
  obtain ⟨f1, f2⟩ := hf |y| (h1.trans_lt hy)
  have e : ⌊|y|⌋ = ⌊|l|⌋ := Int.floor_eq_iff.2 ⟨f1.le, f2⟩
  rw [Int.fract, Int.fract, e, sub_sub_sub_cancel_right]
  exact h1

/-- A Decimal near an irrational number in `(10^-6, 1)`. -/
theorem near_plain {κ : ℝ} (h : Irrational κ) (h0 : 1 / 10 ^ 6 < κ) (h1 : κ < 1) (n : ℕ) : ∃ ε > 0, ∀ d : Dec, d.neg = false →
    |(d.value : ℝ) - κ| < ε → Plain d n ∧ ⌊d.value * 10 ^ n⌋ = ⌊κ * 10 ^ n⌋ := by
  have hp : (0 : ℝ) < 10 ^ n := by positivity
  have hi : Irrational (κ * 10 ^ n) := by
    have := h.mul_natCast (m := 10 ^ n) (by positivity)
    exact_mod_cast this
  obtain ⟨ε, he, hf⟩ := near_floor hi
  refine ⟨min (ε / 10 ^ n) (min (κ - 1 / 10 ^ 6) (1 - κ)), by
    refine lt_min (by positivity) (lt_min (by linarith) (by linarith)), fun d hd hdv => ?_⟩
  have a1 := hdv.trans_le (min_le_left _ _)
  have a2 := hdv.trans_le ((min_le_right _ _).trans (min_le_left _ _))
  have a3 := hdv.trans_le ((min_le_right _ _).trans (min_le_right _ _))
  have b2 := abs_lt.1 a2
  have b3 := abs_lt.1 a3
  obtain ⟨f1, f2⟩ := hf ((d.value : ℝ) * 10 ^ n) (by
    rw [← sub_mul, abs_mul, abs_of_pos hp]
    rwa [lt_div_iff₀ hp] at a1)
  have hfl : ⌊d.value * 10 ^ n⌋ = ⌊κ * 10 ^ n⌋ := by
    rw [Int.floor_eq_iff]
    constructor
    · have : ((⌊κ * 10 ^ n⌋ : ℚ) : ℝ) ≤ ((d.value * 10 ^ n : ℚ) : ℝ) := by push_cast; exact f1.le
      exact_mod_cast this
    · have : ((d.value * 10 ^ n : ℚ) : ℝ) < ((⌊κ * 10 ^ n⌋ + 1 : ℚ) : ℝ) := by push_cast; exact f2
      exact_mod_cast this
  have hexp : d.exp < -(n : ℤ) := by
    by_contra hc
    obtain ⟨k, hk⟩ : ∃ k : ℕ, d.exp + n = k := ⟨(d.exp + n).toNat, by omega⟩
    have hv : d.value * 10 ^ n = ((d.coef * 10 ^ k : ℕ) : ℚ) := by
      rw [Dec.value, hd]
      simp only [Bool.false_eq_true, if_false, one_mul]
      rw [mul_assoc, ← zpow_natCast (10 : ℚ) n, ← zpow_add₀ (by norm_num), hk]
      push_cast
      rw [zpow_natCast]
    have hv' : (d.value : ℝ) * 10 ^ n = ((d.coef * 10 ^ k : ℕ) : ℝ) := by
      have := congrArg (Rat.cast : ℚ → ℝ) hv
      push_cast at this ⊢
      exact this
    rw [hv'] at f1 f2
    have g1 : ⌊κ * 10 ^ n⌋ < ((d.coef * 10 ^ k : ℕ) : ℤ) := by exact_mod_cast f1
    have g2 : ((d.coef * 10 ^ k : ℕ) : ℤ) < ⌊κ * 10 ^ n⌋ + 1 := by exact_mod_cast f2
    omega
  refine ⟨⟨?_, hd, by omega, by omega, .inl ?_⟩, hfl⟩
  · have : (d.value : ℝ) < ((1 : ℚ) : ℝ) := by push_cast; linarith
    exact_mod_cast this
  · have : ((1 / 10 ^ 6 : ℚ) : ℝ) ≤ (d.value : ℝ) := by push_cast; linarith
    exact_mod_cast this

/-- How numbers are printed: as Decimals that differ from them by at most `δ`. -/
structure Prints (eng : EngN) (δ : ℝ) : Prop where
  total : ∀ q, ∃ s, eng (.fin q) = .ok s
  near : ∀ q : ℚ, 0 < q → q < 1 → ∃ d : Dec, eng (.fin q) = .ok d.eng ∧ d.neg = false ∧ |(d.value : ℝ) - q| ≤ δ

theorem cast_fract (y : ℚ) : ((Int.fract |y| : ℚ) : ℝ) = Int.fract |(y : ℝ)| := by
  rw [← Rat.cast_abs, Rat.cast_fract]

/-- The comparison of numbers near irrational numbers. -/
theorem near_compare {l l' : ℝ} (h : Irrational l) (h' : Irrational l') (h0 : 1 / 10 ^ 6 < Int.fract |l|)
    (h0' : 1 / 10 ^ 6 < Int.fract |l'|) (n : ℕ) : ∃ ε > 0, ∀ (eng : EngN) (y w : ℚ), Prints eng ε → |(y : ℝ) - l| < ε → |(w : ℝ) - l'| < ε →
    y ≠ 0 ∧ ∃ r, compareDec eng (.fin (Int.fract |y|)) (.fin (Int.fract |w|)) n = .ok r ∧ (r = true ↔ DigitsAgree n l l') := by
  have key : ∀ {l : ℝ}, Irrational l → 1 / 10 ^ 6 < Int.fract |l| → ∃ ε > 0, ∀ (eng : EngN) (y : ℚ), Prints eng ε → |(y : ℝ) - l| < ε →
      y ≠ 0 ∧ ∃ d : Dec, eng (.fin (Int.fract |y|)) = .ok d.eng ∧ Plain d n ∧ ⌊d.value * 10 ^ n⌋ = ⌊Int.fract |l| * 10 ^ n⌋ := by
    intro l h h0
    have hi := irrational_fract (irrational_abs h)
    have h1 := Int.fract_lt_one |l|
    obtain ⟨ε1, e1, f1⟩ := near_fract h
    obtain ⟨ε2, e2, f2⟩ := near_plain hi h0 h1 n
    have hpos := h0.trans' (show (0 : ℝ) < 1 / 10 ^ 6 by positivity)
    refine ⟨min ε1 (min (ε2 / 2) (min (Int.fract |l|) (1 - Int.fract |l|))), ?_, fun eng y hE hy => ?_⟩
    · exact lt_min e1 (lt_min (by linarith) (lt_min hpos (by linarith)))
    have a1 := hy.trans_le (min_le_left _ _)
    have a2 := hy.trans_le ((min_le_right _ _).trans (min_le_left _ _))
    have a3 := hy.trans_le ((min_le_right _ _).trans ((min_le_right _ _).trans (min_le_left _ _)))
    have a4 := hy.trans_le ((min_le_right _ _).trans ((min_le_right _ _).trans (min_le_right _ _)))
    have hk := f1 y a1
    have hk1 := abs_lt.1 (hk.trans_lt a3)
    have hk2 := abs_lt.1 (hk.trans_lt a4)
    have q0 : (0 : ℚ) < Int.fract |y| := by
      have : (0 : ℝ) < ((Int.fract |y| : ℚ) : ℝ) := by rw [cast_fract]; linarith
      exact_mod_cast this
    obtain ⟨d, hd, hn, hdv⟩ := hE.near (Int.fract |y|) q0 (Int.fract_lt_one _)
    refine ⟨?_, d, hd, f2 d hn ?_⟩
    · rintro rfl
      simp at q0
    · rw [cast_fract] at hdv
      have b1 := hdv.trans ((min_le_right _ _).trans (min_le_left _ _))
      have b2 := hk.trans_lt a2
      calc abs ((d.value : ℝ) - Int.fract |l|) = abs (((d.value : ℝ) - Int.fract |(y : ℝ)|) + (Int.fract |(y : ℝ)| - Int.fract |l|)) := by ring_nf
        _ ≤ _ := abs_add_le _ _
        _ < ε2 := by linarith
  obtain ⟨ε1, e1, f1⟩ := key h h0
  obtain ⟨ε2, e2, f2⟩ := key h' h0'
  have mono : ∀ {eng : EngN} {a b : ℝ}, Prints eng a → a ≤ b → Prints eng b := fun hE hab =>
    ⟨hE.total, fun q q0 q1 => by obtain ⟨d, x1, x2, x3⟩ := hE.near q q0 q1; exact ⟨d, x1, x2, x3.trans hab⟩⟩
  refine ⟨min ε1 ε2, lt_min e1 e2, fun eng y w hE hy hw => ?_⟩
  obtain ⟨hy0, d, d1, d2, d3⟩ := f1 eng y (mono hE (min_le_left _ _)) (hy.trans_le (min_le_left _ _))
  obtain ⟨-, e, g1, g2, g3⟩ := f2 eng w (mono hE (min_le_right _ _)) (hw.trans_le (min_le_right _ _))
  obtain ⟨r, hr, hiff⟩ := C79_digits_partial d1 g1 d2 g2
  exact ⟨hy0, r, hr, by rw [hiff, SameDigits, DigitsAgree, d3, g3]⟩

end PiCF.DecStr
