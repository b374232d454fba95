import Mathlib.Algebra.BigOperators.Ring.List
import Mathlib.Tactic.Linarith
import Mathlib.Tactic.LinearCombination
import Mathlib.Tactic.FieldSimp
import Mathlib.Tactic.Ring
import Mathlib.Tactic.Positivity
import Verif.Spec.Fit

/-!
# Best fits of points near a line
-/

namespace PiCF.Spec

/-- The squared distance of two lines over some points. -/
def lineDist (ps : List (ℝ × ℝ)) (m c : ℝ) : ℝ := (ps.map fun p => (m * p.1 + c) ^ 2).sum

theorem sqDist_mix (ps : List (ℝ × ℝ)) (m c m' c' t : ℝ) : sqDist ps ((1 - t) * m + t * m') ((1 - t) * c + t * c') =
    (1 - t) * sqDist ps m c + t * sqDist ps m' c' - t * (1 - t) * lineDist ps (m - m') (c - c') := by
  induction ps with
  | nil => simp [sqDist, lineDist]
  | cons p ps ih =>
    simp only [sqDist, lineDist, List.map_cons, List.sum_cons] at ih ⊢
    rw [ih]
    ring

theorem sqDist_nonneg (ps : List (ℝ × ℝ)) (m c : ℝ) : 0 ≤ sqDist ps m c :=
  List.sum_nonneg fun x hx => by obtain ⟨p, -, rfl⟩ := List.mem_map.1 hx; positivity

theorem lineDist_le {ps : List (ℝ × ℝ)} {m c : ℝ} (h : LeastSquares ps m c) (m' c' : ℝ) : lineDist ps (m - m') (c - c') ≤ sqDist ps m' c' := by
  by_contra hlt
  push Not at hlt
  set D := lineDist ps (m - m') (c - c')
  set V := sqDist ps m' c'
  have hV : 0 ≤ V := sqDist_nonneg _ _ _
  have hU := sqDist_nonneg ps m c
  have hD : 0 < D := by linarith
  have ht := h ((1 - (D - V) / (2 * D)) * m + (D - V) / (2 * D) * m') ((1 - (D - V) / (2 * D)) * c + (D - V) / (2 * D) * c')
  rw [sqDist_mix] at ht
  change _ ≤ _ + _ * V - _ * D at ht
  set t := (D - V) / (2 * D) with hte
  have t0 : 0 < t := div_pos (by linarith) (by linarith)
  have t1 : t * (2 * D) = D - V := div_mul_cancel₀ _ (by positivity)
  have : t * ((1 - t) * D - V + sqDist ps m c) ≤ 0 := by nlinarith
  have h2 : (1 - t) * D - V + sqDist ps m c ≤ 0 := by
    by_contra hc
    push Not at hc
    linarith [mul_pos t0 hc]
  nlinarith

theorem lineDist_ge {ps : List (ℝ × ℝ)} {S : ℝ} (hS : SpreadAtLeast (ps.map Prod.fst) S) (m c : ℝ) : m ^ 2 * S ≤ lineDist ps m c := by
  by_cases hm : m = 0
  · subst hm
    rw [zero_pow two_ne_zero, zero_mul]
    exact List.sum_nonneg fun x hx => by obtain ⟨p, -, rfl⟩ := List.mem_map.1 hx; positivity
  · have h := hS (-(c / m))
    have e : lineDist ps m c = m ^ 2 * ((ps.map Prod.fst).map fun x => (x - -(c / m)) ^ 2).sum := by
      rw [lineDist, List.map_map, ← List.sum_map_mul_left]
      congr 1
      apply List.map_congr_left
      intro p _
      simp only [Function.comp]
      field_simp
      ring
    rw [e]
    exact mul_le_mul_of_nonneg_left h (by positivity)

theorem sqDist_le {ps : List (ℝ × ℝ)} {m c δ : ℝ} (h : ∀ p ∈ ps, |p.2 - (m * p.1 + c)| ≤ δ) : sqDist ps m c ≤ ps.length * δ ^ 2 := by
  induction ps with
  | nil => simp [sqDist]
  | cons p ps ih =>
    have h1 := ih fun q hq => h q (List.mem_cons_of_mem _ hq)
    have h2 := h p List.mem_cons_self
    simp only [sqDist, List.map_cons, List.sum_cons, List.length_cons] at h1 ⊢
    have h3 : (p.2 - (m * p.1 + c)) ^ 2 ≤ δ ^ 2 := by
      rw [← sq_abs]
      exact pow_le_pow_left₀ (abs_nonneg _) h2 2
    push_cast
    linarith

/-- The slope of the best fit of points that are near a line. -/
theorem slope_near {ps : List (ℝ × ℝ)} {m c m' c' δ S : ℝ} (h : LeastSquares ps m c) (hδ : ∀ p ∈ ps, |p.2 - (m' * p.1 + c')| ≤ δ)
    (hS : SpreadAtLeast (ps.map Prod.fst) S) : (m - m') ^ 2 * S ≤ ps.length * δ ^ 2 :=
  (lineDist_ge hS _ _).trans ((lineDist_le h m' c').trans (sqDist_le hδ))

theorem intercept_exact {ps : List (ℝ × ℝ)} {m c c' : ℝ} (h : LeastSquares ps m c) (hne : ps ≠ []) (hp : ∀ p ∈ ps, p.2 = m * p.1 + c') : c = c' := by
  have h1 := lineDist_le h m c'
  have h2 : sqDist ps m c' ≤ 0 := (sqDist_le (δ := 0) fun p hp' => by rw [hp p hp']; simp).trans (by simp)
  obtain ⟨p, ps, rfl⟩ := List.exists_cons_of_ne_nil hne
  simp only [lineDist, List.map_cons, List.sum_cons, sub_self, zero_mul, zero_add] at h1 h2
  have h3 : 0 ≤ (ps.map fun _ : ℝ × ℝ => (c - c') ^ 2).sum :=
    List.sum_nonneg fun x hx => by obtain ⟨p, -, rfl⟩ := List.mem_map.1 hx; positivity
  have h4 : (c - c') ^ 2 = 0 := le_antisymm (by linarith) (by positivity)
  linarith [pow_eq_zero_iff (two_ne_zero) |>.1 h4]

/-- The first and the last of strictly increasing numbers. -/
theorem increasing_span : ∀ (l : List ℕ) (a b : ℕ), (a :: (l ++ [b])).Pairwise (· < ·) → a + l.length + 1 ≤ b
  | [], a, b, h => by simp at h; simp; omega
  | x :: l, a, b, h => by
    rw [List.cons_append, List.pairwise_cons] at h
    have h1 := increasing_span l x b h.2
    have h2 := h.1 x (by simp)
    simp only [List.length_cons]
    omega

/-- The spread of distinct natural numbers. -/
theorem spread_nat (l : List ℕ) (h : l.Pairwise (· < ·)) : SpreadAtLeast (l.map fun n : ℕ => (n : ℝ)) (l.length * ((l.length : ℝ) ^ 2 - 1) / 12) := by
  intro c
  induction hn : l.length using Nat.strong_induction_on generalizing l with
  | _ n ih =>
    match l with
    | [] => simp at hn; subst hn; simp
    | [x] => simp at hn; subst hn; simp; positivity
    | a :: x :: l' =>
      obtain ⟨l, b, hb⟩ : ∃ l b, x :: l' = l ++ [b] := ⟨_, _, (List.dropLast_append_getLast (List.cons_ne_nil x l')).symm⟩
      rw [hb] at h hn ⊢
      have hs := increasing_span l a b h
      have hl : l.length + 2 = n := by simp at hn; omega
      have h1 := ih l.length (by omega) l (by
        rw [List.pairwise_cons, List.pairwise_append] at h
        exact h.2.1) rfl
      simp only [List.map_cons, List.map_append, List.map_nil, List.sum_cons, List.sum_append, List.sum_nil]
      have hs' : (a : ℝ) + l.length + 1 ≤ b := by exact_mod_cast hs
      have hn' : (n : ℝ) = l.length + 2 := by exact_mod_cast hl.symm
      have h2 : ((l.length : ℝ) + 1) ^ 2 ≤ ((b : ℝ) - a) ^ 2 := pow_le_pow_left₀ (by positivity) (by linarith) 2
      have h3 : ((b : ℝ) - a) ^ 2 / 2 ≤ (a - c) ^ 2 + (b - c) ^ 2 := by nlinarith [sq_nonneg ((a : ℝ) + b - 2 * c)]
      rw [hn']
      nlinarith

/-- There is a best fit. -/
theorem exists_leastSquares (ps : List (ℝ × ℝ)) {x x' : ℝ} (hx : x ∈ ps.map Prod.fst) (hx' : x' ∈ ps.map Prod.fst) (hne : x ≠ x') :
    ∃ m c, LeastSquares ps m c := by
  have quad : ∀ m c : ℝ, sqDist ps m c = (ps.map fun p => p.2 ^ 2).sum - 2 * m * (ps.map fun p => p.1 * p.2).sum - 2 * c * (ps.map fun p => p.2).sum +
      m ^ 2 * (ps.map fun p => p.1 ^ 2).sum + 2 * m * c * (ps.map fun p => p.1).sum + c ^ 2 * ps.length := by
    intro m c
    clear hx hx'
    induction ps with
    | nil => simp [sqDist]
    | cons p ps ih =>
      simp only [sqDist, List.map_cons, List.sum_cons, List.length_cons] at ih ⊢
      rw [ih]
      push_cast
      ring
  set n : ℝ := (ps.length : ℝ) with hn
  set X := (ps.map fun p => p.1).sum
  set Q := (ps.map fun p => p.1 ^ 2).sum
  set Y := (ps.map fun p => p.2).sum
  set R := (ps.map fun p => p.1 * p.2).sum
  have hdet : ∀ m c : ℝ, lineDist ps m c = m ^ 2 * Q + 2 * m * c * X + c ^ 2 * n := by
    intro m c
    have : ∀ ps : List (ℝ × ℝ), lineDist ps m c = m ^ 2 * (ps.map fun p => p.1 ^ 2).sum + 2 * m * c * (ps.map fun p => p.1).sum + c ^ 2 * ps.length := by
      intro ps
      induction ps with
      | nil => simp [lineDist]
      | cons p ps ih =>
        simp only [lineDist, List.map_cons, List.sum_cons, List.length_cons] at ih ⊢
        rw [ih]
        push_cast
        ring
    exact this ps
  have nonneg : ∀ m c : ℝ, 0 ≤ lineDist ps m c := fun m c =>
    List.sum_nonneg fun x hx => by obtain ⟨p, -, rfl⟩ := List.mem_map.1 hx; positivity
  have n0 : 0 < n := by
    have : ps ≠ [] := by rintro rfl; simp at hx
    rw [hn]
    exact_mod_cast List.length_pos_iff.2 this
  have d0 : 0 < n * Q - X ^ 2 := by
    have h1 := nonneg n (-X)
    have e1 : lineDist ps n (-X) = n * (n * Q - X ^ 2) := by rw [hdet]; ring
    by_contra hc
    push Not at hc
    have h0 : lineDist ps n (-X) = 0 := le_antisymm (by rw [e1]; nlinarith) h1
    have hz : ∀ p ∈ ps, n * p.1 + -X = 0 := by
      intro p hp
      have := (List.all_zero_of_le_zero_le_of_sum_eq_zero (l := ps.map fun p : ℝ × ℝ => (n * p.1 + -X) ^ 2)
        (fun x hx => by obtain ⟨p, -, rfl⟩ := List.mem_map.1 hx; positivity) h0) (List.mem_map_of_mem hp)
      exact pow_eq_zero_iff two_ne_zero |>.1 this
    obtain ⟨p, hp, rfl⟩ := List.mem_map.1 hx
    obtain ⟨q, hq, rfl⟩ := List.mem_map.1 hx'
    have h3 := hz p hp
    have h4 := hz q hq
    exact hne (mul_left_cancel₀ n0.ne' (by linarith))
  refine ⟨(n * R - X * Y) / (n * Q - X ^ 2), (Q * Y - X * R) / (n * Q - X ^ 2), fun m' c' => ?_⟩
  set m := (n * R - X * Y) / (n * Q - X ^ 2)
  set c := (Q * Y - X * R) / (n * Q - X ^ 2)
  have hm : m * (n * Q - X ^ 2) = n * R - X * Y := div_mul_cancel₀ _ d0.ne'
  have hc : c * (n * Q - X ^ 2) = Q * Y - X * R := div_mul_cancel₀ _ d0.ne'
  have eR : R = m * Q + c * X := mul_right_cancel₀ d0.ne' (by linear_combination (-Q) * hm - X * hc)
  have eY : Y = m * X + c * n := mul_right_cancel₀ d0.ne' (by linear_combination (-X) * hm - n * hc)
  have h1 := nonneg (m' - m) (c' - c)
  rw [hdet] at h1
  rw [quad, quad, eR, eY]
  nlinarith

end PiCF.Spec
