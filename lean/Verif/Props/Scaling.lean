import Verif.Props.Mirror
import Verif.Props.ContFracConv
import Verif.Props.MitmFilters
import Verif.Props.Estimator

/-!
# C146: multiplying `a` by `c` and `b` by `c²` multiplies the value by `c`
-/

namespace PiCF
open PiCF.Spec PiCF.Mitm PiCF.Lhs PiCF.ContFrac

/-- Multiply every coefficient of every polynomial. -/
def mulCoeffs (c : ℤ) (cs : List (List ℤ)) : List (List ℤ) := cs.map fun p => p.map fun k => c * k

/-- Multiply a result. -/
def timesNum (c : ℤ) : Num → Num
  | .fin x => .fin (c * x)
  | x => x

theorem horner_scaled (c : ℤ) (cs : List ℤ) (x : ℤ) : horner (cs.map fun k => c * k) x = c * horner cs x := by
  induction cs with
  | nil => simp [horner]
  | cons d cs ih => rw [List.map_cons, horner, horner, ih]; ring

theorem seqAt_scaled (c : ℤ) (cs : List (List ℤ)) (i : ℕ) : seqAt (mulCoeffs c cs) i = c * seqAt cs i := by
  unfold seqAt mulCoeffs
  rw [List.length_map, List.getD_eq_getElem?_getD, List.getElem?_map, List.getD_eq_getElem?_getD]
  rcases cs[i % cs.length]? with _ | p
  · simp [horner]
  · exact horner_scaled c p i

theorem cont_scaled (c : ℤ) (a b : ℕ → ℤ) : ∀ n, contP (fun i => c * a i) (fun i => c ^ 2 * b i) n = c ^ n * contP a b n ∧
    c * contQ (fun i => c * a i) (fun i => c ^ 2 * b i) n = c ^ n * contQ a b n ∧
    contP (fun i => c * a i) (fun i => c ^ 2 * b i) (n + 1) = c ^ (n + 1) * contP a b (n + 1) ∧
    c * contQ (fun i => c * a i) (fun i => c ^ 2 * b i) (n + 1) = c ^ (n + 1) * contQ a b (n + 1) := by
  intro n
  induction n with
  | zero => simp [contP, contQ]
  | succ n ih =>
    obtain ⟨h1, h2, h3, h4⟩ := ih
    refine ⟨h3, h4, ?_, ?_⟩
    · rw [contP, h1, h3, contP]; ring
    · rw [contQ, contQ]
      linear_combination (c * a (n + 1)) * h4 + (c ^ 2 * b (n + 1)) * h2

theorem stepsBefore_scaled {c : ℤ} (hc : c ≠ 0) (z : Bool) (b : Coeffs) : ∀ k n, stepsBefore z (mulCoeffs (c ^ 2) b) k n = stepsBefore z b k n := by
  intro k n
  induction n generalizing k with
  | zero => rfl
  | succ n ih =>
    rw [stepsBefore, stepsBefore, ih, seqAt_scaled]
    simp only [mul_eq_zero, pow_ne_zero 2 hc, false_or]

/-- **C146 (result).** After any number of iterations the result of an object for `c * a` and `c² * b` is `c` times that for `a` and `b` (NaN for NaN), with the
same exceptions. -/
theorem C146_result {c : ℤ} (hc : c ≠ 0) {a b : Coeffs} {z : Bool} {s t : CF} (hs : init a b z none false = .ok s)
    (ht : init (mulCoeffs c a) (mulCoeffs (c ^ 2) b) z none false = .ok t) (n : ℕ) :
    (genIterations (n : ℤ) true t).2 = (genIterations (n : ℤ) true s).2 ∧
    ((genIterations (n : ℤ) true s).2 = .ok () →
      getResult (genIterations (n : ℤ) true t).1 = timesNum c (getResult (genIterations (n : ℤ) true s).1)) := by
  obtain ⟨hw, rfl⟩ := init_fresh hs
  obtain ⟨hw', rfl⟩ := init_fresh ht
  have hc2 : c ^ 2 ≠ 0 := pow_ne_zero _ hc
  have hb : seqAt (mulCoeffs (c ^ 2) b) = fun i => c ^ 2 * seqAt b i := funext (seqAt_scaled _ b)
  have ha : seqAt (mulCoeffs c a) = fun i => c * seqAt a i := funext (seqAt_scaled _ a)
  rw [genIterations_eq, genIterations_eq, fresh_reset, fresh_reset,
    addIterations_closed (fresh_synced hw z false), addIterations_closed (fresh_synced hw' z false)]
  simp only [show (fresh a b z false).avoidZeroB = z from rfl, show (fresh (mulCoeffs c a) (mulCoeffs (c ^ 2) b) z false).avoidZeroB = z from rfl,
    show (fresh a b z false).logging = false from rfl, show (fresh (mulCoeffs c a) (mulCoeffs (c ^ 2) b) z false).logging = false from rfl]
  rw [stepsBefore_scaled hc]
  split
  · simp only [Bool.false_eq_true, if_false, if_true, true_and]
    intro _
    simp only [getResult, List.getLastD_cons, List.getLastD_nil, Nat.zero_add]
    obtain ⟨-, -, h3, h4⟩ := cont_scaled c (seqAt a) (seqAt b) n
    rw [convVal, convVal, ha, hb, h3, quotient, quotient]
    by_cases hq : contQ (seqAt a) (seqAt b) (n + 1) = 0
    · have h0 : contQ (fun i => c * seqAt a i) (fun i => c ^ 2 * seqAt b i) (n + 1) = 0 := by
        rw [hq, mul_zero] at h4
        exact (mul_eq_zero.1 h4).resolve_left hc
      rw [if_pos h0, if_pos hq]
      rfl
    · have h0 : contQ (fun i => c * seqAt a i) (fun i => c ^ 2 * seqAt b i) (n + 1) ≠ 0 := by
        intro h0
        rw [h0, mul_zero] at h4
        exact mul_ne_zero (pow_ne_zero _ hc) hq h4.symm
      rw [if_neg h0, if_neg hq, timesNum]
      congr 1
      have hq' : (contQ (seqAt a) (seqAt b) (n + 1) : ℚ) ≠ 0 := by exact_mod_cast hq
      have h0' : (contQ (fun i => c * seqAt a i) (fun i => c ^ 2 * seqAt b i) (n + 1) : ℚ) ≠ 0 := by exact_mod_cast h0
      have h4' : (c : ℚ) * contQ (fun i => c * seqAt a i) (fun i => c ^ 2 * seqAt b i) (n + 1) = (c : ℚ) ^ (n + 1) * contQ (seqAt a) (seqAt b) (n + 1) := by
        exact_mod_cast h4
      rw [mul_div_assoc', div_eq_div_iff h0' hq']
      push_cast
      linear_combination (-(contP (seqAt a) (seqAt b) (n + 1) : ℚ)) * h4'
  · exact ⟨rfl, fun h => by cases h⟩

/-- `1 + 2·1/(3 + …)` and `2 + 8·1/(6 + …)`. -/
example : ∃ s t, init [[1, 2]] [[0, 0, 1]] true none false = .ok s ∧ init (mulCoeffs 2 [[1, 2]]) (mulCoeffs (2 ^ 2) [[0, 0, 1]]) true none false = .ok t ∧
    (genIterations (3 : ℕ) true s).2 = .ok () := ⟨_, _, rfl, rfl, rfl⟩

theorem evalLoop_scaled {c : ℚ} (hc : c ≠ 0) : ∀ (l : List (ℚ × ℚ)) (r : ℚ),
    evalLoop (l.map fun x => (c * x.1, c ^ 2 * x.2)) (c * r) = (evalLoop l r).map fun x => c * x
  | [], _ => rfl
  | (a, b) :: l, r => by
    rw [List.map_cons, evalLoop, evalLoop]
    by_cases h : r = 0
    · rw [if_pos h, if_pos (by rw [h, mul_zero])]; rfl
    · rw [if_neg h, if_neg (mul_ne_zero hc h), ← evalLoop_scaled hc l]
      congr 1
      field_simp

theorem values_scaled (c : ℤ) (cs : Coeffs) (i : ℕ) :
    Utils.subsInPolynom (((mulCoeffs c cs).getD (i % (mulCoeffs c cs).length) []).map (Int.cast : ℤ → ℚ)) (i : ℚ) =
      c * Utils.subsInPolynom ((cs.getD (i % cs.length) []).map (Int.cast : ℤ → ℚ)) (i : ℚ) := by
  have := seqAt_scaled c cs i
  rw [seqAt, seqAt] at this
  rw [Utils.subsInPolynom_eq_horner, Utils.subsInPolynom_eq_horner]
  have e : ((i : ℕ) : ℚ) = (((i : ℕ) : ℤ) : ℚ) := by push_cast; rfl
  rw [e, horner_cast, horner_cast, this]
  push_cast
  rfl

/-- **C146 (table).** The same for the value under which the hash table stores the continued fraction. -/
theorem C146_eval {c : ℤ} (hc : c ≠ 0) (a b : Coeffs) {depth : ℕ} (hd : 1 ≤ depth) :
    evalByPolys (mulCoeffs c a) (mulCoeffs (c ^ 2) b) depth = (evalByPolys a b depth).map fun x => (c : ℚ) * x := by
  rw [evalByPolys, evalByPolys]
  have hn : (mulCoeffs c a = [] ∨ mulCoeffs (c ^ 2) b = []) ↔ (a = [] ∨ b = []) := by simp [mulCoeffs]
  by_cases h : a = [] ∨ b = []
  · rw [if_pos h, if_pos (hn.2 h)]; rfl
  · rw [if_neg h, if_neg (mt hn.1 h)]
    simp only [values_scaled]
    generalize hX : (List.range depth).map (fun i => Utils.subsInPolynom ((a.getD (i % a.length) []).map (Int.cast : ℤ → ℚ)) (i : ℚ)) = X
    generalize hY : (List.range' 1 (depth - 1)).map (fun i => Utils.subsInPolynom ((b.getD (i % b.length) []).map (Int.cast : ℤ → ℚ)) (i : ℚ)) = Y
    have hX' : (List.range depth).map (fun i => (c : ℚ) * Utils.subsInPolynom ((a.getD (i % a.length) []).map (Int.cast : ℤ → ℚ)) (i : ℚ)) =
        X.map fun x => (c : ℚ) * x := by rw [← hX, List.map_map]; rfl
    have hY' : (List.range' 1 (depth - 1)).map (fun i => ((c ^ 2 : ℤ) : ℚ) * Utils.subsInPolynom ((b.getD (i % b.length) []).map (Int.cast : ℤ → ℚ)) (i : ℚ)) =
        Y.map fun x => (c : ℚ) ^ 2 * x := by rw [← hY, List.map_map]; push_cast; rfl
    rw [hX', hY']
    have hXl : X.length = depth := by rw [← hX]; simp
    have hYl : Y.length = depth - 1 := by rw [← hY]; simp
    rw [evalContfrac, evalContfrac]
    simp only [List.length_map]
    rw [if_neg (show ¬X.length = Y.length by omega), if_pos (show X.length = Y.length + 1 by omega),
      if_neg (show ¬X.length = Y.length by omega), if_pos (show X.length = Y.length + 1 by omega), ← evalLoop_scaled (by exact_mod_cast hc)]
    congr 1
    · rw [← List.map_dropLast, ← List.map_reverse, ← List.map_reverse, List.zip_map]
      rfl
    · rw [List.getLastD_eq_getLast?, List.getLastD_eq_getLast?, List.getLast?_map]
      cases X.getLast? <;> simp

/-- The hypotheses are met; `1 + 1/3` becomes `2 + 4/6`. -/
example : (2 : ℤ) ≠ 0 ∧ 1 ≤ 2 ∧ evalByPolys [[1, 2]] [[0, 0, 1]] 2 = .ok (4 / 3) ∧
    evalByPolys (mulCoeffs 2 [[1, 2]]) (mulCoeffs (2 ^ 2) [[0, 0, 1]]) 2 = .ok (8 / 3) := by
  have h : evalByPolys [[1, 2]] [[0, 0, 1]] 2 = .ok (4 / 3) := by decide +kernel
  refine ⟨by decide, by decide, h, ?_⟩
  rw [C146_eval (by decide) _ _ (by decide), h]
  norm_num [Except.map]

theorem compare_scaled {u v x y x' y' : ℤ} (hu : 0 < u) (hv : 0 < v) (h1 : u * x' = v * x) (h2 : u * y' = v * y) :
    17 * x' < 16 * y' ↔ 17 * x < 16 * y := by
  constructor
  · intro h
    have : u * (17 * x') < u * (16 * y') := mul_lt_mul_of_pos_left h hu
    have : v * (17 * x) < v * (16 * y) := by linarith
    exact lt_of_mul_lt_mul_left this hv.le
  · intro h
    have : v * (17 * x) < v * (16 * y) := mul_lt_mul_of_pos_left h hv
    have : u * (17 * x') < u * (16 * y') := by linarith
    exact lt_of_mul_lt_mul_left this hu.le

theorem shrinks_scaled {c : ℤ} (hc : c ≠ 0) (a b : ℕ → ℤ) (m : ℕ) : Shrinks (fun i => c * a i) (fun i => c ^ 2 * b i) m ↔ Shrinks a b m := by
  have hp := fun n => (cont_scaled c a b n).1
  have hq := fun n => (cont_scaled c a b n).2.1
  have e1 : ∀ i j k, c ^ 2 * (contQ (fun i => c * a i) (fun i => c ^ 2 * b i) i * (contP (fun i => c * a i) (fun i => c ^ 2 * b i) j *
      contQ (fun i => c * a i) (fun i => c ^ 2 * b i) k - contP (fun i => c * a i) (fun i => c ^ 2 * b i) k *
      contQ (fun i => c * a i) (fun i => c ^ 2 * b i) j)) = c ^ (i + j + k) * (contQ a b i * (contP a b j * contQ a b k - contP a b k * contQ a b j)) := by
    intro i j k
    rw [hp, hp]
    have hi := hq i
    have hj := hq j
    have hk := hq k
    calc _ = (c * contQ (fun i => c * a i) (fun i => c ^ 2 * b i) i) * (c ^ j * contP a b j * (c * contQ (fun i => c * a i) (fun i => c ^ 2 * b i) k) -
        c ^ k * contP a b k * (c * contQ (fun i => c * a i) (fun i => c ^ 2 * b i) j)) := by ring
      _ = _ := by rw [hi, hj, hk]; ring
  have pos : 0 < |c ^ 2| := abs_pos.2 (pow_ne_zero _ hc)
  have pos' : 0 < |c ^ (m + (m + 4) + (m + 2))| := abs_pos.2 (pow_ne_zero _ hc)
  have f1 := congrArg abs (e1 m (m + 4) (m + 2))
  have f2 := congrArg abs (e1 (m + 4) (m + 2) m)
  rw [show m + 4 + (m + 2) + m = m + (m + 4) + (m + 2) by omega] at f2
  rw [abs_mul, abs_mul (c ^ _)] at f1 f2
  exact compare_scaled pos pos' f1 f2

/-- The matrices of the two objects after the same `n` iterations. -/
structure MatRel (c : ℤ) (n : ℕ) (m m' : Mat) : Prop where
  p : m'.1.1 = c ^ (n + 1) * m.1.1
  p0 : m'.1.2 = c ^ n * m.1.2
  q : c * m'.2.1 = c ^ (n + 1) * m.2.1
  q0 : c * m'.2.2 = c ^ n * m.2.2

theorem coeffAt_scaled (c : ℤ) (cs : Coeffs) (i : ℤ) : coeffAt (mulCoeffs c cs) i = (coeffAt cs i).map fun x => c * x := by
  unfold coeffAt mulCoeffs
  by_cases h : cs = []
  · subst h; rfl
  · rw [if_neg h, if_neg (by simpa using h), List.length_map, List.getD_eq_getElem?_getD, List.getElem?_map, List.getD_eq_getElem?_getD,
      Utils.subsInPolynom_eq_horner, Utils.subsInPolynom_eq_horner]
    rcases cs[(i.fmod cs.length).toNat]? with _ | p
    · simp [horner, Except.map]
    · simp only [Option.map_some, Option.getD_some, Except.map]
      rw [horner_scaled]

theorem promo_scaled {c : ℤ} (hc : c ≠ 0) (z : Bool) (i : ℤ) (a b : Coeffs) :
    promoMatGen z i (mulCoeffs c a) (mulCoeffs (c ^ 2) b) = (promoMatGen z i a b).map fun x => (c * x.1, c ^ 2 * x.2) := by
  rw [promoMatGen, promoMatGen, coeffAt_scaled, coeffAt_scaled]
  rcases coeffAt a i with e | x
  · rfl
  · rcases coeffAt b i with e | y
    · rfl
    · have h : ((c ^ 2 * y : ℤ) == 0) = (y == 0) := by
        rw [Bool.eq_iff_iff, beq_iff_eq, beq_iff_eq, mul_eq_zero, or_iff_right (pow_ne_zero 2 hc)]
      simp only [Except.map, h]
      split <;> rfl

theorem addLoop_sim {c : ℤ} {s t : CF} (hl : s.logging = false) (hl' : t.logging = false) (hx : t.executed = s.executed)
    (hz : t.avoidZeroB = s.avoidZeroB) {ps qs : Params}
    (hp : ∀ z i, promoMatGen z i qs.a qs.b = (promoMatGen z i ps.a ps.b).map fun x => (c * x.1, c ^ 2 * x.2)) :
    ∀ (k i n : ℕ) (m m' : Mat), MatRel c n m m' →
      (∃ e, addLoop k i ps m s = (s, .error e) ∧ addLoop k i qs m' t = (t, .error e)) ∨
      ∃ m₁ m₁', addLoop k i ps m s = (s, .ok (ps, m₁)) ∧ addLoop k i qs m' t = (t, .ok (qs, m₁')) ∧ MatRel c (n + k) m₁ m₁'
  | 0, _, _, m, m', h => .inr ⟨m, m', rfl, rfl, h⟩
  | k + 1, i, n, m, m', h => by
    rw [addLoop, addLoop, hx, hz, hl, hl', iterationAlgorithm, iterationAlgorithm, hp]
    rcases promoMatGen s.avoidZeroB ((i : ℤ) + s.executed + 1) ps.a ps.b with e | ⟨x, y⟩
    · exact .inl ⟨e, rfl, rfl⟩
    · simp only [Except.map, Bool.false_eq_true, if_false]
      have := addLoop_sim hl hl' hx hz hp k (i + 1) (n + 1) ((m.1.1 * x + m.1.2 * y, m.1.1), (m.2.1 * x + m.2.2 * y, m.2.1))
        ((m'.1.1 * (c * x) + m'.1.2 * (c ^ 2 * y), m'.1.1), (m'.2.1 * (c * x) + m'.2.2 * (c ^ 2 * y), m'.2.1))
        ⟨by show m'.1.1 * (c * x) + m'.1.2 * (c ^ 2 * y) = c ^ (n + 1 + 1) * (m.1.1 * x + m.1.2 * y)
            rw [h.p, h.p0]; ring,
          h.p, by
            show c * (m'.2.1 * (c * x) + m'.2.2 * (c ^ 2 * y)) = c ^ (n + 1 + 1) * (m.2.1 * x + m.2.2 * y)
            linear_combination (c * x) * h.q + (c ^ 2 * y) * h.q0,
          h.q⟩
      rwa [show n + 1 + k = n + (k + 1) by omega] at this

/-- The two objects after the same `n` iterations. -/
structure Sim (c : ℤ) (n : ℕ) (s t : CF) : Prop where
  mat : MatRel c n (s.mats.getLastD s.first) (t.mats.getLastD t.first)
  ex : t.executed = s.executed
  av : t.avoidZeroB = s.avoidZeroB
  ls : s.logging = false
  lt : t.logging = false
  promo : ∀ z i, promoMatGen z i (t.logs.getLastD t.params).a (t.logs.getLastD t.params).b =
    (promoMatGen z i (s.logs.getLastD s.params).a (s.logs.getLastD s.params).b).map fun x => (c * x.1, c ^ 2 * x.2)

theorem add_sim {c : ℤ} {n : ℕ} {s t : CF} (h : Sim c n s t) (k : ℤ) (fin : Bool) :
    (∃ e, addIterations k fin s = (s, .error e) ∧ addIterations k fin t = (t, .error e)) ∨
    ∃ s' t', addIterations k fin s = (s', .ok ()) ∧ addIterations k fin t = (t', .ok ()) ∧ Sim c (n + k.toNat) s' t' := by
  rw [addIterations, addIterations]
  rcases addLoop_sim h.ls h.lt h.ex h.av h.promo k.toNat 0 n _ _ h.mat with ⟨e, e1, e2⟩ | ⟨m, m', e1, e2, hm⟩
  · exact .inl ⟨e, by simp only [e1], by simp only [e2]⟩
  · refine .inr ⟨_, _, by simp only [e1]; rfl, by simp only [e2]; rfl, ?_⟩
    have h1 := h.promo
    have h3 := h.ex
    have h4 := h.av
    have h5 := h.ls
    have h6 := h.lt
    simp only [h5, h6, Bool.false_eq_true, if_false]
    refine ⟨hm, by simp only [h3], h4, rfl, rfl, ?_⟩
    cases fin <;> exact h1

theorem slow_sim {c : ℤ} (hc : c ≠ 0) {n : ℕ} {s0 s2 s4 t0 t2 t4 : CF} (h0 : Sim c n s0 t0) (h2 : Sim c (n + 1 + 1) s2 t2)
    (h4 : Sim c (n + 1 + 1 + 1 + 1) s4 t4) : slowTest (getPQ t0) (getPQ t2) (getPQ t4) = slowTest (getPQ s0) (getPQ s2) (getPQ s4) := by
  have pos : 0 < |c ^ 2| := abs_pos.2 (pow_ne_zero _ hc)
  have pos' : 0 < |c ^ (n + (n + 2) + (n + 4))| := abs_pos.2 (pow_ne_zero _ hc)
  have e1 : c ^ 2 * ((getPQ t4).2 * ((getPQ t2).1 * (getPQ t0).2 - (getPQ t0).1 * (getPQ t2).2)) =
      c ^ (n + (n + 2) + (n + 4)) * ((getPQ s4).2 * ((getPQ s2).1 * (getPQ s0).2 - (getPQ s0).1 * (getPQ s2).2)) := by
    have p0 := h0.mat.p0; have p2 := h2.mat.p0
    have q0 := h0.mat.q0; have q2 := h2.mat.q0; have q4 := h4.mat.q0
    simp only [getPQ]
    calc _ = (c * (t4.mats.getLastD t4.first).2.2) * ((t2.mats.getLastD t2.first).1.2 * (c * (t0.mats.getLastD t0.first).2.2) -
          (t0.mats.getLastD t0.first).1.2 * (c * (t2.mats.getLastD t2.first).2.2)) := by ring
      _ = _ := by rw [p0, p2, q0, q2, q4]; ring
  have e2 : c ^ 2 * ((getPQ t0).2 * ((getPQ t4).1 * (getPQ t2).2 - (getPQ t2).1 * (getPQ t4).2)) =
      c ^ (n + (n + 2) + (n + 4)) * ((getPQ s0).2 * ((getPQ s4).1 * (getPQ s2).2 - (getPQ s2).1 * (getPQ s4).2)) := by
    have p4 := h4.mat.p0; have p2 := h2.mat.p0
    have q0 := h0.mat.q0; have q2 := h2.mat.q0; have q4 := h4.mat.q0
    simp only [getPQ]
    calc _ = (c * (t0.mats.getLastD t0.first).2.2) * ((t4.mats.getLastD t4.first).1.2 * (c * (t2.mats.getLastD t2.first).2.2) -
          (t2.mats.getLastD t2.first).1.2 * (c * (t4.mats.getLastD t4.first).2.2)) := by ring
      _ = _ := by rw [p4, p2, q0, q2, q4]; ring
  have f1 := congrArg abs e1
  have f2 := congrArg abs e2
  rw [abs_mul, abs_mul (c ^ _)] at f1 f2
  have := compare_scaled pos pos' f2 f1
  have key : ∀ x y : ℤ, (x - y ≤ y.fdiv 16) ↔ ¬ 17 * y < 16 * x := by
    intro x y
    rw [Int.fdiv_eq_ediv_of_nonneg _ (show (0:ℤ) ≤ 16 by decide)]
    omega
  rw [slowTest, slowTest]
  simp only [key, this]

theorem fastLoop_sim {c : ℤ} (hc : c ≠ 0) (step : ℤ) : ∀ (k n : ℕ) (s t : CF), Sim c n s t → (fastLoop step k t).2 = (fastLoop step k s).2
  | 0, _, _, _, _ => rfl
  | k + 1, n, s, t, h => by
    have get : ∀ u : CF, (PyM.get : PyM CF CF) u = (u, .ok u) := fun _ => rfl
    rw [fastLoop, PyM.bind_ok (get s), PyM.bind_ok (get t)]
    rcases add_sim h 1 false with ⟨e, e1, e2⟩ | ⟨s1, t1, e1, e2, h1⟩
    · rw [PyM.bind_error e1, PyM.bind_error e2]
    rw [PyM.bind_ok e1, PyM.bind_ok e2, PyM.bind_ok (get s1), PyM.bind_ok (get t1)]
    rcases add_sim h1 1 false with ⟨e, e1, e2⟩ | ⟨s2, t2, e1, e2, h2⟩
    · rw [PyM.bind_error e1, PyM.bind_error e2]
    rw [PyM.bind_ok e1, PyM.bind_ok e2, PyM.bind_ok (get s2), PyM.bind_ok (get t2)]
    rcases add_sim h2 1 false with ⟨e, e1, e2⟩ | ⟨s3, t3, e1, e2, h3⟩
    · rw [PyM.bind_error e1, PyM.bind_error e2]
    rw [PyM.bind_ok e1, PyM.bind_ok e2, PyM.bind_ok (get s3), PyM.bind_ok (get t3)]
    rcases add_sim h3 1 false with ⟨e, e1, e2⟩ | ⟨s4, t4, e1, e2, h4⟩
    · rw [PyM.bind_error e1, PyM.bind_error e2]
    rw [PyM.bind_ok e1, PyM.bind_ok e2, PyM.bind_ok (get s4), PyM.bind_ok (get t4)]
    rcases add_sim h4 1 false with ⟨e, e1, e2⟩ | ⟨s5, t5, e1, e2, h5⟩
    · rw [PyM.bind_error e1, PyM.bind_error e2]
    rw [PyM.bind_ok e1, PyM.bind_ok e2, PyM.bind_ok (get s5), PyM.bind_ok (get t5), slow_sim hc h h2 h4, slow_sim hc h1 h3 h5]
    split
    · rfl
    · rcases add_sim h5 (step - 5) false with ⟨e, e1, e2⟩ | ⟨s6, t6, e1, e2, h6⟩
      · rw [PyM.bind_error e1, PyM.bind_error e2]
      · rw [PyM.bind_ok e1, PyM.bind_ok e2]
        exact fastLoop_sim hc step k _ s6 t6 h6

theorem init_sim {c : ℤ} (hc : c ≠ 0) {a b : Coeffs} {z : Bool} {s t : CF} (hs : init a b z none false = .ok s)
    (ht : init (mulCoeffs c a) (mulCoeffs (c ^ 2) b) z none false = .ok t) : Sim c 0 s.reset t.reset := by
  obtain ⟨hw, rfl⟩ := init_fresh hs
  obtain ⟨hw', rfl⟩ := init_fresh ht
  refine ⟨⟨?_, ?_, ?_, ?_⟩, rfl, rfl, rfl, rfl, fun z i => promo_scaled hc z i a b⟩
  · show contP (seqAt (mulCoeffs c a)) (seqAt (mulCoeffs (c ^ 2) b)) 1 = c ^ (0 + 1) * contP (seqAt a) (seqAt b) 1
    simp [contP, seqAt_scaled]
  · show contP (seqAt (mulCoeffs c a)) (seqAt (mulCoeffs (c ^ 2) b)) 0 = c ^ 0 * contP (seqAt a) (seqAt b) 0
    simp [contP]
  · show c * contQ (seqAt (mulCoeffs c a)) (seqAt (mulCoeffs (c ^ 2) b)) 1 = c ^ (0 + 1) * contQ (seqAt a) (seqAt b) 1
    simp [contQ]
  · show c * contQ (seqAt (mulCoeffs c a)) (seqAt (mulCoeffs (c ^ 2) b)) 0 = c ^ 0 * contQ (seqAt a) (seqAt b) 0
    simp [contQ]

theorem fast_sim {c : ℤ} (hc : c ≠ 0) {s t : CF} (h : Sim c 0 s.reset t.reset) (iters cutoff step : ℤ) :
    (isConvergenceFast iters cutoff step t).2 = (isConvergenceFast iters cutoff step s).2 := by
  have zero : ∀ u : CF, ∃ v, genIterations 0 true u = (v, .ok ()) := fun u => ⟨_, rfl⟩
  rw [isConvergenceFast]
  rcases add_sim h cutoff false with ⟨e, e1, e2⟩ | ⟨s1, t1, e1, e2, h1⟩
  · replace e1 : genIterations cutoff false s = _ := e1
    replace e2 : genIterations cutoff false t = _ := e2
    rw [PyM.bind_error e1, PyM.bind_error e2]
  replace e1 : genIterations cutoff false s = _ := e1
  replace e2 : genIterations cutoff false t = _ := e2
  rw [PyM.bind_ok e1, PyM.bind_ok e2]
  have e : (fastFor iters cutoff step t1).2 = (fastFor iters cutoff step s1).2 := by
    rw [fastFor]
    split
    · rfl
    · exact fastLoop_sim hc _ _ _ _ _ h1
  rcases e3 : fastFor iters cutoff step s1 with ⟨s2, r⟩
  rcases e4 : fastFor iters cutoff step t1 with ⟨t2, r'⟩
  rw [e3, e4] at e
  obtain rfl : r' = r := e
  cases r' with
  | error err => rw [PyM.bind_error e3, PyM.bind_error e4]
  | ok r =>
    obtain ⟨s3, e5⟩ := zero s2
    obtain ⟨t3, e6⟩ := zero t2
    rw [PyM.bind_ok e3, PyM.bind_ok e4, PyM.bind_ok e5, PyM.bind_ok e6]
    rfl

/-- **C146 (speed).** `is_convergence_fast` gives the same answer, or raises the same exception, for `c * a` and `c² * b` as for `a` and `b`, for all arguments. -/
theorem C146_fast {c : ℤ} (hc : c ≠ 0) {a b : Coeffs} {z : Bool} {s t : CF} (hs : init a b z none false = .ok s)
    (ht : init (mulCoeffs c a) (mulCoeffs (c ^ 2) b) z none false = .ok t) (iters cutoff step : ℤ) :
    (isConvergenceFast iters cutoff step t).2 = (isConvergenceFast iters cutoff step s).2 :=
  fast_sim hc (init_sim hc hs ht) iters cutoff step

/-- The hypotheses are met, also where a `b` is zero. -/
example : ∃ s t, init [[1]] [[3, -1]] true none false = .ok s ∧ init (mulCoeffs 3 [[1]]) (mulCoeffs (3 ^ 2) [[3, -1]]) true none false = .ok t ∧
    (isConvergenceFast 20 3 6 t).2 = .error (.zeroB 3) := ⟨_, _, rfl, rfl, by decide +kernel⟩

theorem quotient_scaled {c : ℤ} (hc : c ≠ 0) {n : ℕ} {m m' : Mat} (h : MatRel c n m m') :
    quotient m'.1.1 m'.2.1 = timesNum c (quotient m.1.1 m.2.1) := by
  have hp := h.p
  have hq := h.q
  rw [quotient, quotient]
  by_cases h0 : m.2.1 = 0
  · rw [h0, mul_zero] at hq
    rw [if_pos h0, if_pos ((mul_eq_zero.1 hq).resolve_left hc)]
    rfl
  · have h0' : m'.2.1 ≠ 0 := by
      intro h1
      rw [h1, mul_zero] at hq
      exact mul_ne_zero (pow_ne_zero _ hc) h0 hq.symm
    rw [if_neg h0, if_neg h0', timesNum]
    congr 1
    have h1 : (m.2.1 : ℚ) ≠ 0 := by exact_mod_cast h0
    have h2 : (m'.2.1 : ℚ) ≠ 0 := by exact_mod_cast h0'
    have h3 : (c : ℚ) * m'.2.1 = (c : ℚ) ^ (n + 1) * m.2.1 := by exact_mod_cast hq
    rw [mul_div_assoc', div_eq_div_iff h2 h1, hp]
    push_cast
    linear_combination (-(m.1.1 : ℚ)) * h3

/-- The two objects after the same `n` iterations, with their results. -/
def SimR (c : ℤ) (n : ℕ) (s t : CF) : Prop := Sim c n s t ∧ getResult t = timesNum c (getResult s)

theorem add_simR {c : ℤ} (hc : c ≠ 0) {n : ℕ} {s t : CF} (h : Sim c n s t) (k : ℤ) :
    (∃ e, addIterations k true s = (s, .error e) ∧ addIterations k true t = (t, .error e)) ∨
    ∃ s' t', addIterations k true s = (s', .ok ()) ∧ addIterations k true t = (t', .ok ()) ∧ SimR c (n + k.toNat) s' t' := by
  rcases add_sim h k true with he | ⟨s', t', e1, e2, h'⟩
  · exact .inl he
  · refine .inr ⟨s', t', e1, e2, h', ?_⟩
    rw [addIterations] at e1 e2
    rcases addLoop_sim h.ls h.lt h.ex h.av h.promo k.toNat 0 n _ _ h.mat with ⟨e, f1, f2⟩ | ⟨m, m', f1, f2, hm⟩
    · rw [f1] at e1; cases e1
    · simp only [f1, h.ls] at e1
      simp only [f2, h.lt] at e2
      obtain ⟨rfl, -⟩ := Prod.mk.inj e1
      obtain ⟨rfl, -⟩ := Prod.mk.inj e2
      exact quotient_scaled hc hm

/-- The results of two computations on the objects. -/
inductive Both {α : Type} (c : ℤ) (f : α → α) : CF × Except PyErr α → CF × Except PyErr α → Prop
  | error {s t : CF} (e : PyErr) : Both c f (s, .error e) (t, .error e)
  | ok {n : ℕ} {s t : CF} (x : α) : SimR c n s t → Both c f (s, .ok x) (t, .ok (f x))

theorem six_sim {c : ℤ} (hc : c ≠ 0) {n : ℕ} {s t : CF} (h : SimR c n s t) :
    Both c (List.map (timesNum c)) (sixResults s) (sixResults t) := by
  have get : ∀ u : CF, (PyM.get : PyM CF CF) u = (u, .ok u) := fun _ => rfl
  rw [sixResults, PyM.bind_ok (get s), PyM.bind_ok (get t)]
  rcases add_simR hc h.1 1 with ⟨e, e1, e2⟩ | ⟨s1, t1, e1, e2, h1⟩
  · rw [PyM.bind_error e1, PyM.bind_error e2]; exact .error e
  rw [PyM.bind_ok e1, PyM.bind_ok e2, PyM.bind_ok (get s1), PyM.bind_ok (get t1)]
  rcases add_simR hc h1.1 1 with ⟨e, e1, e2⟩ | ⟨s2, t2, e1, e2, h2⟩
  · rw [PyM.bind_error e1, PyM.bind_error e2]; exact .error e
  rw [PyM.bind_ok e1, PyM.bind_ok e2, PyM.bind_ok (get s2), PyM.bind_ok (get t2)]
  rcases add_simR hc h2.1 1 with ⟨e, e1, e2⟩ | ⟨s3, t3, e1, e2, h3⟩
  · rw [PyM.bind_error e1, PyM.bind_error e2]; exact .error e
  rw [PyM.bind_ok e1, PyM.bind_ok e2, PyM.bind_ok (get s3), PyM.bind_ok (get t3)]
  rcases add_simR hc h3.1 1 with ⟨e, e1, e2⟩ | ⟨s4, t4, e1, e2, h4⟩
  · rw [PyM.bind_error e1, PyM.bind_error e2]; exact .error e
  rw [PyM.bind_ok e1, PyM.bind_ok e2, PyM.bind_ok (get s4), PyM.bind_ok (get t4)]
  rcases add_simR hc h4.1 1 with ⟨e, e1, e2⟩ | ⟨s5, t5, e1, e2, h5⟩
  · rw [PyM.bind_error e1, PyM.bind_error e2]; exact .error e
  rw [PyM.bind_ok e1, PyM.bind_ok e2, PyM.bind_ok (get s5), PyM.bind_ok (get t5), h.2, h1.2, h2.2, h3.2, h4.2, h5.2]
  exact .ok _ h5

/-- The samples of the object with the multiplied polynomials. -/
def timesSamples (c : ℤ) (l : List (ℤ × List Num)) : List (ℤ × List Num) := l.map fun x => (x.1, x.2.map (timesNum c))

theorem sampleLoop_sim {c : ℤ} (hc : c ≠ 0) (step : ℤ) : ∀ (k n : ℕ) (i : ℤ) (s t : CF), SimR c n s t →
    Both c (timesSamples c) (sampleLoop step k i s) (sampleLoop step k i t)
  | 0, _, _, _, _, h => .ok _ h
  | k + 1, n, i, s, t, h => by
    rw [sampleLoop]
    rcases add_simR hc h.1 (step - 5) with ⟨e, e1, e2⟩ | ⟨s1, t1, e1, e2, h1⟩
    · rw [PyM.bind_error e1, PyM.bind_error e2]; exact .error e
    rw [PyM.bind_ok e1, PyM.bind_ok e2]
    rcases e3 : sixResults s1 with ⟨s2, r⟩
    rcases e4 : sixResults t1 with ⟨t2, r'⟩
    have h2 := six_sim hc h1
    rw [e3, e4] at h2
    cases h2 with
    | error e => rw [PyM.bind_error e3, PyM.bind_error e4]; exact .error e
    | ok rs h2 =>
      rw [PyM.bind_ok e3, PyM.bind_ok e4]
      rcases e5 : sampleLoop step k (i + step) s2 with ⟨s3, r⟩
      rcases e6 : sampleLoop step k (i + step) t2 with ⟨t3, r'⟩
      have h3 := sampleLoop_sim hc step k _ (i + step) s2 t2 h2
      rw [e5, e6] at h3
      cases h3 with
      | error e => rw [PyM.bind_error e5, PyM.bind_error e6]; exact .error e
      | ok l h3 =>
        rw [PyM.bind_ok e5, PyM.bind_ok e6]
        exact .ok _ h3

theorem samples_sim {c : ℤ} (hc : c ≠ 0) {s t : CF} (h : Sim c 0 s.reset t.reset) (iters cutoff step : ℤ) :
    (estimateSamples iters cutoff step t).2 = (estimateSamples iters cutoff step s).2.map (timesSamples c) := by
  rw [estimateSamples]
  rcases add_simR hc h cutoff with ⟨e, e1, e2⟩ | ⟨s1, t1, e1, e2, h1⟩
  · replace e1 : genIterations cutoff true s = _ := e1
    replace e2 : genIterations cutoff true t = _ := e2
    rw [PyM.bind_error e1, PyM.bind_error e2]; rfl
  replace e1 : genIterations cutoff true s = _ := e1
  replace e2 : genIterations cutoff true t = _ := e2
  rw [PyM.bind_ok e1, PyM.bind_ok e2]
  rcases e3 : sixResults s1 with ⟨s2, r⟩
  rcases e4 : sixResults t1 with ⟨t2, r'⟩
  have h2 := six_sim hc h1
  rw [e3, e4] at h2
  cases h2 with
  | error e => rw [PyM.bind_error e3, PyM.bind_error e4]; rfl
  | ok rs h2 =>
    rw [PyM.bind_ok e3, PyM.bind_ok e4]
    rcases e5 : sampleFor iters cutoff step s2 with ⟨s3, r⟩
    rcases e6 : sampleFor iters cutoff step t2 with ⟨t3, r'⟩
    have h3 : Both c (timesSamples c) (sampleFor iters cutoff step s2) (sampleFor iters cutoff step t2) := by
      rw [sampleFor]
      split
      · exact .error _
      · exact sampleLoop_sim hc _ _ _ _ _ _ h2
    rw [e5, e6] at h3
    cases h3 with
    | error e => rw [PyM.bind_error e5, PyM.bind_error e6]; rfl
    | ok l h3 =>
      rw [PyM.bind_ok e5, PyM.bind_ok e6]
      rfl

/-- **C146 (samples).** The results sampled by the estimator are multiplied by `c`, for all arguments, with the same exceptions. -/
theorem C146_samples {c : ℤ} (hc : c ≠ 0) {a b : Coeffs} {z : Bool} {s t : CF} (hs : init a b z none false = .ok s)
    (ht : init (mulCoeffs c a) (mulCoeffs (c ^ 2) b) z none false = .ok t) (iters cutoff step : ℤ) :
    (estimateSamples iters cutoff step t).2 = (estimateSamples iters cutoff step s).2.map (timesSamples c) :=
  samples_sim hc (init_sim hc hs ht) iters cutoff step

/-- A distance multiplied by `k`. -/
def timesDelta (k : ℚ) (d : Delta) : Delta := (d.1, d.2.map fun x => k * x)

/-- An estimate for distances multiplied by `k`: the same type and base, and `k` times the coefficient. -/
def timesEstimate (k : ℚ) (r : ApproachType × Option (ℚ × ℚ)) : ApproachType × Option (ℚ × ℚ) := (r.1, r.2.map fun p => (p.1, k * p.2))

theorem absDiff_scaled (c : ℤ) (x y : Num) : absDiff (timesNum c x) (timesNum c y) = (absDiff x y).map fun d => |(c : ℚ)| * d := by
  cases x <;> cases y <;> simp only [timesNum, absDiff, Option.map_some, Option.map_none]
  rw [← mul_sub, abs_mul]

theorem getD_times (c : ℤ) (l : List Num) (k : ℕ) : (l.map (timesNum c)).getD k .nan = timesNum c (l.getD k .nan) := by
  rw [List.getD_eq_getElem?_getD, List.getElem?_map, List.getD_eq_getElem?_getD]
  cases l[k]? <;> rfl

theorem deltas_scaled (c : ℤ) (l : List (ℤ × List Num)) :
    deltaPair (timesSamples c l) = (deltaPair l).map (timesDelta |(c : ℚ)|) ∧ deltaOdd (timesSamples c l) = (deltaOdd l).map (timesDelta |(c : ℚ)|) := by
  induction l with
  | nil => exact ⟨rfl, rfl⟩
  | cons x l ih =>
    obtain ⟨h1, h2⟩ := ih
    simp only [deltaPair, deltaOdd, timesSamples, List.map_cons, List.flatMap_cons, List.map_append] at h1 h2 ⊢
    rw [h1, h2]
    simp only [deltasOf, getD_times, absDiff_scaled]
    exact ⟨rfl, rfl⟩

theorem ratios_scaled {k : ℚ} (hk : k ≠ 0) : ∀ l : List Delta, ratios (l.map (timesDelta k)) = ratios l
  | [] => rfl
  | [_] => rfl
  | (i, x) :: (j, y) :: l => by
    have ih := ratios_scaled hk l
    simp only [List.map_cons, timesDelta] at ih ⊢
    rw [ratios, ratios]
    cases x with
    | none => simpa using ih
    | some x =>
      cases y with
      | none => simpa using ih
      | some y =>
        simp only [Option.map_some, ne_eq, mul_eq_zero, hk, false_or, mul_div_mul_left _ _ hk]
        split
        · exact congrArg _ ih
        · exact ih

theorem coeffList_scaled {k : ℚ} (hk : 0 < k) (p : ℚ) : ∀ l : List Delta, coeffList p (l.map (timesDelta k)) = (coeffList p l).map fun x => k * x
  | [] => rfl
  | (i, none) :: l => by
    simp only [List.map_cons, timesDelta, Option.map_none, coeffList]
    exact coeffList_scaled hk p l
  | (i, some x) :: l => by
    have ih := coeffList_scaled hk p l
    simp only [List.map_cons, timesDelta, Option.map_some, coeffList, ne_eq, mul_eq_zero, hk.ne', false_or] at ih ⊢
    split
    · rw [List.map_cons]
      congr 1
      rw [mul_assoc, mul_div_assoc, abs_mul, abs_of_pos hk]
    · exact ih

theorem mean_scaled (k : ℚ) (l : List ℚ) : ContFrac.mean (l.map fun x => k * x) = k * ContFrac.mean l := by
  rw [ContFrac.mean, ContFrac.mean, List.length_map, List.sum_map_mul_left, List.map_id', mul_div_assoc]

theorem classifyMeans_scaled {A : Analysis} {k : ℚ} (hk : 0 < k) (hA : ∀ x, 0 < A.toFloat (k * x) ↔ 0 < A.toFloat x) (sup : Bool)
    (dp dodd : List Delta) (mp mo : ℚ) :
    classifyMeans A sup (dp.map (timesDelta k)) (dodd.map (timesDelta k)) mp mo = (classifyMeans A sup dp dodd mp mo).map (timesEstimate k) := by
  have e1 : expParams A (dp.map (timesDelta k)) (dodd.map (timesDelta k)) mp mo = (expParams A dp dodd mp mo).map fun p => (p.1, k * p.2) := by
    rw [expParams, expParams]
    simp only [coeffList_scaled hk, List.map_eq_nil_iff, mean_scaled]
    split
    · rfl
    · split
      · rfl
      · rw [← mul_min_of_nonneg _ _ hk.le]; rfl
  have e2 : ∀ l : List Delta, (l.map (timesDelta k)).all (logOk A) = l.all (logOk A) := by
    intro l
    rw [List.all_map]
    congr 1
    funext d
    obtain ⟨i, x⟩ := d
    cases x with
    | none => rfl
    | some x => exact congrArg (decide (0 < i) && ·) (decide_eq_decide.2 (hA x))
  have e3 : polyParams A (dp.map (timesDelta k)) (dodd.map (timesDelta k)) = (polyParams A dp dodd).map (timesEstimate k) := by
    rw [polyParams, polyParams, e2, e2]
    split <;> rfl
  rw [classifyMeans, classifyMeans]
  split
  · rw [e1]
    rcases expParams A dp dodd mp mo with e | p <;> rfl
  · exact e3
  · rfl

/-- **C146 (estimate, partial).** One estimation gives the same type and base for `c * a` and `c² * b` as for `a` and `b`, and `|c|` times the coefficient, or the same
exception, if it finds at least six pairs of samples to compare and small distances are not rounded to zero.
Missing with respect to C146: with fewer pairs the distances are compared with a fixed number (`C146_estimate_violated`). -/
theorem C146_estimate_partial {c : ℤ} (hc : c ≠ 0) {a b : Coeffs} {z : Bool} {s t : CF} (hs : init a b z none false = .ok s)
    (ht : init (mulCoeffs c a) (mulCoeffs (c ^ 2) b) z none false = .ok t) (A : Analysis)
    (hA : ∀ x, 0 < A.toFloat (|(c : ℚ)| * x) ↔ 0 < A.toFloat x) (iters cutoff step : ℤ)
    (hn : ∀ l, (estimateSamples iters cutoff step s).2 = .ok l → 6 ≤ (ratios (deltaPair l)).length) :
    (innerAlg A iters cutoff step t).2 = (innerAlg A iters cutoff step s).2.map (timesEstimate |(c : ℚ)|) := by
  have hk : 0 < |(c : ℚ)| := abs_pos.2 (by exact_mod_cast hc)
  have h := C146_samples hc hs ht iters cutoff step
  rw [innerAlg]
  rcases e1 : estimateSamples iters cutoff step s with ⟨s1, r⟩
  rcases e2 : estimateSamples iters cutoff step t with ⟨t1, r'⟩
  rw [e1, e2] at h
  rw [e1] at hn
  simp only at h hn
  subst h
  cases r with
  | error e => rw [PyM.bind_error e1, PyM.bind_error (show _ = (t1, Except.error e) from e2)]; rfl
  | ok l =>
    rw [PyM.bind_ok e1, PyM.bind_ok (show _ = (t1, Except.ok (timesSamples c l)) from e2)]
    show classify A (deltaPair (timesSamples c l)) (deltaOdd (timesSamples c l)) = (classify A (deltaPair l) (deltaOdd l)).map (timesEstimate |(c : ℚ)|)
    obtain ⟨d1, d2⟩ := deltas_scaled c l
    have h6 := hn l rfl
    rw [d1, d2, classify, classify]
    simp only [ratios_scaled hk.ne', classifyMeans_scaled hk hA]
    have h7 : ¬ (ratios (deltaPair l)).length < 6 := by omega
    rw [if_neg h7, if_neg h7]
    split
    · rfl
    · split
      · rfl
      · split
        · split <;> rfl
        · rfl

theorem classify_not_fast {A : Analysis} {dp dodd : List Delta} (h : 6 ≤ (ratios dp).length) {r : ApproachType × Option (ℚ × ℚ)}
    (hr : classify A dp dodd = .ok r) : r.1 ≠ .fast := by
  have h7 : ¬ (ratios dp).length < 6 := by omega
  have hm : ∀ sup mp mo, classifyMeans A sup dp dodd mp mo = .ok r → r.1 ≠ .fast := by
    intro sup mp mo h
    rw [classifyMeans] at h
    split at h
    · split at h
      · cases h
      · cases h; cases sup <;> simp
    · rw [polyParams] at h
      split at h
      · cases h; simp
      · cases h
    · cases h; simp
  rw [classify] at hr
  simp only [h7, if_false] at hr
  split at hr
  · cases hr
  · split at hr
    · cases hr
    · split at hr
      · split at hr
        · exact hm _ _ _ hr
        · cases hr; simp
      · exact hm _ _ _ hr

/-- **C146 (type, partial).** The same for `estimate_approach_type_and_params`, if its first estimation finds at least six pairs of samples.
Missing with respect to C146: fewer pairs (`C146_estimate_violated`). -/
theorem C146_type_partial {c : ℤ} (hc : c ≠ 0) {a b : Coeffs} {z : Bool} {s t : CF} (hs : init a b z none false = .ok s)
    (ht : init (mulCoeffs c a) (mulCoeffs (c ^ 2) b) z none false = .ok t) (A : Analysis)
    (hA : ∀ x, 0 < A.toFloat (|(c : ℚ)| * x) ↔ 0 < A.toFloat x) (iters cutoff step : ℤ) (h0 : cutoff ≠ 0)
    (hn : ∀ l, (estimateSamples iters cutoff step s).2 = .ok l → 6 ≤ (ratios (deltaPair l)).length) :
    (estimateApproachObj A iters cutoff step t).2 = (estimateApproachObj A iters cutoff step s).2 ∧
    (estimateApproachObj A iters cutoff step t).1.approachType = (estimateApproachObj A iters cutoff step s).1.approachType ∧
    (estimateApproachObj A iters cutoff step t).1.approachParams =
      (estimateApproachObj A iters cutoff step s).1.approachParams.map fun p => (p.1, |(c : ℚ)| * p.2) := by
  have h := C146_estimate_partial hc hs ht A hA iters cutoff step hn
  rcases e1 : innerAlg A iters cutoff step s with ⟨s1, r⟩
  rcases e2 : innerAlg A iters cutoff step t with ⟨t1, r'⟩
  rw [e1, e2] at h
  simp only at h
  subst h
  cases r with
  | error e =>
    obtain ⟨s2, f1, f2, f3⟩ := estimate_first_error e1
    obtain ⟨t2, g1, g2, g3⟩ := estimate_first_error (e := e) e2
    obtain ⟨hw, rfl⟩ := init_fresh hs
    obtain ⟨hw', rfl⟩ := init_fresh ht
    rw [f1, g1]
    refine ⟨rfl, ?_, ?_⟩
    · show t2.approachType = s2.approachType
      rw [f2, g2]; rfl
    · show t2.approachParams = s2.approachParams.map _
      rw [f3, g3]; rfl
  | ok r =>
    have hf : r.1 ≠ .fast := by
      rw [innerAlg] at e1
      rcases e3 : estimateSamples iters cutoff step s with ⟨s3, r3⟩
      cases r3 with
      | error e => rw [PyM.bind_error e3] at e1; cases e1
      | ok l =>
        rw [PyM.bind_ok e3] at e1
        exact classify_not_fast (hn l (by rw [e3])) (Prod.mk.inj e1).2
    obtain ⟨s2, f1, f2, f3⟩ := estimate_first e1 hf h0
    obtain ⟨t2, g1, g2, g3⟩ := estimate_first (ans := timesEstimate |(c : ℚ)| r) e2 hf h0
    rw [f1, g1]
    refine ⟨rfl, ?_, ?_⟩
    · show t2.approachType = s2.approachType
      rw [f2, g2]; rfl
    · show t2.approachParams = s2.approachParams.map _
      rw [f3, g3]; rfl

/-- What an estimation with few samples looks at. -/
def shortLook (e : ℚ) (l : List (ℤ × List Num)) : Bool × Bool × Bool :=
  (decide ((ratios (deltaPair l)).length < 6), diminishes e (deltaPair l), diminishes e (deltaOdd l))

theorem inner_short {A : Analysis} {iters cutoff step : ℤ} {s : CF} {x : Bool}
    (h : (estimateSamples iters cutoff step s).2.map (shortLook A.effZero) = .ok (true, x, x)) :
    (innerAlg A iters cutoff step s).2 = .ok (if x then .fast else .none, none) := by
  rw [innerAlg]
  rcases e : estimateSamples iters cutoff step s with ⟨s1, r⟩
  rw [e] at h
  cases r with
  | error e => cases h
  | ok l =>
    rw [PyM.bind_ok e]
    simp only [Except.map, shortLook, Except.ok.injEq, Prod.mk.injEq, decide_eq_true_eq] at h
    obtain ⟨h1, h2, h3⟩ := h
    show classify A (deltaPair l) (deltaOdd l) = _
    rw [classify]
    simp only [h1, if_true, provisional, h2, h3]
    cases x <;> rfl

/-- The hypotheses are met by the golden ratio. -/
example : ∃ s t, init [[1]] [[1]] true none false = .ok s ∧ init (mulCoeffs 3 [[1]]) (mulCoeffs (3 ^ 2) [[1]]) true none false = .ok t ∧
    (∀ x, 0 < roughAnalysis.toFloat (|((3 : ℤ) : ℚ)| * x) ↔ 0 < roughAnalysis.toFloat x) ∧
    ∀ l, (estimateSamples 40 4 6 s).2 = .ok l → 6 ≤ (ratios (deltaPair l)).length := by
  refine ⟨_, _, rfl, rfl, fun x => ?_, fun l hl => ?_⟩
  · show 0 < |((3 : ℤ) : ℚ)| * x ↔ 0 < x
    exact mul_pos_iff_of_pos_left (by norm_num)
  · have h : (estimateSamples 40 4 6 (fresh [[1]] [[1]] true false)).2.map (fun l => decide (6 ≤ (ratios (deltaPair l)).length)) = .ok true := by
      decide +kernel
    replace hl : (estimateSamples 40 4 6 (fresh [[1]] [[1]] true false)).2 = .ok l := hl
    rw [hl] at h
    simpa [Except.map] using h

/-- **C146 (violated).** With few samples the estimation compares the distances with a fixed number, so it depends on the factor: with 50 digits it says 'fast' for
`1 + 1/(1 + …)` and None for the continued fraction with 10^60 times its value. -/
theorem C146_estimate_violated (A : Analysis) (hA : A.effZero = 1 / 10 ^ 50) : ∃ s t, init [[1]] [[1]] true none false = .ok s ∧
    init (mulCoeffs (10 ^ 60) [[1]]) (mulCoeffs ((10 ^ 60) ^ 2) [[1]]) true none false = .ok t ∧
    (innerAlg A 136 130 6 s).2 = .ok (.fast, none) ∧ (innerAlg A 136 130 6 t).2 = .ok (.none, none) := by
  refine ⟨fresh [[1]] [[1]] true false, fresh (mulCoeffs (10 ^ 60) [[1]]) (mulCoeffs ((10 ^ 60) ^ 2) [[1]]) true false, rfl, rfl, ?_, ?_⟩
  · exact inner_short (x := true) (by rw [hA]; decide +kernel)
  · exact inner_short (x := false) (by rw [hA]; decide +kernel)

/-- `x/2 = 1 + 1/(1 + …)` and `x = 2 + 4/(2 + …)` as clicks. -/
def exDoubled (x : ℚ) : List (Click Ulcd) :=
  [⟨[[1]], [[1]], ⟨(0, 1, 0, 2), x, x / 2⟩, 0, none⟩, ⟨mulCoeffs 2 [[1]], mulCoeffs (2 ^ 2) [[1]], ⟨(0, 1, 0, 1), x, x⟩, 0, none⟩]

/-- **C146 (violated).** The filter for unique parameters does not notice that two results say the same: an identity and the one multiplied by 2 are both kept,
although both sides of the second are twice those of the first. -/
theorem C146_unique_violated (x : ℚ) : filterUniq ulcdClass (exDoubled x) = (exDoubled x, .ok ()) ∧
    ∃ k l, exDoubled x = [k, l] ∧ l.lhs.val = 2 * k.lhs.val ∧
      ∀ depth, 1 ≤ depth → evalByPolys l.a l.b depth = (evalByPolys k.a k.b depth).map fun y => 2 * y := by
  refine ⟨rfl, _, _, rfl, by ring, fun depth hd => ?_⟩
  have := C146_eval (c := 2) (by decide) [[1]] [[1]] hd
  push_cast at this
  exact this

end PiCF
