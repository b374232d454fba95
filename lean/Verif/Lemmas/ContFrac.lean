import Mathlib.Tactic.Ring
import Mathlib.Tactic.Linarith
import Mathlib.Tactic.FieldSimp
import Mathlib.Tactic.LinearCombination
import Verif.Model.ContFrac
import Verif.Spec.ContFrac
import Verif.Props.Utils

/-!
# Lemmas about the continued fraction model
-/

namespace PiCF.ContFrac
open PiCF.Spec

/-! ## Pure continued fraction theory -/

/-- Backward numerators. -/
def bwN (a b : ℕ → ℤ) : ℕ → ℕ → ℤ × ℤ
  | k, 0 => (a k, 1)
  | k, n + 1 => (a k * (bwN a b (k + 1) n).1 + b (k + 1) * (bwN a b (k + 1) n).2, (bwN a b (k + 1) n).1)

/-- Forward recurrence from an arbitrary pair, processing indices `k+1, …, k+n`. -/
def fw (a b : ℕ → ℤ) : ℕ → ℕ → ℤ × ℤ → ℤ × ℤ
  | _, 0, x => x
  | k, n + 1, x => fw a b (k + 1) n (a (k + 1) * x.1 + b (k + 1) * x.2, x.1)

theorem fw_eq (a b : ℕ → ℤ) (n : ℕ) : ∀ (k : ℕ) (x : ℤ × ℤ),
    (fw a b k (n + 1) x).1 = x.1 * (bwN a b (k + 1) n).1 + x.2 * b (k + 1) * (bwN a b (k + 1) n).2 := by
  induction n with
  | zero => intro k x; simp [fw, bwN]; ring
  | succ n ih =>
    intro k x
    rw [fw, ih]
    simp only [bwN]
    ring

theorem fw_succ (a b : ℕ → ℤ) (n : ℕ) : ∀ (k : ℕ) (x : ℤ × ℤ),
    fw a b k (n + 1) x = (a (k + n + 1) * (fw a b k n x).1 + b (k + n + 1) * (fw a b k n x).2, (fw a b k n x).1) := by
  induction n with
  | zero => intro k x; simp [fw]
  | succ n ih =>
    intro k x
    rw [fw, ih, fw]
    simp only [show k + 1 + n + 1 = k + (n + 1) + 1 by omega]

theorem fw_contP (a b : ℕ → ℤ) (n : ℕ) : fw a b 0 n (a 0, 1) = (contP a b (n + 1), contP a b n) := by
  induction n with
  | zero => simp [fw, contP]
  | succ n ih => rw [fw_succ, ih]; simp [contP]

theorem fw_contQ (a b : ℕ → ℤ) (n : ℕ) : fw a b 0 n (1, 0) = (contQ a b (n + 1), contQ a b n) := by
  induction n with
  | zero => simp [fw, contQ]
  | succ n ih => rw [fw_succ, ih]; simp [contQ]

theorem bwN_eq_cont (a b : ℕ → ℤ) (n : ℕ) : bwN a b 0 n = (contP a b (n + 1), contQ a b (n + 1)) := by
  cases n with
  | zero => simp [bwN, contP, contQ]
  | succ n =>
    have h1 := fw_eq a b n 0 (a 0, 1)
    have h2 := fw_eq a b n 0 (1, 0)
    rw [fw_contP] at h1
    rw [fw_contQ] at h2
    simp only at h1 h2
    rw [h1, h2]
    simp only [bwN]
    congr 1 <;> ring

theorem nested_eq_bwN (a b : ℕ → ℤ) (n : ℕ) : ∀ (k : ℕ) (v : ℚ),
    nested (fun i => (a i : ℚ)) (fun i => (b i : ℚ)) k n = some v →
    (bwN a b k n).2 ≠ 0 ∧ v = ((bwN a b k n).1 : ℚ) / (bwN a b k n).2 := by
  induction n with
  | zero => intro k v h; simp [nested] at h; simp [bwN, h]
  | succ n ih =>
    intro k v h
    rw [nested] at h
    split at h
    · cases h
    · rename_i d hd
      split at h
      · cases h
      · rename_i hd0
        obtain ⟨h1, h2⟩ := ih _ _ hd
        have h1' : ((bwN a b (k + 1) n).2 : ℚ) ≠ 0 := by exact_mod_cast h1
        have hN : ((bwN a b (k + 1) n).1 : ℚ) ≠ 0 := by
          intro h0; rw [h2, h0] at hd0; simp at hd0
        have hN' : (bwN a b (k + 1) n).1 ≠ 0 := by exact_mod_cast hN
        refine ⟨by simpa [bwN] using hN', ?_⟩
        have h' : v = a k + b (k + 1) / d := by simpa using h.symm
        rw [h', h2]
        simp only [bwN]
        push_cast
        field_simp

theorem nested_eq_cont (a b : ℕ → ℤ) (n : ℕ) (v : ℚ)
    (h : nested (fun i => (a i : ℚ)) (fun i => (b i : ℚ)) 0 n = some v) :
    contQ a b (n + 1) ≠ 0 ∧ v = (contP a b (n + 1) : ℚ) / contQ a b (n + 1) := by
  have := nested_eq_bwN a b n 0 v h
  rwa [bwN_eq_cont] at this

/-- Product `b_1 ⋯ b_n`. -/
def prodB (b : ℕ → ℤ) : ℕ → ℤ
  | 0 => 1
  | n + 1 => prodB b n * b (n + 1)

theorem determinant (a b : ℕ → ℤ) (n : ℕ) :
    contP a b (n + 1) * contQ a b n - contP a b n * contQ a b (n + 1) = (-1) ^ (n + 1) * prodB b n := by
  induction n with
  | zero => simp [contP, contQ, prodB]
  | succ n ih =>
    simp only [contP, contQ, prodB]
    rw [pow_succ]
    linear_combination (-(b (n + 1))) * ih

/-! ## The object's iterations in closed form -/

/-- The state matrix after `n` iterations. -/
def convMat (a b : Coeffs) (n : ℕ) : Mat :=
  ((contP (seqAt a) (seqAt b) (n + 1), contP (seqAt a) (seqAt b) n),
   (contQ (seqAt a) (seqAt b) (n + 1), contQ (seqAt a) (seqAt b) n))

/-- The `n`-th convergent as the code reports it. -/
def convVal (a b : Coeffs) (n : ℕ) : Num :=
  quotient (contP (seqAt a) (seqAt b) (n + 1)) (contQ (seqAt a) (seqAt b) (n + 1))

theorem coeffAt_nat {cs : Coeffs} (h : cs ≠ []) (i : ℕ) : coeffAt cs (i : ℤ) = .ok (seqAt cs i) := by
  have : ((i : ℤ).fmod (cs.length : ℤ)).toNat = i % cs.length := by
    rw [Int.fmod_eq_emod_of_nonneg _ (by omega)]
    omega
  rw [coeffAt, if_neg h, this, Utils.subsInPolynom_eq_horner]
  rfl

theorem promo_nat {a b : Coeffs} (ha : a ≠ []) (hb : b ≠ []) (z : Bool) (i : ℕ) (hi : 0 < i) :
    promoMatGen z (i : ℤ) a b = if z = true ∧ seqAt b i = 0 then .error (.zeroB i) else .ok (seqAt a i, seqAt b i) := by
  rw [promoMatGen, coeffAt_nat ha, coeffAt_nat hb]
  cases z <;> simp [hi]

/-- Number of iterations out of `k` that are completed starting after iteration `c`, i.e. before the
first zero of `b`. -/
def stepsBefore (z : Bool) (b : Coeffs) : ℕ → ℕ → ℕ
  | _, 0 => 0
  | c, k + 1 => if z = true ∧ seqAt b (c + 1) = 0 then 0 else stepsBefore z b (c + 1) k + 1

theorem stepsBefore_le (z : Bool) (b : Coeffs) : ∀ c k, stepsBefore z b c k ≤ k := by
  intro c k
  induction k generalizing c with
  | zero => simp [stepsBefore]
  | succ k ih => rw [stepsBefore]; split; · omega
                 · have := ih (c + 1); omega

theorem stepsBefore_eq_iff (z : Bool) (b : Coeffs) : ∀ c k,
    stepsBefore z b c k = k ↔ ∀ j, c < j → j ≤ c + k → ¬ (z = true ∧ seqAt b j = 0) := by
  intro c k
  induction k generalizing c with
  | zero => simp [stepsBefore]; intro j h1 h2; omega
  | succ k ih =>
    rw [stepsBefore]
    split
    · rename_i h
      constructor
      · intro h'; omega
      · intro h'; exact absurd h (h' (c + 1) (by omega) (by omega))
    · rename_i h
      have : stepsBefore z b (c + 1) k + 1 = k + 1 ↔ stepsBefore z b (c + 1) k = k := by omega
      rw [this, ih]
      constructor
      · intro h' j h1 h2
        rcases Nat.eq_or_lt_of_le h1 with h3 | h3
        · rw [← h3]; exact h
        · exact h' j h3 (by omega)
      · intro h' j h1 h2; exact h' j (by omega) (by omega)

theorem stepsBefore_lt_iff (z : Bool) (b : Coeffs) : ∀ c k d, d < k →
    (stepsBefore z b c k = d ↔ (z = true ∧ seqAt b (c + d + 1) = 0) ∧
      ∀ j, c < j → j ≤ c + d → ¬ (z = true ∧ seqAt b j = 0)) := by
  intro c k
  induction k generalizing c with
  | zero => intro d h; omega
  | succ k ih =>
    intro d hd
    rw [stepsBefore]
    split
    · rename_i h
      constructor
      · rintro rfl; exact ⟨h, fun j h1 h2 => by omega⟩
      · rintro ⟨_, h'⟩
        rcases Nat.eq_zero_or_pos d with h0 | h0
        · exact h0.symm
        · exact absurd h (h' (c + 1) (by omega) (by omega))
    · rename_i h
      cases d with
      | zero =>
        constructor
        · intro h'; omega
        · rintro ⟨h', _⟩; exact absurd h' h
      | succ d =>
        have : stepsBefore z b (c + 1) k + 1 = d + 1 ↔ stepsBefore z b (c + 1) k = d := by omega
        rw [this, ih (c + 1) d (by omega), show c + 1 + d + 1 = c + (d + 1) + 1 by omega]
        refine and_congr_right fun _ => ?_
        constructor
        · intro h' j h1 h2
          rcases Nat.eq_or_lt_of_le h1 with h3 | h3
          · rw [← h3]; exact h
          · exact h' j h3 (by omega)
        · intro h' j h1 h2; exact h' j (by omega) (by omega)

/-- Log snapshots of iterations `c+1, …, c+d`. -/
def snaps (a b : Coeffs) (c d : ℕ) : List Params :=
  (List.range d).map fun j => ⟨a, b, convVal a b (c + j + 1)⟩

/-- State matrices of iterations `c+1, …, c+d`. -/
def matSnaps (a b : Coeffs) (c d : ℕ) : List Mat :=
  (List.range d).map fun j => convMat a b (c + j + 1)

theorem snaps_succ (a b : Coeffs) (c d : ℕ) :
    snaps a b c (d + 1) = ⟨a, b, convVal a b (c + 1)⟩ :: snaps a b (c + 1) d := by
  simp only [snaps, List.range_succ_eq_map, List.map_cons, List.map_map]
  congr 1
  apply List.map_congr_left
  intro j _
  simp [show c + (j + 1) + 1 = c + 1 + j + 1 by omega]

theorem matSnaps_succ (a b : Coeffs) (c d : ℕ) :
    matSnaps a b c (d + 1) = convMat a b (c + 1) :: matSnaps a b (c + 1) d := by
  simp only [matSnaps, List.range_succ_eq_map, List.map_cons, List.map_map]
  congr 1
  apply List.map_congr_left
  intro j _
  simp [show c + (j + 1) + 1 = c + 1 + j + 1 by omega]

/-- The object after `d` iterations of the loop following iteration `c`. -/
def CF.pushed (s : CF) (a b : Coeffs) (c d : ℕ) : CF :=
  if s.logging then { s with logs := s.logs ++ snaps a b c d, mats := s.mats ++ matSnaps a b c d } else s

theorem pushed_zero (s : CF) (a b : Coeffs) (c : ℕ) : s.pushed a b c 0 = s := by
  simp [CF.pushed, snaps, matSnaps]

theorem pushed_logging (s : CF) (a b : Coeffs) (c d : ℕ) : (s.pushed a b c d).logging = s.logging := by
  unfold CF.pushed; split <;> rfl

theorem pushed_executed (s : CF) (a b : Coeffs) (c d : ℕ) : (s.pushed a b c d).executed = s.executed := by
  unfold CF.pushed; split <;> rfl

/-- Result parameter after `d` iterations. -/
def resAfter (logging : Bool) (a b : Coeffs) (c d : ℕ) (r : Num) : Num :=
  if logging = true ∧ 0 < d then convVal a b (c + d) else r

theorem iterationAlgorithm_nat {a b : Coeffs} (ha : a ≠ []) (hb : b ≠ []) (z l : Bool) (r : Num) (c : ℕ) :
    iterationAlgorithm z l ⟨a, b, r⟩ (convMat a b c) (c : ℤ) =
      if z = true ∧ seqAt b (c + 1) = 0 then .error (.zeroB ((c : ℤ) + 1))
      else .ok (⟨a, b, if l = true then convVal a b (c + 1) else r⟩, convMat a b (c + 1)) := by
  rw [iterationAlgorithm]
  have := promo_nat ha hb z (c + 1) (by omega)
  push_cast at this
  simp only [this]
  split
  · rename_i h
    split at h
    · rename_i hz; cases h; rw [if_pos hz]
    · cases h
  · rename_i ai bi h
    split at h
    · cases h
    · rename_i hz
      cases h
      rw [if_neg hz]
      have e1 : contP (seqAt a) (seqAt b) (c + 1) * seqAt a (c + 1) + contP (seqAt a) (seqAt b) c * seqAt b (c + 1)
          = contP (seqAt a) (seqAt b) (c + 1 + 1) := by rw [contP]; ring
      have e2 : contQ (seqAt a) (seqAt b) (c + 1) * seqAt a (c + 1) + contQ (seqAt a) (seqAt b) c * seqAt b (c + 1)
          = contQ (seqAt a) (seqAt b) (c + 1 + 1) := by rw [contQ]; ring
      cases l <;> simp [convMat, convVal, e1, e2]

theorem addLoop_closed {a b : Coeffs} (ha : a ≠ []) (hb : b ≠ []) : ∀ (k : ℕ) (s : CF) (i c : ℕ) (r : Num),
    (c : ℤ) = i + s.executed →
    addLoop k i ⟨a, b, r⟩ (convMat a b c) s =
      let d := stepsBefore s.avoidZeroB b c k
      (s.pushed a b c d,
        if d = k then .ok (⟨a, b, resAfter s.logging a b c k r⟩, convMat a b (c + k))
        else .error (.zeroB ((c : ℤ) + d + 1))) := by
  intro k
  induction k with
  | zero => intro s i c r h; simp [addLoop, stepsBefore, pushed_zero, resAfter]
  | succ k ih =>
    intro s i c r h
    rw [addLoop, ← h, iterationAlgorithm_nat ha hb, stepsBefore]
    by_cases hz : s.avoidZeroB = true ∧ seqAt b (c + 1) = 0
    · simp [if_pos hz, pushed_zero]
    · simp only [if_neg hz]
      cases hl : s.logging with
      | false =>
        simp only [Bool.false_eq_true, if_false]
        rw [ih s (i + 1) (c + 1) r (by push_cast; omega)]
        simp only [hl, resAfter, CF.pushed, Bool.false_eq_true, if_false, false_and, Nat.add_right_cancel_iff,
          show c + 1 + k = c + (k + 1) by omega]
        refine Prod.ext rfl ?_
        simp only
        split
        · rfl
        · congr 2; push_cast; ring
      | true =>
        simp only [if_true]
        rw [ih _ (i + 1) (c + 1) _ (by push_cast; omega)]
        simp only [CF.pushed, hl, if_true, snaps_succ, matSnaps_succ, List.append_assoc, List.cons_append,
          List.nil_append, Nat.add_right_cancel_iff, show c + 1 + k = c + (k + 1) by omega]
        refine Prod.ext rfl ?_
        simp only
        split
        · simp only [resAfter, true_and, show 0 < k + 1 by omega, if_true]
          split
          · rw [show c + 1 + k = c + (k + 1) by omega]
          · rename_i h0; have : k = 0 := by omega
            subst this; rfl
        · congr 2; push_cast; ring

/-- The object is in step with iteration `n` of the continued fraction `(a, b)`. -/
structure Synced (s : CF) (a b : Coeffs) (n : ℕ) : Prop where
  ha : a ≠ []
  hb : b ≠ []
  hla : (s.logs.getLastD s.params).a = a
  hlb : (s.logs.getLastD s.params).b = b
  hm : s.mats.getLastD s.first = convMat a b n
  hn : s.executed = n

theorem Synced.params {s : CF} {a b : Coeffs} {n : ℕ} (h : Synced s a b n) :
    s.logs.getLastD s.params = ⟨a, b, getResult s⟩ := by
  have h1 := h.hla
  have h2 := h.hlb
  unfold getResult
  cases hp : s.logs.getLastD s.params
  rw [hp] at h1 h2
  simp_all

/-- `add_iterations` in closed form, from an object in step with iteration `c`. -/
theorem addIterations_closed {s : CF} {a b : Coeffs} {c : ℕ} (h : Synced s a b c) (k : ℕ) (fin : Bool) :
    addIterations (k : ℤ) fin s =
      let d := stepsBefore s.avoidZeroB b c k
      if d = k then
        ((if s.logging then { s.pushed a b c k with executed := (c : ℤ) + k }
          else { s with logs := [⟨a, b, if fin then convVal a b (c + k) else getResult s⟩],
                        mats := [convMat a b (c + k)], executed := (c : ℤ) + k }), .ok ())
      else (s.pushed a b c d, .error (.zeroB ((c : ℤ) + d + 1))) := by
  rw [addIterations]
  simp only [Int.toNat_natCast, h.params, h.hm]
  rw [addLoop_closed h.ha h.hb k s 0 c _ (by simp [h.hn])]
  simp only
  split
  · rename_i heq
    simp only [Prod.mk.injEq] at heq
    obtain ⟨h1, h2⟩ := heq
    split at h2
    · cases h2
    · rename_i hd; cases h2; rw [if_neg hd, ← h1]
  · rename_i heq
    simp only [Prod.mk.injEq] at heq
    obtain ⟨h1, h2⟩ := heq
    split at h2
    · rename_i hd
      rw [if_pos hd, ← h1, hd] at *
      simp only [Except.ok.injEq, Prod.mk.injEq] at h2
      obtain ⟨h2, h3⟩ := h2
      rw [← h2, ← h3]
      rw [pushed_logging]
      cases hl : s.logging with
      | true => simp [pushed_executed, pushed_logging, hl, h.hn]
      | false =>
        cases fin <;> simp [CF.pushed, hl, h.hn, finalizeIterations, resAfter, convVal, convMat]
    · cases h2

theorem getLastD_concat {α : Type*} (l : List α) (x d : α) : (l ++ [x]).getLastD d = x := by
  simp [List.getLastD_eq_getLast?]

theorem getLastD_append_map_range {α : Type*} (l : List α) (f : ℕ → α) (k : ℕ) (d : α) (hk : 0 < k) :
    (l ++ (List.range k).map f).getLastD d = f (k - 1) := by
  obtain ⟨k, rfl⟩ : ∃ j, k = j + 1 := ⟨k - 1, by omega⟩
  rw [List.range_succ, List.map_append, ← List.append_assoc]
  simp

/-- After a successful `add_iterations` the object is in step again. -/
theorem addIterations_synced {s s' : CF} {a b : Coeffs} {c k : ℕ} {fin : Bool} (h : Synced s a b c)
    (hok : addIterations (k : ℤ) fin s = (s', .ok ())) : Synced s' a b (c + k) := by
  rw [addIterations_closed h] at hok
  simp only at hok
  split at hok
  · have hs' := (Prod.mk.inj hok).1
    subst hs'
    split
    · rename_i hl
      refine ⟨h.ha, h.hb, ?_, ?_, ?_, by simp⟩
      · simp only [CF.pushed, hl, if_true]
        rcases Nat.eq_zero_or_pos k with rfl | hk
        · simpa [snaps] using h.hla
        · rw [snaps, getLastD_append_map_range _ _ _ _ hk]
      · simp only [CF.pushed, hl, if_true]
        rcases Nat.eq_zero_or_pos k with rfl | hk
        · simpa [snaps] using h.hlb
        · rw [snaps, getLastD_append_map_range _ _ _ _ hk]
      · simp only [CF.pushed, hl, if_true]
        rcases Nat.eq_zero_or_pos k with rfl | hk
        · simpa [matSnaps] using h.hm
        · rw [matSnaps, getLastD_append_map_range _ _ _ _ hk]
          congr 1; omega
    · exact ⟨h.ha, h.hb, rfl, rfl, rfl, by simp⟩
  · cases (Prod.mk.inj hok).2

theorem addIterations_zero {s : CF} {a b : Coeffs} {c : ℕ} (h : Synced s a b c) (fin : Bool) :
    ∃ s', addIterations 0 fin s = (s', .ok ()) := by
  have := addIterations_closed h 0 fin
  simp only [stepsBefore, if_true, Nat.cast_zero] at this
  exact ⟨_, this⟩

/-- Well-formed coefficient lists: what `__init__` accepts. -/
structure WF (a b : Coeffs) : Prop where
  a_head : ∃ a00 rest polys, a = (a00 :: rest) :: polys
  hb : b ≠ []

theorem WF.ha {a b : Coeffs} (h : WF a b) : a ≠ [] := by
  obtain ⟨_, _, _, rfl⟩ := h.a_head; simp

theorem autogen_wf {a b : Coeffs} (h : WF a b) : autogenFirst a = .ok (convMat a b 0) := by
  obtain ⟨a00, rest, polys, rfl⟩ := h.a_head
  simp [autogenFirst, convMat, contP, contQ, seqAt, horner]

/-- The freshly constructed object. -/
def fresh (a b : Coeffs) (z l : Bool) : CF :=
  { params := ⟨a, b, .fin 1⟩, first := convMat a b 0, autoFirst := true, avoidZeroB := z, logging := l,
    approachType := .none, approachParams := none, logs := [⟨a, b, .fin 1⟩], mats := [convMat a b 0],
    executed := 0 }

theorem init_wf {a b : Coeffs} (h : WF a b) (z l : Bool) : init a b z none l = .ok (fresh a b z l) := by
  rw [init, if_neg (by simp [h.ha, h.hb]), autogen_wf h]
  rfl

theorem init_ok_iff (a b : Coeffs) (z l : Bool) : (∃ s, init a b z none l = .ok s) ↔ WF a b := by
  constructor
  · rintro ⟨s, hs⟩
    rw [init] at hs
    split at hs
    · cases hs
    · rename_i h
      split at hs
      · rename_i heq; cases heq
      · split at hs
        · cases hs
        · rename_i heq
          match a, heq with
          | (a00 :: rest) :: polys, _ => exact ⟨⟨a00, rest, polys, rfl⟩, by tauto⟩
  · intro h; exact ⟨_, init_wf h z l⟩

/-- What `gen_iterations` starts from. -/
def CF.reset (s : CF) : CF := { s with logs := [s.params], mats := [s.first], executed := 0 }

theorem genIterations_eq (s : CF) (n : ℤ) (fin : Bool) : genIterations n fin s = addIterations n fin s.reset := rfl

theorem fresh_synced {a b : Coeffs} (h : WF a b) (z l : Bool) : Synced (fresh a b z l) a b 0 :=
  ⟨h.ha, h.hb, rfl, rfl, rfl, rfl⟩

theorem fresh_reset (a b : Coeffs) (z l : Bool) : (fresh a b z l).reset = fresh a b z l := rfl

end PiCF.ContFrac
