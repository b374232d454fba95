import Mathlib.Tactic.Ring
import Mathlib.Algebra.Ring.Divisibility.Basic
import Mathlib.Algebra.BigOperators.Ring.List
import Mathlib.Tactic.Linarith
import Verif.Model.Utils
import Verif.Spec.Utils

/-!
# Properties C01–C07 (`utils.py`)
-/

namespace PiCF.Utils
open PiCF.Spec

/-! ## C01, C02: gcd -/

theorem gcdLoop_dvd (a b : ℤ) : gcdLoop a b ∣ a ∧ gcdLoop a b ∣ b := by
  induction a, b using gcdLoop.induct with
  | case1 a => unfold gcdLoop; simp
  | case2 a b h ih =>
    unfold gcdLoop
    rw [dif_neg h]
    refine ⟨?_, ih.1⟩
    have := Int.fmod_add_mul_fdiv a b
    have h3 := dvd_add ih.2 (Dvd.dvd.mul_right ih.1 (a.fdiv b))
    rwa [this] at h3

theorem dvd_gcdLoop (a b d : ℤ) : d ∣ a → d ∣ b → d ∣ gcdLoop a b := by
  induction a, b using gcdLoop.induct with
  | case1 a => intro h _; unfold gcdLoop; simpa using h
  | case2 a b h ih =>
    intro ha hb
    unfold gcdLoop
    rw [dif_neg h]
    apply ih hb
    rw [Int.fmod_def]
    exact dvd_sub ha (Dvd.dvd.mul_right hb _)

theorem fmod_sign {a b : ℤ} (hb : b ≠ 0) : a.fmod b = 0 ∨ (a.fmod b).sign = b.sign := by
  rcases lt_or_gt_of_ne hb with hb | hb
  · have h1 := Int.fmod_nonneg_of_pos (-a) (show 0 < -b by omega)
    rw [Int.neg_fmod_neg] at h1
    by_cases h : a.fmod b = 0
    · exact Or.inl h
    · right
      rw [Int.sign_eq_neg_one_of_neg hb, Int.sign_eq_neg_one_of_neg (by omega)]
  · have h1 := Int.fmod_nonneg_of_pos a hb
    by_cases h : a.fmod b = 0
    · exact Or.inl h
    · right
      rw [Int.sign_eq_one_of_pos hb, Int.sign_eq_one_of_pos (by omega)]

theorem gcdLoop_sign (a b : ℤ) : (gcdLoop a b).sign = if b = 0 then a.sign else b.sign := by
  induction a, b using gcdLoop.induct with
  | case1 a => unfold gcdLoop; simp
  | case2 a b h ih =>
    unfold gcdLoop
    rw [dif_neg h, ih, if_neg h]
    rcases fmod_sign (a := a) h with h' | h'
    · simp [h']
    · by_cases h0 : a.fmod b = 0
      · simp [h0]
      · simp [h0, h']

/-- **C01.** `gcd` (total, so it terminates on all integers) returns a common divisor which every
common divisor divides. -/
theorem C01_gcd_greatest_common_divisor (a b : ℤ) :
    (gcd a b ∣ a ∧ gcd a b ∣ b) ∧ ∀ d : ℤ, d ∣ a → d ∣ b → d ∣ gcd a b := by
  unfold gcd
  split
  · exact ⟨(gcdLoop_dvd b a).symm, fun d ha hb => dvd_gcdLoop b a d hb ha⟩
  · exact ⟨gcdLoop_dvd a b, fun d ha hb => dvd_gcdLoop a b d ha hb⟩

example : gcd (-12) 18 = -6 := by
  simp [gcd, gcdLoop, show Int.fmod 18 (-12) = -6 by decide, show Int.fmod (-12) (-6) = 0 by decide]

/-- **C02 (violated).** The documented sign rule fails: `gcd(-4, 6)` is negative although `b = 6` is
positive. -/
theorem C02_gcd_sign_violated : ¬ ∀ a b : ℤ, b ≠ 0 → (gcd a b).sign = b.sign := by
  intro h
  have := h (-4) 6 (by decide)
  rw [show gcd (-4) 6 = gcdLoop 6 (-4) by simp [gcd], gcdLoop_sign] at this
  revert this
  decide

/-- **C02 (partial).** The documented sign rule holds exactly when not `a < 0 < b`; the sign is always
that of the smaller argument (of the larger one if the smaller is 0).
Missing with respect to C02: the case `a < 0 < b`, where it is false. -/
theorem C02_gcd_sign_partial (a b : ℤ) :
    (b ≠ 0 → ((gcd a b).sign = b.sign ↔ ¬ (a < 0 ∧ 0 < b))) ∧
    (gcd a b).sign = if min a b = 0 then (max a b).sign else (min a b).sign := by
  have key : (gcd a b).sign = if min a b = 0 then (max a b).sign else (min a b).sign := by
    unfold gcd
    split
    · rename_i h; rw [gcdLoop_sign, min_eq_left (by omega), max_eq_right (by omega)]
    · rename_i h; rw [gcdLoop_sign, min_eq_right (by omega), max_eq_left (by omega)]
  refine ⟨fun hb => ?_, key⟩
  rw [key]
  rcases lt_trichotomy a 0 with ha | ha | ha <;> rcases lt_trichotomy b 0 with hb' | hb' | hb'
  · have h1 : min a b < 0 := by omega
    rw [if_neg (by omega), Int.sign_eq_neg_one_of_neg h1, Int.sign_eq_neg_one_of_neg hb']
    simp; omega
  · exact absurd hb' hb
  · have h1 : min a b < 0 := by omega
    rw [if_neg (by omega), Int.sign_eq_neg_one_of_neg h1, Int.sign_eq_one_of_pos hb']
    simp; omega
  · subst ha; rw [min_eq_right hb'.le, if_neg hb]; simp
  · exact absurd hb' hb
  · subst ha; rw [min_eq_left hb'.le, if_pos rfl, max_eq_right hb'.le]; simp
  · rw [min_eq_right (by omega), if_neg hb]; simp; omega
  · exact absurd hb' hb
  · have h1 : 0 < min a b := by omega
    rw [if_neg (by omega), Int.sign_eq_one_of_pos h1, Int.sign_eq_one_of_pos hb']
    simp; omega

/-! ## C03: polynomial substitution -/

theorem subsInPolynom_cons {R : Type*} [CommRing R] (c : R) (cs : List R) (x : R) :
    subsInPolynom (c :: cs) x = c + x * subsInPolynom cs x := by
  unfold subsInPolynom
  rw [List.length_cons, List.range_succ_eq_map, List.map_cons, List.sum_cons, List.map_map]
  congr 1
  · simp
  · rw [← List.sum_map_mul_left]
    congr 1
    apply List.map_congr_left
    intro j _
    simp [pow_succ]
    ring

@[simp] theorem subsInPolynom_nil {R : Type*} [CommRing R] (x : R) : subsInPolynom ([] : List R) x = 0 := by
  simp [subsInPolynom]

theorem subsInPolynom_eq_horner {R : Type*} [CommRing R] (cs : List R) (x : R) :
    subsInPolynom cs x = horner cs x := by
  induction cs with
  | nil => simp [horner]
  | cons c cs ih => rw [subsInPolynom_cons, ih, horner]

/-- **C03.** Substitution is polynomial evaluation, over every commutative ring, and trailing zero
coefficients do not matter. -/
theorem C03_subs_in_polynom {R : Type*} [CommRing R] (cs : List R) (x : R) (k : ℕ) :
    subsInPolynom cs x = horner cs x ∧ subsInPolynom (cs ++ List.replicate k 0) x = subsInPolynom cs x := by
  refine ⟨subsInPolynom_eq_horner cs x, ?_⟩
  induction cs with
  | nil =>
    induction k with
    | zero => simp
    | succ k ih =>
      rw [List.nil_append] at *
      rw [List.replicate_succ, subsInPolynom_cons, ih]; simp
  | cons c cs ih => rw [List.cons_append, subsInPolynom_cons, ih, subsInPolynom_cons]

example : subsInPolynom [(3 : ℤ), 0, 2] 5 = 53 := by decide

/-! ## C04: grouper -/

theorem zlRound_full {α : Type*} (fill : α) (m : ℕ) :
    ∀ (rest : List α) (na : ℕ), m ≤ rest.length →
      zlRound fill (List.replicate m true) rest na
        = some (rest.take m, List.replicate m true, rest.drop m, na) := by
  induction m with
  | zero => intro rest na _; simp [zlRound]
  | succ m ih =>
    intro rest na h
    cases rest with
    | nil => simp at h
    | cons x rest =>
      rw [List.replicate_succ, zlRound, ih rest na (by simpa using h)]
      simp

theorem zlRound_empty {α : Type*} (fill : α) (m : ℕ) :
    ∀ (na : ℕ), m < na →
      zlRound fill (List.replicate m true) ([] : List α) na
        = some (List.replicate m fill, List.replicate m false, [], na - m) := by
  induction m with
  | zero => intro na _; simp [zlRound]
  | succ m ih =>
    intro na h
    rw [List.replicate_succ, zlRound, if_neg (by omega), ih (na - 1) (by omega)]
    simp [List.replicate_succ]; omega

theorem zlRound_short {α : Type*} (fill : α) (rest : List α) :
    ∀ (m na : ℕ), rest.length ≤ m → m - rest.length < na →
      zlRound fill (List.replicate m true) rest na
        = some (rest ++ List.replicate (m - rest.length) fill,
            List.replicate rest.length true ++ List.replicate (m - rest.length) false, [],
            na - (m - rest.length)) := by
  induction rest with
  | nil => intro m na _ h; simpa using zlRound_empty fill m na (by simpa using h)
  | cons x rest ih =>
    intro m na h1 h2
    cases m with
    | zero => simp at h1
    | succ m =>
      simp only [List.length_cons] at h1 h2
      rw [List.replicate_succ, zlRound, ih m na (by omega) (by omega)]
      simp [List.replicate_succ]

theorem zlRound_exhausted {α : Type*} (fill : α) :
    ∀ (act : List Bool) (na : ℕ), act.count true = na → 0 < na →
      zlRound fill act ([] : List α) na = none := by
  intro act
  induction act with
  | nil => intro na h h'; simp at h; omega
  | cons f act ih =>
    intro na h h'
    cases f with
    | false => simp [zlRound, ih na (by simpa using h) h']
    | true =>
      rw [List.count_cons_self] at h
      rw [zlRound]
      split
      · rfl
      · rw [ih (na - 1) (by omega) (by omega)]

theorem zlRun_nil {α : Type*} (fill : α) (act : List Bool) : zlRun fill act ([] : List α) = [] := by
  unfold zlRun
  split
  · rfl
  · rename_i h
    split
    · rfl
    · rename_i h'
      rw [zlRound_exhausted fill act _ rfl (by omega)] at h'
      cases h'

theorem zlRun_step {α : Type*} (fill : α) (act : List Bool) (rest : List α) (t act' rest' na')
    (h : zlRound fill act rest (act.count true) = some (t, act', rest', na')) (hz : act.count true ≠ 0) :
    zlRun fill act rest = t :: zlRun fill act' rest' := by
  rw [zlRun, dif_neg hz]
  split
  · rename_i h'; rw [h] at h'; cases h'
  · rename_i h'; rw [h] at h'; cases h'; rfl

theorem grouper_nil {α : Type*} (n : ℕ) (fill : α) : grouper [] n fill = [] := zlRun_nil fill _

theorem grouper_short {α : Type*} (xs : List α) (n : ℕ) (fill : α) (h : xs.length ≤ n) (hx : xs ≠ []) :
    grouper xs n fill = [xs ++ List.replicate (n - xs.length) fill] := by
  have hl : 0 < xs.length := List.length_pos_iff.2 hx
  unfold grouper
  rw [zlRun_step fill _ _ _ _ _ _ (by
    rw [List.count_replicate_self]
    exact zlRound_short fill xs n n h (by omega)) (by rw [List.count_replicate_self]; omega), zlRun_nil]

theorem grouper_long {α : Type*} (xs : List α) (n : ℕ) (fill : α) (hn : 0 < n) (h : n ≤ xs.length) :
    grouper xs n fill = xs.take n :: grouper (xs.drop n) n fill := by
  unfold grouper
  rw [zlRun_step fill _ _ _ _ _ _ (zlRound_full fill n xs _ h) (by rw [List.count_replicate_self]; omega)]

/-- **C04.** For every chunk size `n ≥ 1`: all chunks have exactly `n` elements and their concatenation
is the iterable followed by fewer than `n` fill values.  (For `n = 0` nothing is yielded.) -/
theorem C04_grouper {α : Type*} (xs : List α) (n : ℕ) (fill : α) :
    (0 < n → (∀ c ∈ grouper xs n fill, c.length = n) ∧
      ∃ k < n, (grouper xs n fill).flatten = xs ++ List.replicate k fill) ∧
    (n = 0 → grouper xs n fill = []) := by
  constructor
  · intro hn
    induction hl : xs.length using Nat.strong_induction_on generalizing xs with
    | _ l ih =>
      subst hl
      by_cases hx : xs = []
      · subst hx; rw [grouper_nil]; exact ⟨by simp, 0, hn, by simp⟩
      · by_cases h : xs.length ≤ n
        · rw [grouper_short xs n fill h hx]
          have hl : 0 < xs.length := List.length_pos_iff.2 hx
          refine ⟨?_, n - xs.length, by omega, by simp⟩
          intro c hc
          simp only [List.mem_singleton] at hc
          subst hc
          simp; omega
        · rw [grouper_long xs n fill hn (by omega)]
          obtain ⟨h1, k, hk, h2⟩ := ih (xs.drop n).length (by simp; omega) (xs.drop n) rfl
          refine ⟨?_, k, hk, ?_⟩
          · intro c hc
            rcases List.mem_cons.1 hc with rfl | hc
            · simp; omega
            · exact h1 c hc
          · rw [List.flatten_cons, h2, ← List.append_assoc, List.take_append_drop]
  · rintro rfl
    simp [grouper, zlRun]

example : grouper [1, 2, 3, 4, 5] 2 0 = [[1, 2], [3, 4], [5, 0]] := by
  rw [grouper_long _ _ _ (by decide) (by decide), grouper_long _ _ _ (by decide) (by decide),
    grouper_short _ _ _ (by decide) (by decide)]
  rfl

/-! ## C05: stopwatch -/

/-- Runs a history of calls on the model, collecting what `measure_time` returned. -/
def runWatch : List WatchOp → Stopper → Stopper × List ℚ
  | [], s => (s, [])
  | .start t :: ops, s => runWatch ops (s.startMeasure t)
  | .measure t :: ops, s =>
      let (s', d) := s.measureTime t
      let (s'', ds) := runWatch ops s'
      (s'', d :: ds)

/-- Invariant: indices are 0/1 and the slot that is not the current one holds the last time stamp. -/
def WatchInv (s : Stopper) (last : ℚ) (started : Bool) : Prop :=
  s.currentIndex < 2 ∧ s.times (1 - s.currentIndex) = last ∧ s.started = started

theorem startMeasure_inv {s : Stopper} {last : ℚ} {b : Bool} (h : WatchInv s last b) (t : ℚ) :
    WatchInv (s.startMeasure t) (if b then last else t) true := by
  obtain ⟨h1, h2, h3⟩ := h
  unfold Stopper.startMeasure
  cases b with
  | true => simp only [h3, if_true]; exact ⟨h1, h2, h3⟩
  | false =>
    simp only [h3]
    rcases (by omega : s.currentIndex = 0 ∨ s.currentIndex = 1) with h | h <;>
      simp [WatchInv, Stopper.setTimes, Stopper.times, h]

theorem measureTime_inv {s : Stopper} {last : ℚ} {b : Bool} (h : WatchInv s last b) (t : ℚ) :
    WatchInv (s.measureTime t).1 t b ∧ (s.measureTime t).2 = t - last ∧
      (s.measureTime t).1.getLastMeasuredTime = t - last := by
  obtain ⟨h1, h2, h3⟩ := h
  rcases (by omega : s.currentIndex = 0 ∨ s.currentIndex = 1) with h | h <;>
    simp [WatchInv, Stopper.measureTime, Stopper.getLastMeasuredTime, Stopper.setTimes, Stopper.times, h, ← h2, h3]

theorem runWatch_spec (ops : List WatchOp) : ∀ (s : Stopper) (last : ℚ) (b : Bool), WatchInv s last b →
    (runWatch ops s).2 = watchIntervals ops last b ∧
      ∃ b', WatchInv (runWatch ops s).1 (lastStamp ops last b) b' := by
  induction ops with
  | nil => intro s last b h; exact ⟨rfl, b, h⟩
  | cons op ops ih =>
    intro s last b h
    cases op with
    | start t =>
      have := ih _ _ _ (startMeasure_inv h t)
      cases b <;> simpa [runWatch, watchIntervals, lastStamp] using this
    | measure t =>
      obtain ⟨h1, h2, h3⟩ := measureTime_inv h t
      have := ih _ _ _ h1
      simp only [runWatch, watchIntervals, lastStamp, this.1, h2]
      exact ⟨trivial, this.2⟩

theorem runWatch_append (ops ops' : List WatchOp) : ∀ s : Stopper,
    runWatch (ops ++ ops') s = ((runWatch ops' (runWatch ops s).1).1,
      (runWatch ops s).2 ++ (runWatch ops' (runWatch ops s).1).2) := by
  induction ops with
  | nil => intro s; rfl
  | cons op ops ih =>
    intro s
    cases op with
    | start t => simp [runWatch, ih]
    | measure t => simp [runWatch, ih]

theorem watchIntervals_sum (ops : List WatchOp) : ∀ last,
    (watchIntervals ops last true).sum = lastStamp ops last true - last := by
  induction ops with
  | nil => intro last; simp [watchIntervals, lastStamp]
  | cons op ops ih =>
    intro last
    cases op with
    | start t => simpa [watchIntervals, lastStamp] using ih last
    | measure t => simp [watchIntervals, lastStamp, ih t]

theorem runWatch_startTime (ops : List WatchOp) : ∀ (s : Stopper), s.started = true →
    (runWatch ops s).1.startTime = s.startTime := by
  induction ops with
  | nil => intro s _; rfl
  | cons op ops ih =>
    intro s h
    cases op with
    | start t =>
      have : s.startMeasure t = s := by simp [Stopper.startMeasure, h]
      simp only [runWatch, this]; exact ih s h
    | measure t =>
      simp only [runWatch]
      rw [ih]
      · simp only [Stopper.measureTime, Stopper.setTimes]; split <;> rfl
      · simp only [Stopper.measureTime, Stopper.setTimes]; split <;> simpa using h

theorem measureTime_started (s : Stopper) (t : ℚ) : (s.measureTime t).1.started = s.started := by
  simp only [Stopper.measureTime, Stopper.setTimes]; split <;> rfl

theorem startMeasure_started {s : Stopper} (h : s.started = true) (t : ℚ) : s.startMeasure t = s := by
  simp [Stopper.startMeasure, h]

/-- A started watch with no further measurement is unchanged; otherwise it remembers the last interval. -/
theorem runWatch_last (ops : List WatchOp) : ∀ s : Stopper, s.started = true →
    ((runWatch ops s).2 = [] → (runWatch ops s).1 = s) ∧
    ∀ x, (runWatch ops s).2.getLast? = some x → (runWatch ops s).1.getLastMeasuredTime = x := by
  induction ops with
  | nil => intro s _; exact ⟨fun _ => rfl, fun x h => by simp [runWatch] at h⟩
  | cons op ops ih =>
    intro s hs
    cases op with
    | start t =>
      rw [runWatch, startMeasure_started hs]
      exact ih s hs
    | measure t =>
      obtain ⟨h1, h2⟩ := ih (s.measureTime t).1 (by rw [measureTime_started, hs])
      refine ⟨fun h => by simp [runWatch] at h, fun x h => ?_⟩
      simp only [runWatch] at h ⊢
      rcases hr : runWatch ops (s.measureTime t).1 with ⟨s'', ds⟩
      rw [hr] at h1 h2 h
      cases ds with
      | nil =>
        simp only [List.getLast?_singleton, Option.some.injEq] at h
        rw [← h]
        have := h1 rfl
        simp only at this ⊢
        rw [this]
        rfl
      | cons d ds =>
        rw [List.getLast?_cons_cons] at h
        exact h2 x h

/-- **C05.** For every history of calls on a fresh stopwatch:
(1) the returned intervals are those of the reference stopwatch (time since the previous effective
call; a second `start_measure` has no effect);
(2) immediately after a `measure_time`, `get_last_measured_time` repeats the interval just returned; if the
history began with `start_measure`, it repeats the last returned interval at any later time;
(3) for histories beginning with `start_measure` at `t₀`, the intervals add up to the time of the last
call minus `t₀`, and `get_total_runtime` at time `t` is `t - t₀`. -/
theorem C05_stopwatch (ops : List WatchOp) :
    (runWatch ops {}).2 = watchIntervals ops 0 false ∧
    (∀ t, (runWatch (ops ++ [.measure t]) {}).2.getLast? =
        some (runWatch (ops ++ [.measure t]) {}).1.getLastMeasuredTime) ∧
    (∀ t₀ x, (runWatch (.start t₀ :: ops) {}).2.getLast? = some x →
        (runWatch (.start t₀ :: ops) {}).1.getLastMeasuredTime = x) ∧
    (∀ t₀, (runWatch (.start t₀ :: ops) {}).2.sum = lastStamp ops t₀ true - t₀ ∧
      ∀ t, (runWatch (.start t₀ :: ops) {}).1.getTotalRuntime t = .ok (t - t₀)) := by
  have hinit : WatchInv {} 0 false := ⟨by decide, by simp [Stopper.times], rfl⟩
  refine ⟨(runWatch_spec ops {} 0 false hinit).1, fun t => ?_, fun t₀ => (runWatch_last ops _ rfl).2, fun t₀ => ⟨?_, fun t => ?_⟩⟩
  · obtain ⟨b', hb'⟩ := (runWatch_spec ops {} 0 false hinit).2
    obtain ⟨_, h2, h3⟩ := measureTime_inv hb' t
    rw [runWatch_append]
    simp [runWatch, h2, h3]
  · rw [(runWatch_spec (.start t₀ :: ops) {} 0 false hinit).1]
    simp only [watchIntervals, Bool.false_eq_true, if_false]
    exact watchIntervals_sum ops t₀
  · simp only [runWatch, Stopper.getTotalRuntime]
    rw [runWatch_startTime]
    · rfl
    · rfl

example : (runWatch [.start 5, .measure 7, .start 8, .measure 12] {}).2 = [2, 5] := by decide +kernel

/-! ## C06: seconds conversion -/

/-- **C06.** The conversion is exact with all fields in range. -/
theorem C06_secs (s : ℤ) :
    let r := secsToDHMS s
    (0 ≤ r.2.2.2 ∧ r.2.2.2 < 60) ∧ (0 ≤ r.2.2.1 ∧ r.2.2.1 < 60) ∧ (0 ≤ r.2.1 ∧ r.2.1 < 24) ∧
      ((r.1 * 24 + r.2.1) * 60 + r.2.2.1) * 60 + r.2.2.2 = s := by
  simp only [secsToDHMS, Int.fmod_eq_emod_of_nonneg _ (show (0:ℤ) ≤ 60 by decide),
    Int.fmod_eq_emod_of_nonneg _ (show (0:ℤ) ≤ 24 by decide),
    Int.fdiv_eq_ediv_of_nonneg _ (show (0:ℤ) ≤ 60 by decide), Int.fdiv_eq_ediv_of_nonneg _ (show (0:ℤ) ≤ 24 by decide)]
  omega

example : secsToDHMS 93784 = (1, 2, 3, 4) := by decide

/-! ## C07: progress bar -/

/-- What a transparent progress bar hands out. -/
def expectedItems {α : Type*} (shouldEnum : Bool) : List α → ℕ → List (PBItem α)
  | [], _ => []
  | v :: vs, i => (if shouldEnum then PBItem.enum i v else PBItem.val v) :: expectedItems shouldEnum vs (i + 1)

/-- Invariant of a bar that has started. -/
def PBInv {α : Type*} (s : PBar α) : Prop :=
  s.stopper.startTime ≠ none ∧ s.numOfIters < s.index + 1 ∧ s.estimatedLength ≠ 0 ∧ 0 < s.index

theorem measureTime_startTime (s : Stopper) (t : ℚ) : (s.measureTime t).1.startTime = s.startTime := by
  simp only [Stopper.measureTime, Stopper.setTimes]; split <;> rfl

theorem getTotal_ok {s : Stopper} (h : s.startTime ≠ none) (t : ℚ) : ∃ x, s.getTotalRuntime t = .ok x := by
  unfold Stopper.getTotalRuntime
  cases hs : s.startTime with
  | none => exact absurd hs h
  | some x => exact ⟨_, rfl⟩

theorem next_started {α : Type*} (clock : ℕ → ℚ) (s : PBar α) (hinv : PBInv s) (v : α) (vs : List α)
    (hr : s.rest = v :: vs) :
    ∃ s', s.next clock = (s', .ok (if s.shouldEnum then .enum s.index v else .val v)) ∧ PBInv s' ∧ s'.rest = vs ∧
      s'.index = s.index + 1 ∧ s'.shouldEnum = s.shouldEnum := by
  obtain ⟨h1, h2, h3, h4⟩ := hinv
  unfold PBar.next
  rw [hr]
  simp only
  rw [if_neg (by omega)]
  split
  · rw [if_neg]
    · obtain ⟨x, hx⟩ := getTotal_ok (s := (s.stopper.measureTime (clock s.tick)).1)
        (by rw [measureTime_startTime]; exact h1) (clock (s.tick + 1))
      rw [hx]
      simp only
      refine ⟨_, rfl, ⟨?_, ?_, h3, ?_⟩, rfl, rfl, rfl⟩
      · simp only [measureTime_startTime]; exact h1
      · simp only; omega
      · simp
    · have : (s.numOfIters : ℚ) ≤ s.index := by exact_mod_cast (by omega : s.numOfIters ≤ s.index)
      have h4' : (0 : ℚ) < s.index := by exact_mod_cast h4
      intro hz
      linarith
  · refine ⟨_, rfl, ⟨?_, ?_, h3, ?_⟩, rfl, rfl, rfl⟩
    · simp only [measureTime_startTime]; exact h1
    · simp; omega
    · simp

theorem drain_started {α : Type*} (clock : ℕ → ℚ) (vs : List α) : ∀ (s : PBar α), PBInv s → s.rest = vs →
    PBar.drain clock (vs.length + 1) s = (expectedItems s.shouldEnum vs s.index, some .stopIteration) := by
  induction vs with
  | nil =>
    intro s hinv hr
    obtain ⟨x, hx⟩ := getTotal_ok hinv.1 (clock s.tick)
    simp only [PBar.drain, PBar.next, hr, hx, expectedItems]
  | cons v vs ih =>
    intro s hinv hr
    obtain ⟨s', h1, h2, h3, h4, h5⟩ := next_started clock s hinv v vs hr
    rw [List.length_cons, PBar.drain, h1]
    simp only
    rw [ih s' h2 h3, h4, h5]
    rfl

/-- **C07 (partial).** For every non-empty iterable, every clock and every estimated length other than 0,
iterating the bar yields exactly the elements (with index if requested) and then `StopIteration`.
Missing with respect to C07: the empty iterable and `est_len = 0`, see the two `_violated` theorems. -/
theorem C07_progressbar_partial {α : Type*} (clock : ℕ → ℚ) (v : α) (vs : List α) (len? estLen : Option ℤ)
    (enum : Bool) (freq : ℚ) (s : PBar α)
    (hs : PBar.new (v :: vs) len? estLen enum freq = .ok s) (hl : s.estimatedLength ≠ 0) :
    PBar.drain clock ((v :: vs).length + 1) s = (expectedItems enum (v :: vs) 0, some .stopIteration) := by
  have hs' : s = { rest := v :: vs, shouldEnum := enum, updateFrequency := freq, estimatedLength := s.estimatedLength } := by
    unfold PBar.new at hs
    split at hs
    · cases hs; rfl
    · split at hs
      · cases hs
      · cases hs; rfl
  rw [hs']
  rw [List.length_cons, PBar.drain, PBar.next]
  simp only [if_true]
  rw [drain_started]
  · rfl
  · refine ⟨?_, ?_, hl, ?_⟩ <;> simp [Stopper.startMeasure, Stopper.setTimes]
  · rfl

example : ∃ s, PBar.new [7, 8] (some 2) none true 1 = .ok s ∧
    PBar.drain (fun k => (k : ℚ) * 3) 3 s = ([.enum 0 7, .enum 1 8], some .stopIteration) := by
  exact ⟨_, rfl, C07_progressbar_partial _ 7 [8] (some 2) none true 1 _ rfl (by decide)⟩

/-- **C07 (violated), empty iterable.** For every clock, iterating a bar over an empty list raises
AttributeError instead of stopping. -/
theorem C07_progressbar_empty_violated {α : Type*} (clock : ℕ → ℚ) (enum : Bool) (freq : ℚ) (n : ℕ) :
    ∃ s, PBar.new ([] : List α) (some 0) none enum freq = .ok s ∧
      PBar.drain clock (n + 1) s = ([], some .attributeError) := by
  exact ⟨_, rfl, rfl⟩

/-- **C07 (violated), estimated length 0.** With `est_len=0` and a slow clock the second element is lost
in a ZeroDivisionError. -/
theorem C07_progressbar_est_len_zero_violated :
    ∃ s, PBar.new [7, 8] none (some 0) false 1 = .ok s ∧
      PBar.drain (fun k => (k : ℚ) * 3) 3 s = ([.val 7], some .zeroDivision) := by
  refine ⟨_, rfl, ?_⟩
  decide +kernel

/-- Constructing a bar over a generator without `est_len` fails with a NameError. -/
theorem C07_progressbar_missing_est_len {α : Type*} (xs : List α) (enum : Bool) (freq : ℚ) :
    ∃ e, PBar.new xs none none enum freq = .error e ∧ e = .nameError := ⟨_, rfl, rfl⟩

end PiCF.Utils
