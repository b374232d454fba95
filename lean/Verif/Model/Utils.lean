import Mathlib.Data.Rat.Defs
import Mathlib.Algebra.Order.Ring.Rat
import Mathlib.Algebra.BigOperators.Group.List.Basic
import Mathlib.Tactic.Linarith
import Verif.Py

/-!
# Model of `utils.py`
-/

namespace PiCF.Utils

/-! ## `MathOperations` (utils.py:52-75) -/

/-- utils.py:65-67, the loop `while b: a, b = b, a % b; return a`.
Python's `%` on ints is the floor modulus `Int.fmod`. -/
def gcdLoop (a b : ℤ) : ℤ :=
  if _h : b = 0 then a else gcdLoop b (a.fmod b)
termination_by b.natAbs
decreasing_by
  rcases lt_or_gt_of_ne _h with hb | hb
  · have h1 := Int.fmod_nonneg_of_pos (-a) (show 0 < -b by omega)
    have h2 := Int.fmod_lt_of_pos (-a) (show 0 < -b by omega)
    rw [Int.neg_fmod_neg] at h1 h2
    omega
  · have h1 := Int.fmod_nonneg_of_pos a hb
    have h2 := Int.fmod_lt_of_pos a hb
    omega

/-- utils.py:56-67 `MathOperations.gcd`.  The recursive call `cls.gcd(b, a)` of line 64 is made with
`b > a`, so its own guard is false and it goes straight to the loop; it is inlined here. -/
def gcd (a b : ℤ) : ℤ :=
  if b > a then gcdLoop b a else gcdLoop a b

/-- utils.py:69-75 `MathOperations.subs_in_polynom`: `sum([coeffs[j] * x ** j for j in range(len(coeffs))])`.
Over any commutative ring (the code uses it with `int` and `mpf`). -/
def subsInPolynom {R : Type*} [CommRing R] (coeffs : List R) (x : R) : R :=
  ((List.range coeffs.length).map (fun j => coeffs.getD j 0 * x ^ j)).sum

/-! ## `grouper` (utils.py:172-176) -/

/-- One round of `zip_longest(*args, fillvalue)` where all `args` are the *same* iterator
(utils.py:175): the slots are visited left to right; a slot whose iterator is exhausted becomes
inactive (it is replaced by `repeat(fillvalue)`) and the whole generator stops when the last active
slot becomes inactive.  `act` are the active flags, `rest` what the shared iterator still holds,
`na` the number of active slots.  Semantics from CPython's `zip_longest`. -/
def zlRound {α : Type*} (fill : α) : List Bool → List α → ℕ → Option (List α × List Bool × List α × ℕ)
  | [], rest, na => some ([], [], rest, na)
  | false :: act, rest, na =>
      match zlRound fill act rest na with
      | none => none
      | some (t, act', rest', na') => some (fill :: t, false :: act', rest', na')
  | true :: act, [], na =>
      if na - 1 = 0 then none
      else match zlRound fill act [] (na - 1) with
        | none => none
        | some (t, act', rest', na') => some (fill :: t, false :: act', rest', na')
  | true :: act, x :: rest, na =>
      match zlRound fill act rest na with
      | none => none
      | some (t, act', rest', na') => some (x :: t, true :: act', rest', na')

theorem zlRound_inv {α : Type*} (fill : α) :
    ∀ (act : List Bool) (rest : List α) (na : ℕ) (t : List α) (act' : List Bool) (rest' : List α) (na' : ℕ),
      zlRound fill act rest na = some (t, act', rest', na') → 0 < na → act.count true ≤ na →
      na' + act.count true = na + act'.count true ∧ 0 < na' ∧
        rest.length = rest'.length + act'.count true := by
  intro act
  induction act with
  | nil => intro rest na t act' rest' na' h hna hc; simp [zlRound] at h; obtain ⟨_, rfl, rfl, rfl⟩ := h; simp [hna]
  | cons f act ih =>
    intro rest na t act' rest' na' h hna hc
    cases f with
    | false =>
      simp only [zlRound] at h
      split at h
      · cases h
      · rename_i h'
        simp only [Option.some.injEq, Prod.mk.injEq] at h
        obtain ⟨_, rfl, rfl, rfl⟩ := h
        have := ih _ _ _ _ _ _ h' hna (by simpa using hc)
        simpa using this
    | true =>
      cases rest with
      | nil =>
        simp only [zlRound] at h
        split at h
        · cases h
        · split at h
          · cases h
          · rename_i hne _ _ _ _ _ h'
            simp only [Option.some.injEq, Prod.mk.injEq] at h
            obtain ⟨_, rfl, rfl, rfl⟩ := h
            have hc' : act.count true + 1 ≤ na := by simpa using hc
            have := ih _ _ _ _ _ _ h' (by omega) (by omega)
            simp only [List.count_cons_self, List.count_cons_of_ne (show (false : Bool) ≠ true by decide)]
            omega
      | cons x rest =>
        simp only [zlRound] at h
        split at h
        · cases h
        · rename_i h'
          simp only [Option.some.injEq, Prod.mk.injEq] at h
          obtain ⟨_, rfl, rfl, rfl⟩ := h
          have hc' : act.count true + 1 ≤ na := by simpa using hc
          have := ih _ _ _ _ _ _ h' hna (by omega)
          simp only [List.count_cons_self, List.length_cons]
          omega

/-- The generator returned by `zip_longest`: rounds until one of them stops
(with no active slot it stops at once, in particular for no iterables at all). -/
def zlRun {α : Type*} (fill : α) (act : List Bool) (rest : List α) : List (List α) :=
  if _hz : act.count true = 0 then []
  else match _h : zlRound fill act rest (act.count true) with
    | none => []
    | some (t, act', rest', _na') => t :: zlRun fill act' rest'
termination_by rest.length
decreasing_by
  have := zlRound_inv fill _ _ _ _ _ _ _ _h (by omega) (le_refl _)
  omega

/-- utils.py:172-176 `grouper(iterable, n, fillvalue)`: `zip_longest(*[iter(iterable)] * n)`. -/
def grouper {α : Type*} (iterable : List α) (n : ℕ) (fill : α) : List (List α) :=
  zlRun fill (List.replicate n true) iterable

/-! ## `MeasureRuntime` (utils.py:7-49) -/

/-- utils.py:16-20 and 27: the attributes.  `times` is the two-element list as two fields; clock
readings are rationals. `startTime = none` means the attribute `_start_time` does not exist yet. -/
structure Stopper where
  currentIndex : ℕ := 0
  previousIndex : ℕ := 0
  time0 : ℚ := 0
  time1 : ℚ := 0
  started : Bool := false
  startTime : Option ℚ := none
  deriving DecidableEq, Repr

/-- `self.times[i]` (the index is 0 or 1). -/
def Stopper.times (s : Stopper) (i : ℕ) : ℚ := if i = 0 then s.time0 else s.time1

/-- `self.times[i] = t` -/
def Stopper.setTimes (s : Stopper) (i : ℕ) (t : ℚ) : Stopper :=
  if i = 0 then { s with time0 := t } else { s with time1 := t }

/-- utils.py:22-30 `start_measure`; `now` is the reading of `time.time()`. -/
def Stopper.startMeasure (s : Stopper) (now : ℚ) : Stopper :=
  if s.started then s
  else
    let s := { s with startTime := some now }
    let s := s.setTimes s.currentIndex now
    { s with currentIndex := (s.currentIndex + 1) % 2, started := true }

/-- utils.py:32-37 `measure_time` -/
def Stopper.measureTime (s : Stopper) (now : ℚ) : Stopper × ℚ :=
  let s := s.setTimes s.currentIndex now
  let s := { s with previousIndex := s.currentIndex }
  let s := { s with currentIndex := (s.currentIndex + 1) % 2 }
  (s, s.times s.previousIndex - s.times s.currentIndex)

/-- utils.py:39-41 `get_total_runtime` (AttributeError before `start_measure`). -/
def Stopper.getTotalRuntime (s : Stopper) (now : ℚ) : Except PyErr ℚ :=
  match s.startTime with
  | none => .error .attributeError
  | some t => .ok (now - t)

/-- utils.py:43-45 `get_last_measured_time` -/
def Stopper.getLastMeasuredTime (s : Stopper) : ℚ :=
  s.times s.previousIndex - s.times s.currentIndex

/-! ## `ProgressBar` (utils.py:78-169) -/

/-- utils.py:163-169 `_secs_to_days_hrs_mins_secs`, applied to the already rounded number of seconds
(`round(seconds)` of line 166 is not modelled). Python `divmod` is floor division. -/
def secsToDHMS (seconds : ℤ) : ℤ × ℤ × ℤ × ℤ :=
  let minutes := seconds.fdiv 60
  let seconds := seconds.fmod 60
  let hours := minutes.fdiv 60
  let minutes := minutes.fmod 60
  let days := hours.fdiv 24
  let hours := hours.fmod 24
  (days, hours, minutes, seconds)

/-- The attributes set in utils.py:82-113, plus the state of the underlying `enumerate` iterator
(`rest`, `index`).  The printed text is not modelled. `tick` counts the readings of the clock. -/
structure PBar (α : Type*) where
  rest : List α
  index : ℕ := 0
  shouldEnum : Bool
  updateFrequency : ℚ
  estimatedLength : ℤ
  stopper : Stopper := {}
  printingTimeCounter : ℚ := 0
  leftTime : ℚ := 0
  numOfIters : ℕ := 0
  passedTime : ℚ := 0
  tick : ℕ := 0

/-- utils.py:82-113 `__new__`.  `len?` is `len(args[0])` if the iterable has `__len__`.
For a missing `est_len` and an iterable without `__len__`, line 100 evaluates the name `exc`, which
python deletes at the end of the `except` block of lines 93-94, so the error is a NameError
(UnboundLocalError) rather than the intended ValueError. -/
def PBar.new {α : Type*} (items : List α) (len? : Option ℤ) (estLen : Option ℤ) (shouldEnum : Bool)
    (updateFreq : ℚ) : Except PyErr (PBar α) :=
  match estLen with
  | some l => .ok { rest := items, shouldEnum := shouldEnum, updateFrequency := updateFreq, estimatedLength := l }
  | none =>
    match len? with
    | none => .error .nameError
    | some l => .ok { rest := items, shouldEnum := shouldEnum, updateFrequency := updateFreq, estimatedLength := l }

/-- What `__next__` hands out: the element, with its index if `enumerate=True`. -/
inductive PBItem (α : Type*) where
  | val (v : α)
  | enum (i : ℕ) (v : α)
  deriving DecidableEq, Repr

/-- utils.py:115-161 `__next__`.  `clock k` is the `k`-th reading of the clock.  All arithmetic
(including the divisions of lines 144-146 and 151) is exact. Printing is not modelled, but the
expressions printed are evaluated where they can fail. -/
def PBar.next {α : Type*} (clock : ℕ → ℚ) (s : PBar α) : PBar α × Except PyErr (PBItem α) :=
  match s.rest with
  | [] =>
    -- lines 120-123
    match s.stopper.getTotalRuntime (clock s.tick) with
    | .error e => (s, .error e)
    | .ok _ => ({ s with tick := s.tick + 1 }, .error .stopIteration)
  | v :: rest =>
    let i := s.index
    let s := { s with rest := rest, index := i + 1 }
    let out : PBItem α := if s.shouldEnum then .enum i v else .val v
    if i = 0 then
      -- lines 126-128
      ({ s with stopper := s.stopper.startMeasure (clock s.tick), tick := s.tick + 1 }, .ok out)
    else
      -- line 130
      let (st, d) := s.stopper.measureTime (clock s.tick)
      let s := { s with stopper := st, printingTimeCounter := s.printingTimeCounter + d, tick := s.tick + 1 }
      if s.printingTimeCounter > s.updateFrequency then
        -- lines 144-146
        let den : ℚ := i - (1/5 : ℚ) * s.numOfIters
        if den = 0 then (s, .error .zeroDivision)
        else
          let est := ((4/5 : ℚ) * s.passedTime + s.printingTimeCounter) / den * ((s.estimatedLength : ℚ) - i)
          -- line 148
          match s.stopper.getTotalRuntime (clock s.tick) with
          | .error e => (s, .error e)
          | .ok total =>
            let s := { s with tick := s.tick + 1 }
            -- line 151
            if s.estimatedLength = 0 then (s, .error .zeroDivision)
            else
              ({ s with leftTime := est, numOfIters := i, passedTime := total, printingTimeCounter := 0 }, .ok out)
      else (s, .ok out)

/-- A `for` loop over the bar: calls `__next__` until it raises; returns what was handed out and the
exception that ended the loop (`StopIteration` for a normal end).  `fuel` bounds the number of calls,
`none` if more calls are needed. -/
def PBar.drain {α : Type*} (clock : ℕ → ℚ) : ℕ → PBar α → List (PBItem α) × Option PyErr
  | 0, _ => ([], none)
  | fuel + 1, s =>
    match s.next clock with
    | (_, .error e) => ([], some e)
    | (s', .ok x) =>
      let (xs, e) := PBar.drain clock fuel s'
      (x :: xs, e)

end PiCF.Utils
