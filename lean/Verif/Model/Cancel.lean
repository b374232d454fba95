import Verif.Model.Pipeline

/-!
# Model of the last stage of a search with Ctrl-C at any point (main.py:144-160)

`Mitm.lastStage` delivers the interrupt only in the refinement.  Here it may also be delivered in the filters that follow: between two
comparisons of `filter_uniq_params` and before `filter_pos_integer_roots_numerators` assigns its result.  A comparison (`is_equiv`) is atomic
with respect to interrupts, like the methods called in the refinement.
-/

namespace PiCF.Mitm
open PiCF.EnumPoly

variable {L : Type}

/-- The steps left after one step; `none`: the interrupt is delivered now. -/
def step : Option ℕ → Option (Option ℕ)
  | none => some none
  | some 0 => none
  | some (n + 1) => some (some n)

/-- enum_params.py:320-325, as `uniqInner`. -/
def uniqInnerB (C : LhsClass L) : Option ℕ → List (Click L × Bool) → Click L →
    Option ℕ × List (Click L × Bool) × Click L × Except PyErr Bool
  | b, [], p => (b, [], p, .ok true)
  | b, (u, false) :: us, p =>
    match uniqInnerB C b us p with
    | (b, us, p, r) => (b, (u, false) :: us, p, r)
  | b, (u, true) :: us, p =>
    match step b with
    | none => (none, (u, true) :: us, p, .error .keyboardInterrupt)
    | some b =>
      match C.equiv u p with
      | (l, l', .error e) => (b, ({ u with lhs := l }, true) :: us, { p with lhs := l' }, .error e)
      | (l, l', .ok true) => (b, ({ u with lhs := l }, true) :: us, { p with lhs := l' }, .ok false)
      | (l, l', .ok false) =>
        match uniqInnerB C b us { p with lhs := l' } with
        | (b, us, p, r) => (b, ({ u with lhs := l }, true) :: us, p, r)

/-- The loop of enum_params.py:319, as `uniqLoop`. -/
def uniqLoopB (C : LhsClass L) : Option ℕ → List (Click L × Bool) → List (Click L) →
    Option ℕ × List (Click L × Bool) × List (Click L) × Except PyErr Unit
  | b, done, [] => (b, done, [], .ok ())
  | b, done, p :: ps =>
    match step b with
    | none => (none, done, p :: ps, .error .keyboardInterrupt)
    | some b =>
      match uniqInnerB C b done p with
      | (b, done, p, .error e) => (b, done, p :: ps, .error e)
      | (b, done, p, .ok isUniq) => uniqLoopB C b (done ++ [(p, isUniq)]) ps

/-- enum_params.py:312-328 `filter_uniq_params`; the list is assigned only at the end, but the objects in the old list are modified on the
way. -/
def filterUniqB (C : LhsClass L) : PyM (Option ℕ × List (Click L)) Unit := fun s =>
  match uniqLoopB C s.1 [] s.2 with
  | (b, done, _, .ok ()) => ((b, (done.filter (·.2)).map (·.1)), .ok ())
  | (b, done, rest, .error e) => ((b, done.map (·.1) ++ rest), .error e)

/-- enum_params.py:330-341 `filter_pos_integer_roots_numerators`, which changes no object. -/
def filterRootsB (roots : List ℤ → List (ℚ × ℚ)) : PyM (Option ℕ × List (Click L)) Unit := fun s =>
  match step s.1 with
  | none => ((none, s.2), .error .keyboardInterrupt)
  | some b => ((b, (filterPosIntRoots roots s.2).1), (filterPosIntRoots roots s.2).2)

/-- main.py:145-157, the body of the `try`. -/
def lastBody (C : LhsClass L) (env : RefineEnv) (roots : List ℤ → List (ℚ × ℚ)) : PyM (Option ℕ × List (Click L)) Unit := do
  refineClicks C env
  filterUniqB C
  filterUniqB C
  filterRootsB roots

/-- main.py:144-160: `except KeyboardInterrupt` ends the stage, other exceptions pass. -/
def lastStageB (C : LhsClass L) (env : RefineEnv) (roots : List ℤ → List (ℚ × ℚ)) (budget : Option ℕ) : PyM (List (Click L)) Unit := fun cs =>
  match lastBody C env roots (budget, cs) with
  | (s, .error .keyboardInterrupt) => (s.2, .ok ())
  | (s, r) => (s.2, r)

/-- main.py:119-143, before the part that can be cancelled. -/
def searchFirst (C : LhsClass L) (E : SearchEnv L) : PyM (List (Click L)) Unit := do
  findClicks C E.eng E.trunc E.table E.gen
  refineAll C E.refine1
  filterUniq C
  filterExp E.fast E.report E.printSlow
  filterByApproach E.build E.estimate (some [.exp, .superExp]) none
  refineAll C E.refine2

/-- main.py:119-160, as `search`, with the interrupt anywhere in the last stage. -/
def searchB (C : LhsClass L) (E : SearchEnv L) (budget : Option ℕ) : PyM (List (Click L)) Unit := do
  searchFirst C E
  lastStageB C E.refine3 E.roots budget

end PiCF.Mitm
