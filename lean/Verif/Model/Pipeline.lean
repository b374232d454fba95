import Verif.Model.Mitm
import Verif.Model.Estimator

/-!
# Model of the search in `main.py:119-160`: from the hashtable to the list of results
-/

namespace PiCF.Mitm
open PiCF.Hashtable PiCF.EnumPoly PiCF.ContFrac

variable {L : Type}

/-- What the search reads: the hashtable, what the LHS enumerator yields and how it ends, the text of numbers, the settings
of the `MITM` object; the accuracies and the evaluators of the three refinements (enum_params.py:233-261), the
convergence tests (construction of the continued fraction followed by `is_convergence_fast()`, respectively
`estimate_approach_type_and_params()`), and `numpy.roots`. -/
structure SearchEnv (L : Type) where
  table : Table (Val Entry)
  gen : List L × Except PyErr Unit
  eng : EngN
  trunc : Bool
  funcs : List (Num → Except PyErr Num)
  accuracy1 : ℤ
  eval1 : Polys → Polys → Option Conv → Except PyErr Num
  accuracy2 : ℤ
  eval2 : Polys → Polys → Option Conv → Except PyErr Num
  accuracy3 : ℤ
  eval3 : Polys → Polys → Option Conv → Except PyErr Num
  fast : Polys → Polys → Except PyErr Bool
  report : Polys → Polys → Except PyErr Unit
  printSlow : Bool
  build : Polys → Polys → Except PyErr Unit
  estimate : Polys → Polys → Except PyErr Conv
  roots : List ℤ → List (ℚ × ℚ)

/-- main.py:123-124 -/
def SearchEnv.refine1 (E : SearchEnv L) : RefineEnv := ⟨E.funcs, E.trunc, E.accuracy1, E.eng, E.eval1⟩

/-- main.py:135-137 -/
def SearchEnv.refine2 (E : SearchEnv L) : RefineEnv := ⟨E.funcs, E.trunc, E.accuracy2, E.eng, E.eval2⟩

/-- main.py:145-147 -/
def SearchEnv.refine3 (E : SearchEnv L) : RefineEnv := ⟨E.funcs, E.trunc, E.accuracy3, E.eng, E.eval3⟩

/-- A refinement that is not interrupted. -/
def refineAll (C : LhsClass L) (env : RefineEnv) : PyM (List (Click L)) Unit := fun cs =>
  match refineClicks C env (none, cs) with
  | (s, r) => (s.2, r)

/-- main.py:119-160.  The part before line 144 is not guarded against Ctrl-C (it ends the program), the interrupt is only
considered in the last stage.  `reset_hashtable` (line 122) does not touch the clicks. -/
def search (C : LhsClass L) (E : SearchEnv L) (budget : Option ℕ) : PyM (List (Click L)) Unit := do
  findClicks C E.eng E.trunc E.table E.gen
  refineAll C E.refine1
  filterUniq C
  filterExp E.fast E.report E.printSlow
  filterByApproach E.build E.estimate (some [.exp, .superExp]) none
  refineAll C E.refine2
  lastStage C E.refine3 E.roots budget

/-! ## The external functions as the code defines them -/

/-- enum_params.py:239-240, the evaluator of `refine_clicks_with_const_num_of_iters`. -/
def evalConst (n : ℕ) (a b : Polys) (_ : Option Conv) : Except PyErr Num := (evalByPolys a b n).map .fin

/-- enum_params.py:250-260, the evaluator of `refine_clicks_with_convergence_info`; `required` as in `genIterationsAcc`.
`cont_fracs.py:192-193` `set_approach_type_and_params` stores the pair. -/
def evalInfo (required : ℚ → ℚ → Except PyErr ℤ) (n accuracy : ℤ) (a b : Polys) (info : Option Conv) : Except PyErr Num :=
  match init a b with
  | .error e => .error e
  | .ok s =>
    let s := match info with
      | some t => { s with approachType := t.1, approachParams := t.2 }
      | none => s
    match genIterationsAcc required n (10 ^ (-(accuracy + 100))) true s with
    | (_, .error e) => .error e
    | (s, .ok ()) => .ok (getResult s)

/-- enum_params.py:352-353 with the defaults of cont_fracs.py:195. -/
def fastNew (a b : Polys) : Except PyErr Bool :=
  match init a b with
  | .error e => .error e
  | .ok s => (isConvergenceFast 600 200 50 s).2

/-- enum_params.py:376-379 with the defaults of cont_fracs.py:161. -/
def estimateNew (A : Analysis) (a b : Polys) : Except PyErr Conv :=
  match init a b with
  | .error e => .error e
  | .ok s =>
    match estimateApproachObj A 600 200 50 s with
    | (_, .error e) => .error e
    | (s, .ok ()) => .ok (s.approachType, s.approachParams)

/-- enum_params.py:355-359: what is executed for a click that does not converge fast if printing is requested, with the object on
which `is_convergence_fast` was called. -/
def reportNew (A : Analysis) (a b : Polys) : Except PyErr Unit :=
  match init a b with
  | .error e => .error e
  | .ok s => (estimateApproachObj A 600 200 50 (isConvergenceFast 600 200 50 s).1).2

/-- The search with these functions; `n1`, `n2`, `n3` are the numbers of iterations of main.py:123-147. -/
def SearchEnv.withCode (E : SearchEnv L) (A : Analysis) (required : ℚ → ℚ → Except PyErr ℤ) (n1 : ℕ) (n2 n3 : ℤ) : SearchEnv L :=
  { E with
    eval1 := evalConst n1
    eval2 := evalInfo required n2 E.accuracy2
    eval3 := evalInfo required n3 E.accuracy3
    fast := fastNew
    report := reportNew A
    build := fun a b => (init a b).map fun _ => ()
    estimate := estimateNew A }

end PiCF.Mitm
