import Mathlib.Data.Rat.Floor
import Verif.Model.Hashtable
import Verif.Model.EnumPoly
import Verif.Model.Num

/-!
# Model of `enum_params.py` (class `MITM`) and of the last stage of `main.py`

The LHS classes are used through an interface (`LhsClass`), instantiated with the models of the two classes in
`Verif/Props/MitmLhs.lean`.  Progress bars and printing are not modelled.
-/

namespace PiCF.Mitm
open PiCF.Hashtable PiCF.EnumPoly PiCF.ContFrac

/-! ## Numbers -/

/-- `int(x)` of an `mpf`: truncation towards zero; ValueError for inf and NaN. -/
def toInt : Num → Except PyErr ℤ
  | .fin q => .ok (if 0 ≤ q then ⌊q⌋ else ⌈q⌉)
  | .inf => .error .valueError
  | .nan => .error .valueError

/-- `abs(x)` -/
def absNum : Num → Num
  | .fin q => .fin |q|
  | .inf => .inf
  | .nan => .nan

/-- `x - n` for an integer `n` -/
def subInt (x : Num) (n : ℤ) : Num :=
  match x with
  | .fin q => .fin (q - n)
  | .inf => .inf
  | .nan => .nan

/-- `x - y`; anything with inf or NaN is NaN here (only its `int()`, which raises in all these cases, is used). -/
def subNum : Num → Num → Num
  | .fin p, .fin q => .fin (p - q)
  | _, _ => .nan

/-- `x > 0` (False for NaN) -/
def isPos : Num → Bool
  | .fin q => decide (0 < q)
  | .inf => true
  | .nan => false

/-- `x < 0` (False for NaN; negative infinity does not occur) -/
def isNeg : Num → Bool
  | .fin q => decide (q < 0)
  | .inf => false
  | .nan => false

/-- enum_params.py:193-194, 215-216, 287-289: `x -= int(x)` if `trunc_integer`. -/
def truncate (trunc : Bool) (x : Num) : Except PyErr Num :=
  if trunc then
    match toInt x with
    | .error e => .error e
    | .ok n => .ok (subInt x n)
  else .ok x

/-- Text of a number, `to_eng_string()` (a parameter, see `Hashtable.Eng`). -/
abbrev EngN := Num → Except PyErr Str

/-- `mpf` has no such method. -/
def mpfEngN : EngN := fun _ => .error .attributeError

/-! ## Building the hashtable -/

/-- What `_iter2hashtalbe` reads.  `cfv` is `eval_dec_contfrac_by_polys(·, ·, num_of_iterations)`, `funcs` the list
`self.postproc_funcs`, `filter` is `self.postproc_funcs_filter` (non-negative indices), `order` the iteration order
of python sets. -/
structure Env where
  funcs : List (Num → Except PyErr Num)
  filter : List ℕ
  trunc : Bool
  cfv : Polys → Polys → Except PyErr Num
  order : List ℕ → List ℕ

/-- Objects that are members of the sets of enum_params.py:137, 145, 159: pairs `(i, f)` (the second component is
determined by `i`), and plain integers. -/
inductive Obj where
  | pair (i : ℕ)
  | int (i : ℕ)
  deriving DecidableEq

/-- State of `_iter2hashtalbe`: the hashtable, whether the local variable `k` is bound, and (ghost) the logs of the
continued fractions and functions evaluated. -/
structure BSt where
  table : Table (Val Entry)
  kBound : Bool
  evals : List (Polys × Polys)
  fevals : List Entry
  deriving DecidableEq

/-- enum_params.py:137, the set of selected functions (as the list of its members without repetitions); IndexError for a
bad index. -/
def selected (env : Env) : Except PyErr (List Obj) :=
  if env.filter.all (fun i => decide (i < env.funcs.length)) then .ok (env.filter.dedup.map .pair) else .error .indexError

/-- The blacklist of enum_params.py:139-145, as the list of its `(ab, index)` pairs.  A value that is not a list (the
parameters dict when its key was cut off) cannot be unpacked: ValueError. -/
def blacklist : Dict Key (Val Entry) → Except PyErr (List Entry)
  | [] => .ok []
  | (k, v) :: rest =>
    if k = paramsKey then blacklist rest
    else
      match v with
      | .item _ => .error .valueError
      | .list es =>
        match blacklist rest with
        | .error e => .error e
        | .ok l => .ok (es ++ l)

/-- enum_params.py:157-163: `filtered_postproc_funcs - ab_blacklist[(pa, pb)]`; the members of the second set are plain
integers.  `none`: `continue`. -/
def toEval (sel : List Obj) (bl : List Entry) (pa pb : Polys) : Option (List Obj) :=
  if bl.any (fun e => decide (e.1 = (pa, pb))) then
    let black : List Obj := (bl.filter fun e => decide (e.1 = (pa, pb))).map fun e => .int e.2
    let rest := sel.filter fun o => decide (o ∉ black)
    if rest.isEmpty then none else some rest
  else some sel

/-- enum_params.py:195-196, with the inherited (raw key) methods `get` and `setdefault`; the list is appended in place.  For
a value that is not a list python raises on `append` (or on `in`): AttributeError. -/
def store (k : ℚ) (e : Entry) : PyM BSt Unit := fun s =>
  match s.table.get (.num k) (.list []) with
  | .item _ => (s, .error .attributeError)
  | .list es =>
    if e ∈ es then (s, .ok ())
    else ({ s with table := { s.table with data := s.table.data.set (.num k) (.list (es ++ [e])) } }, .ok ())

/-- enum_params.py:179-196, the body of the loop over the functions.  If the function raises, the handler prints `k`, which
raises UnboundLocalError (a NameError) if `k` was never assigned. -/
def funcBody (env : Env) (pa pb : Polys) (v : Num) (i : ℕ) : PyM BSt Unit := fun s =>
  let s := { s with fevals := s.fevals ++ [((pa, pb), i)] }
  match env.funcs[i]? with
  | none => (s, .error .indexError)
  | some f =>
    match f v with
    | .error e => (s, .error (if s.kBound then e else .nameError))
    | .ok k =>
      let s := { s with kBound := true }
      if k.isNormal then
        match truncate env.trunc (absNum k) with
        | .error e => (s, .error e)
        | .ok (.fin q) => store q ((pa, pb), i) s
        | .ok _ => (s, .error .typeError)
      else (s, .ok ())

/-- The loop of enum_params.py:179. -/
def funcLoop (env : Env) (pa pb : Polys) (v : Num) : List ℕ → PyM BSt Unit
  | [] => pure ()
  | i :: is => do
    funcBody env pa pb v i
    funcLoop env pa pb v is

/-- The index of a member of the set. -/
def Obj.index : Obj → ℕ
  | .pair i => i
  | .int i => i

/-- enum_params.py:156-196, the body of the loop over the generator. -/
def abBody (env : Env) (sel : List Obj) (bl : List Entry) (pa pb : Polys) : PyM BSt Unit := fun s =>
  match toEval sel bl pa pb with
  | none => (s, .ok ())
  | some objs =>
    let s := { s with evals := s.evals ++ [(pa, pb)] }
    match env.cfv pa pb with
    | .error .zeroDivision => (s, .ok ())
    | .error e => (s, .error e)
    | .ok v => if v.isNormal then funcLoop env pa pb v (env.order (objs.map Obj.index)) s else (s, .ok ())

/-- The loop of enum_params.py:156. -/
def abLoop (env : Env) (sel : List Obj) (bl : List Entry) : List (Polys × Polys) → PyM BSt Unit
  | [] => pure ()
  | ab :: rest => do
    abBody env sel bl ab.1 ab.2
    abLoop env sel bl rest

/-- enum_params.py:135-197 `_iter2hashtalbe`.  `gen` is what the generator yields and how it ends. -/
def iter2hashtable (env : Env) (validate : Bool) (gen : List (Polys × Polys) × Except PyErr Unit) : PyM BSt Unit := fun s =>
  match selected env with
  | .error e => (s, .error e)
  | .ok sel =>
    match (if validate then blacklist s.table.data else .ok []) with
    | .error e => (s, .error e)
    | .ok bl =>
      match abLoop env sel bl gen.1 s with
      | (s, .error e) => (s, .error e)
      | (s, .ok ()) => (s, gen.2)

/-- enum_params.py:123-133 `build_hashtable` on a table.  The generator is that of `enum_poly_params.py` with
`should_gen_contfrac=False` (enum_params.py:68-72), so it does not depend on the consumer. -/
def buildHashtable (env : Env) (manip : Manip) (cfg : Config) (validate : Bool) (ra rb : Ranges) :
    PyM (Table (Val Entry)) Unit := fun t =>
  let g := polysGenerator manip { cfg with genContFrac := false } ra rb
  let r := iter2hashtable env validate (g.1.map fun it => (it.pas, it.pbs), g.2) ⟨t, false, [], []⟩
  (r.1.table, r.2)

/-- The evaluation used by the class: enum_params.py:166 (exact). -/
def polysValue (depth : ℕ) (pa pb : Polys) : Except PyErr Num :=
  match evalByPolys pa pb depth with
  | .error e => .error e
  | .ok q => .ok (.fin q)

/-! ## Clicks -/

/-- Convergence information `(approach_type, approach_params)`. -/
abbrev Conv := ApproachType × Option (ℚ × ℚ)

/-- A click `((a, b), lhs object, index of the function, convergence info)`. -/
structure Click (L : Type) where
  a : Polys
  b : Polys
  lhs : L
  post : ℕ
  conv : Option Conv

/-- The methods of an LHS class used here (lhs_evaluators.py).  `copy` is construction from another object, `equiv` is
`is_equiv`, which may change both objects. -/
structure LhsClass (L : Type) where
  val : L → Num
  copy : L → Except PyErr L
  isDegenerate : PyM L Bool
  flipSign : PyM L Unit
  addInt : ℤ → PyM L Unit
  canon : PyM L Unit
  equiv : Click L → Click L → L × L × Except PyErr Bool

variable {L : Type}

/-- enum_params.py:229-230: one click per stored entry, with a fresh copy each. -/
def makeClicks (C : LhsClass L) (o : L) : List Entry → Except PyErr (List (Click L))
  | [] => .ok []
  | e :: es =>
    match C.copy o with
    | .error err => .error err
    | .ok l =>
      match makeClicks C o es with
      | .error err => .error err
      | .ok cs => .ok (⟨e.1.1, e.1.2, l, e.2, none⟩ :: cs)

/-- enum_params.py:214-230, the body of the loop for one enumerated LHS.  The key of a number is its text cut off
(`_manipulate_key`), so the lookups are written with the text. -/
def clicksOf (C : LhsClass L) (eng : EngN) (trunc : Bool) (t : Table (Val Entry)) (o : L) : Except PyErr (List (Click L)) :=
  match truncate trunc (absNum (C.val o)) with
  | .error e => .error e
  | .ok r =>
    match eng r with
    | .error e => .error e
    | .ok s =>
      let tableEng : Eng := fun q => eng (.fin q)
      match t.containsItem tableEng (.str s) with
      | .error e => .error e
      | .ok false => .ok []
      | .ok true =>
        match C.isDegenerate o with
        | (_, .error e) => .error e
        | (_, .ok true) => .ok []
        | (o, .ok false) =>
          match t.getItem tableEng (.str s) with
          | .error e => .error e
          | .ok (.item _) => .error .valueError
          | .ok (.list es) => makeClicks C o es

/-- The loop of enum_params.py:213. -/
def clicksLoop (C : LhsClass L) (eng : EngN) (trunc : Bool) (t : Table (Val Entry)) : List L → Except PyErr (List (Click L))
  | [] => .ok []
  | o :: os =>
    match clicksOf C eng trunc t o with
    | .error e => .error e
    | .ok cs =>
      match clicksLoop C eng trunc t os with
      | .error e => .error e
      | .ok cs' => .ok (cs ++ cs')

/-- enum_params.py:199-232 `find_clicks`, as an operation on `self.filtered_params`, assigned only at the end.  `gen`: what
the LHS enumerator yields and how it ends. -/
def findClicks (C : LhsClass L) (eng : EngN) (trunc : Bool) (t : Table (Val Entry)) (gen : List L × Except PyErr Unit) :
    PyM (List (Click L)) Unit := fun old =>
  match clicksLoop C eng trunc t gen.1 with
  | .error e => (old, .error e)
  | .ok cs =>
    match gen.2 with
    | .error e => (old, .error e)
    | .ok () => (cs, .ok ())

/-! ## Refinement -/

/-- enum_params.py:501-508 `compare_dec_with_accuracy`; note that 1 is added twice. -/
def compareDec (eng : EngN) (d1 d2 : Num) (accuracy : ℤ) : Except PyErr Bool :=
  match eng d1 with
  | .error e => .error e
  | .ok s1 =>
    match eng d2 with
    | .error e => .error e
    | .ok s2 => .ok (decide (sliceTo s1 (accuracy + 1 + 1) = sliceTo s2 (accuracy + 1 + 1)))

/-- What `_refine_clicks` reads. `eval` is the evaluator of the continued fraction. -/
structure RefineEnv where
  funcs : List (Num → Except PyErr Num)
  trunc : Bool
  accuracy : ℤ
  eng : EngN
  eval : Polys → Polys → Option Conv → Except PyErr Num

/-- A click being refined, with the number of steps left until the user presses Ctrl-C (`none`: never). -/
structure RSt (L : Type) where
  budget : Option ℕ
  click : Click L

/-- A point where a KeyboardInterrupt may be delivered (it is delivered once). -/
def tick : PyM (RSt L) Unit := fun s =>
  match s.budget with
  | none => (s, .ok ())
  | some 0 => ({ s with budget := none }, .error .keyboardInterrupt)
  | some (n + 1) => ({ s with budget := some n }, .ok ())

/-- A method call on the LHS object of the click. -/
def onLhs {α : Type} (m : PyM L α) : PyM (RSt L) α := fun s =>
  match m s.click.lhs with
  | (l, r) => ({ s with click := { s.click with lhs := l } }, r)

/-- Raise or return. -/
def lift {σ α : Type} : Except PyErr α → PyM σ α
  | .ok a => pure a
  | .error e => PyM.raise e

/-- `try: body except: raise RuntimeError(msg)` (enum_params.py:301-305): a bare `except`, it also catches
KeyboardInterrupt.  The message is made first, with `int(signed_rhs - signed_lhs)` (`arg`) evaluated again: if that is what
failed, it fails in the handler too and its own exception is what is seen. -/
def asRuntimeError {σ α : Type} (arg : Except PyErr ℤ) (m : PyM σ α) : PyM σ α := fun s =>
  match m s with
  | (s, .error _) =>
    match arg with
    | .error e => (s, .error e)
    | .ok _ => (s, .error .runtimeError)
  | r => r

/-- enum_params.py:275: `self.postproc_funcs[i](contfrac_evaluator(ab, accuracy, convergence_info))` -/
def rhsValue (env : RefineEnv) (c : Click L) : Except PyErr Num :=
  match env.funcs[c.post]? with
  | none => .error .indexError
  | some f =>
    match env.eval c.a c.b c.conv with
    | .error e => .error e
    | .ok v => f v

/-- enum_params.py:297: the signs differ. -/
def signsDiffer (rhs lhs : Num) : Bool := (isPos lhs && isNeg rhs) || (isNeg lhs && isPos rhs)

/-- `x * -1` -/
def negNum : Num → Num
  | .fin q => .fin (q * -1)
  | x => x

/-- enum_params.py:297-300: `flip_sign()` if the signs differ. -/
def flipIf (C : LhsClass L) (flip : Bool) : PyM (RSt L) Unit := if flip then onLhs C.flipSign else pure ()

/-- enum_params.py:301-302, the body of the `try`. -/
def addDifference (C : LhsClass L) (rhs lhs : Num) : PyM (RSt L) Unit := do
  tick
  let n ← lift (toInt (subNum rhs lhs))
  onLhs (C.addInt n)

/-- enum_params.py:297-309: the adjustment of a click whose sides agree. -/
def adjust (C : LhsClass L) (rhs lhs : Num) : PyM (RSt L) Unit := do
  tick
  flipIf C (signsDiffer rhs lhs)
  tick
  asRuntimeError (toInt (subNum rhs (if signsDiffer rhs lhs then negNum lhs else lhs)))
    (addDifference C rhs (if signsDiffer rhs lhs then negNum lhs else lhs))
  tick
  onLhs C.canon
  tick

/-- enum_params.py:274-309, the body of the loop; the result says whether the click is kept. The methods of the LHS object
are taken as atomic with respect to interrupts. -/
def refineOne (C : LhsClass L) (env : RefineEnv) : PyM (RSt L) Bool := do
  tick
  let s ← PyM.get
  match rhsValue env s.click with
  | .error .zeroDivision => pure false
  | .error e => PyM.raise e
  | .ok signedRhs => do
    tick
    if signedRhs.isNormal then do
      let signedLhs := C.val s.click.lhs
      let rhs ← lift (truncate env.trunc (absNum signedRhs))
      let lhs ← lift (truncate env.trunc (absNum signedLhs))
      let same ← lift (compareDec env.eng rhs lhs env.accuracy)
      if same then do
        adjust C signedRhs signedLhs
        pure true
      else pure false
    else pure false

/-- The loop of enum_params.py:273.  Returns the steps left, the list iterated over (with the objects as they are now), the
new list, and how the loop ends. -/
def refineLoop (C : LhsClass L) (env : RefineEnv) : Option ℕ → List (Click L) →
    Option ℕ × List (Click L) × List (Click L) × Except PyErr Unit
  | b, [] => (b, [], [], .ok ())
  | b, c :: cs =>
    match refineOne C env ⟨b, c⟩ with
    | (s, .error e) => (s.budget, s.click :: cs, [], .error e)
    | (s, .ok keep) =>
      match refineLoop C env s.budget cs with
      | (b, all, kept, r) => (b, s.click :: all, if keep then s.click :: kept else kept, r)

/-- enum_params.py:263-310 `_refine_clicks` on `(steps left, self.filtered_params)`; the new list is assigned only at the
end, but the objects in the old list are modified on the way. -/
def refineClicks (C : LhsClass L) (env : RefineEnv) : PyM (Option ℕ × List (Click L)) Unit := fun s =>
  match refineLoop C env s.1 s.2 with
  | (b, _, kept, .ok ()) => ((b, kept), .ok ())
  | (b, all, _, .error e) => ((b, all), .error e)

/-! ## Filters -/

/-- enum_params.py:320-325, comparing one click with the unique ones found so far.  The list holds the clicks handled so
far, flagged if they are unique. -/
def uniqInner (C : LhsClass L) : List (Click L × Bool) → Click L → List (Click L × Bool) × Click L × Except PyErr Bool
  | [], p => ([], p, .ok true)
  | (u, false) :: us, p =>
    match uniqInner C us p with
    | (us, p, r) => ((u, false) :: us, p, r)
  | (u, true) :: us, p =>
    match C.equiv u p with
    | (l, l', .error e) => (({ u with lhs := l }, true) :: us, { p with lhs := l' }, .error e)
    | (l, l', .ok true) => (({ u with lhs := l }, true) :: us, { p with lhs := l' }, .ok false)
    | (l, l', .ok false) =>
      match uniqInner C us { p with lhs := l' } with
      | (us, p, r) => (({ u with lhs := l }, true) :: us, p, r)

/-- The loop of enum_params.py:319. -/
def uniqLoop (C : LhsClass L) : List (Click L × Bool) → List (Click L) → List (Click L × Bool) × List (Click L) × Except PyErr Unit
  | done, [] => (done, [], .ok ())
  | done, p :: ps =>
    match uniqInner C done p with
    | (done, p, .error e) => (done, p :: ps, .error e)
    | (done, p, .ok isUniq) => uniqLoop C (done ++ [(p, isUniq)]) ps

/-- enum_params.py:312-328 `filter_uniq_params` -/
def filterUniq (C : LhsClass L) : PyM (List (Click L)) Unit := fun cs =>
  match uniqLoop C [] cs with
  | (done, _, .ok ()) => ((done.filter (·.2)).map (·.1), .ok ())
  | (done, rest, .error e) => (done.map (·.1) ++ rest, .error e)

/-- `x.round()` of a numpy float: to the nearest integer, ties to the even one. -/
def roundEven (x : ℚ) : ℤ :=
  if x - ⌊x⌋ < 1 / 2 then ⌊x⌋ else if 1 / 2 < x - ⌊x⌋ then ⌊x⌋ + 1 else if ⌊x⌋ % 2 = 0 then ⌊x⌋ else ⌊x⌋ + 1

/-- enum_params.py:337, the test of one root `re + im * i`. -/
def isPosIntRoot (r : ℚ × ℚ) : Bool :=
  decide (|r.2| < 1 / 1000) && decide (r.1 - roundEven r.1 < 1 / 1000) && decide (1 / 1000 < r.1)

/-- enum_params.py:330-341 `filter_pos_integer_roots_numerators`; `roots` is `numpy.roots` (of the reversed coefficient
list). -/
def filterPosIntRoots (roots : List ℤ → List (ℚ × ℚ)) : PyM (List (Click L)) Unit := fun cs =>
  (cs.filter fun c => !((c.b.flatMap fun p => roots p.reverse).any isPosIntRoot), .ok ())

/-- enum_params.py:343-360 `filter_only_exp_convergence`; `fast` is construction of the continued fraction followed by
`is_convergence_fast()`, `report` what is executed for a dropped click when printing is requested. -/
def filterExp (fast : Polys → Polys → Except PyErr Bool) (report : Polys → Polys → Except PyErr Unit) (print : Bool) :
    PyM (List (Click L)) Unit := fun cs =>
  let rec loop : List (Click L) → Except PyErr (List (Click L))
    | [] => .ok []
    | c :: cs =>
      match fast c.a c.b with
      | .error e => .error e
      | .ok true =>
        match loop cs with
        | .error e => .error e
        | .ok r => .ok (c :: r)
      | .ok false =>
        match (if print then report c.a c.b else .ok ()) with
        | .error e => .error e
        | .ok () => loop cs
  match loop cs with
  | .error e => (cs, .error e)
  | .ok r => (r, .ok ())

/-- The loop of enum_params.py:374-388. `build` is the constructor call (outside the `try`), `estimate` the two calls
inside it; `except Exception` does not catch KeyboardInterrupt.  What the handler prints (which needs `to_eng_string` of the value
of the LHS, like everything before it) is not modelled. -/
def approachLoop (build : Polys → Polys → Except PyErr Unit) (estimate : Polys → Polys → Except PyErr Conv)
    (white black : List ApproachType) : List (Click L) → Except PyErr (List (Click L))
  | [] => .ok []
  | c :: cs =>
    match build c.a c.b with
    | .error e => .error e
    | .ok () =>
      match estimate c.a c.b with
      | .error .keyboardInterrupt => .error .keyboardInterrupt
      | .error _ => approachLoop build estimate white black cs
      | .ok conv =>
        match approachLoop build estimate white black cs with
        | .error e => .error e
        | .ok r =>
          if (white ≠ [] ∧ conv.1 ∈ white) ∨ (black ≠ [] ∧ conv.1 ∉ black) then .ok ({ c with conv := some conv } :: r)
          else .ok r

/-- The default of the parameter `whitelist` (enum_params.py:362). -/
def defaultWhitelist : List ApproachType := [.exp, .superExp, .fast]

/-- enum_params.py:362-389 `filter_clicks_by_approach_type`; `None` and an empty list are both false. -/
def filterByApproach (build : Polys → Polys → Except PyErr Unit) (estimate : Polys → Polys → Except PyErr Conv)
    (whitelist : Option (List ApproachType) := some defaultWhitelist) (blacklist : Option (List ApproachType) := none) :
    PyM (List (Click L)) Unit := fun cs =>
  let white := whitelist.getD []
  let black := blacklist.getD []
  if white = [] ∧ black = [] then (cs, .error .valueError)
  else if white ≠ [] ∧ black ≠ [] then (cs, .error .valueError)
  else
    match approachLoop build estimate white black cs with
    | .error e => (cs, .error e)
    | .ok r => (r, .ok ())

/-- main.py:144-160, the part that can be cancelled: `except KeyboardInterrupt` ends it, other exceptions pass. -/
def lastStage (C : LhsClass L) (env : RefineEnv) (roots : List ℤ → List (ℚ × ℚ)) (budget : Option ℕ) :
    PyM (List (Click L)) Unit := fun cs =>
  match refineClicks C env (budget, cs) with
  | (s, .error .keyboardInterrupt) => (s.2, .ok ())
  | (s, .error e) => (s.2, .error e)
  | (s, .ok ()) =>
    match (do filterUniq C; filterUniq C; filterPosIntRoots roots) s.2 with
    | (cs, .error .keyboardInterrupt) => (cs, .ok ())
    | r => r

/-! ## Settings -/

/-- The enumerator classes (enum_poly_params.py:45, 198, 233); the second and third are subclasses of the first. -/
inductive PolyClass where
  | basic
  | indexed
  | sparse
  deriving DecidableEq, Repr

/-- `isinstance(obj, cls)` for an object of class `c`. -/
def isInstance (c cls : PolyClass) : Bool := cls = .basic || c = cls

/-- The attributes of `MITM` changed by `redefine_settings` that matter here. `special` are the special parameters the
enumerator was built with. -/
structure Settings (V : Type) where
  polyClass : PolyClass
  special : Option (ℕ × ℕ)
  table : Table V
  hashtablePrec : ℤ
  filter : List ℕ
  trunc : Bool

/-- Construction of an enumerator (enum_poly_params.py:50, 202, 235): the sparse class unpacks its special parameters,
which raises TypeError for `None`. -/
def makeEnumer (cls : PolyClass) (special : Option (ℕ × ℕ)) : Except PyErr (PolyClass × Option (ℕ × ℕ)) :=
  if cls = .sparse ∧ special = none then .error .typeError else .ok (cls, special)

/-- enum_params.py:90-120 `redefine_settings`.  Settings that are just assigned and not used by the model (target, precision,
tables of functions) and the reset of the click list are left out. -/
def redefineSettings {V : Type} (cls : PolyClass) (special : Option (ℕ × ℕ)) (prec : ℤ) (filter : List ℕ) (trunc : Bool) :
    PyM (Settings V) Unit := fun s =>
  if isInstance s.polyClass cls then
    ({ s with filter := filter, trunc := trunc, hashtablePrec := prec, table := s.table.updateAccuracy prec }, .ok ())
  else
    match makeEnumer cls special with
    | .error e => (s, .error e)
    | .ok (c, sp) =>
      ({ s with polyClass := c, special := sp, filter := filter, trunc := trunc, hashtablePrec := prec,
                table := s.table.updateAccuracy prec }, .ok ())

/-- enum_params.py:395-398 `reset_hashtable` -/
def resetHashtable {V : Type} (s : Settings V) : Settings V := { s with table := Table.init s.hashtablePrec }

/-! ## CSV export -/

/-- enum_params.py:450-482 `export_to_csv` as an operation on the content of the file (`none`: does not exist).  `header`
are the first two rows, `row` produces the row of one result or raises. -/
def exportCsv {R : Type} (header : List R) (row : Click L → Except PyErr R) (cs : List (Click L)) :
    PyM (Option (List R)) Unit := fun file =>
  let rec loop (buffer : List R) : List (Click L) → Except PyErr (List R)
    | [] => .ok buffer
    | c :: cs =>
      match row c with
      | .error e => .error e
      | .ok r => loop (buffer ++ [r]) cs
  match loop header cs with
  | .error e => (file, .error e)
  | .ok buffer => (some buffer, .ok ())

/-- enum_params.py:484-499 `build_contfrac_from_params`: construction, 400 iterations, post-processing. -/
def buildFromParams (funcs : List (Num → Except PyErr Num)) (iterations : ℤ) (c : Click L) : Except PyErr (CF × Num) :=
  match ContFrac.init c.a c.b with
  | .error e => .error e
  | .ok cf =>
    match genIterations iterations true cf with
    | (_, .error e) => .error e
    | (cf, .ok ()) =>
      match funcs[c.post]? with
      | none => .error .indexError
      | some f =>
        match f (getResult cf) with
        | .error e => .error e
        | .ok v => .ok (cf, v)

/-- A row of the CSV file (enum_params.py:477-478): a, b, function index (the function object is written), LHS type and
parameters (both determined by the object), convergence type and rate, the two values as text. -/
structure Row (P : Type) where
  a : Polys
  b : Polys
  post : ℕ
  params : P
  convType : ApproachType
  convRate : Option (ℚ × ℚ)
  rhs : Str
  lhs : Str

/-- enum_params.py:465-478: one row.  Line 468 `str(lhs_res_obj)` and line 478 call `to_eng_string`; `convergence_info[0]` of
`None` raises TypeError. -/
def csvRow {P : Type} (C : LhsClass L) (params : L → P) (funcs : List (Num → Except PyErr Num)) (eng : EngN) (c : Click L) :
    Except PyErr (Row P) :=
  match eng (C.val c.lhs) with
  | .error e => .error e
  | .ok lhs =>
    match buildFromParams funcs 400 c with
    | .error e => .error e
    | .ok (_, v) =>
      match c.conv with
      | none => .error .typeError
      | some conv =>
        match eng v with
        | .error e => .error e
        | .ok rhs => .ok ⟨c.a, c.b, c.post, params c.lhs, conv.1, conv.2, rhs, lhs⟩

end PiCF.Mitm
