/-!
# Python basics used by all models

Exceptions are modelled as values.  `PyErr` lists the exception classes that the modelled code
raises (or that python raises for it).
-/

universe u v w

namespace PiCF

/-- Exception classes.  `zeroB i` is `cont_fracs.ZeroB(i)` (cont_fracs.py:10-12), `invalidOperation` is
`decimal.InvalidOperation`, `jsonDecodeError` is `json.JSONDecodeError`,
`interpolation` and `iniError` are errors of `configparser`; the others are
python built-ins of the same name (messages are not modelled). -/
inductive PyErr where
  | zeroB (i : Int)
  | zeroDivision
  | valueError
  | typeError
  | attributeError
  | nameError
  | indexError
  | keyError
  | runtimeError
  | stopIteration
  | keyboardInterrupt
  | notImplemented
  | jsonDecodeError
  | fileNotFound
  | fileExists
  | invalidOperation
  | interpolation
  | iniError
  deriving DecidableEq, Repr, Inhabited

/-- A method call on an object with state `σ`: it may raise, and the state at that point is kept
(python objects stay mutated when an exception passes through). -/
def PyM (σ : Type u) (α : Type v) : Type (max u v) := σ → σ × Except PyErr α

namespace PyM

/-- Normal return. -/
def pure {σ : Type u} {α : Type v} (a : α) : PyM σ α := fun s => (s, .ok a)

/-- `raise e` -/
def raise {σ : Type u} {α : Type v} (e : PyErr) : PyM σ α := fun s => (s, .error e)

/-- Sequencing; an exception skips the rest. -/
def bind {σ : Type u} {α : Type v} {β : Type w} (x : PyM σ α) (f : α → PyM σ β) : PyM σ β :=
  fun s => match x s with
    | (s', .ok a) => f a s'
    | (s', .error e) => (s', .error e)

/-- Reading the state. -/
def get {σ : Type u} : PyM σ σ := fun s => (s, .ok s)

/-- An attribute assignment. -/
def modify {σ : Type u} (f : σ → σ) : PyM σ PUnit := fun s => (f s, .ok ⟨⟩)

instance {σ : Type u} : Monad (PyM.{u, v} σ) where
  pure := PyM.pure
  bind := PyM.bind

theorem bind_ok {σ : Type u} {α β : Type v} {x : PyM σ α} {f : α → PyM σ β} {s s' : σ} {a : α}
    (h : x s = (s', .ok a)) : (x >>= f) s = f a s' := by
  show PyM.bind x f s = _
  simp [PyM.bind, h]

theorem bind_error {σ : Type u} {α β : Type v} {x : PyM σ α} {f : α → PyM σ β} {s s' : σ} {e : PyErr}
    (h : x s = (s', .error e)) : (x >>= f) s = (s', .error e) := by
  show PyM.bind x f s = _
  simp [PyM.bind, h]

@[simp] theorem pure_apply {σ : Type u} {α : Type v} (a : α) (s : σ) :
    (Pure.pure a : PyM σ α) s = (s, .ok a) := rfl

end PyM

end PiCF
