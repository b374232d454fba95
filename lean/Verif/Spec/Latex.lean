import Mathlib.Algebra.Field.Defs
import Verif.Spec.ContFrac
import Verif.Model.Hashtable

/-!
# What a LaTeX formula means

A small semantics of LaTeX math mode, for the properties about generated formulas (C64-C66): a lexer and a relation
`Reads` that gives a formula its value by the usual rules (precedence, juxtaposition is multiplication, `\frac`,
parentheses, an exponent without braces is a single digit).  `Verif/Lemmas/Latex.lean` proves that it gives a formula at most
one value.
-/

namespace PiCF.Spec
open PiCF.Hashtable

/-- LaTeX tokens: a digit, a letter, a control word (without the backslash), any other character. -/
inductive Tok where
  | digit (d : ℕ)
  | letter (c : Char)
  | cmd (w : Str)
  | sym (c : Char)
  deriving DecidableEq, Repr

/-- The token of a character that is not a backslash; spaces are ignored in math mode. -/
def charToks (c : Char) : List Tok :=
  if c = ' ' then [] else if c.isDigit then [.digit (c.toNat - 48)] else if c.isAlpha then [.letter c] else [.sym c]

/-- The lexer; the first argument is the control word being read, if any. -/
def lexFrom : Option Str → Str → List Tok
  | none, [] => []
  | some w, [] => [.cmd w]
  | none, c :: s => if c = '\\' then lexFrom (some []) s else charToks c ++ lexFrom none s
  | some w, c :: s =>
    if c.isAlpha then lexFrom (some (w ++ [c])) s
    else .cmd w :: (if c = '\\' then lexFrom (some []) s else charToks c ++ lexFrom none s)

/-- The tokens of a string. -/
def lex (s : Str) : List Tok := lexFrom none s

/-- The meaning of the names (letters and control words) and of the functions in a formula. -/
structure TexEnv (K : Type) where
  atom : Tok → Option K
  fn : Str → Option (K → Option K)

/-- The control words with a fixed meaning. -/
def reserved : List Str := ["frac".toList, "left".toList, "right".toList, "cdot".toList, "sqrt".toList]

/-- A token that can stand for a value by itself. -/
def isName {K : Type} (env : TexEnv K) : Tok → Prop
  | .letter _ => True
  | .cmd w => w ∉ reserved ∧ env.fn w = none
  | _ => False

/-- A token that starts a factor. -/
def startsFactor : Tok → Prop
  | .digit _ => True
  | .letter _ => True
  | .cmd w => w ≠ "right".toList ∧ w ≠ "cdot".toList
  | .sym _ => False

/-- The head of the list, if there is one, does not satisfy `p`. -/
def headNot (p : Tok → Prop) (ts : List Tok) : Prop := ∀ t ∈ ts.head?, ¬ p t

/-- What is being read. -/
inductive Mode (K : Type) where
  | sum
  | sumRest (a : K)
  | signed
  | prod
  | prodRest (a : K)
  | power
  | atom
  | digits (n : ℕ)

/-- `Reads env m ts v rest`: reading an `m` from `ts`, as far as possible, gives the value `v` and leaves `rest`. -/
inductive Reads {K : Type} [Field K] (env : TexEnv K) : Mode K → List Tok → K → List Tok → Prop
  | sum {ts v ts' w r} : Reads env .signed ts v ts' → Reads env (.sumRest v) ts' w r → Reads env .sum ts w r
  | plus {a ts v ts' w r} : Reads env .signed ts v ts' → Reads env (.sumRest (a + v)) ts' w r →
      Reads env (.sumRest a) (.sym '+' :: ts) w r
  | minus {a ts v ts' w r} : Reads env .signed ts v ts' → Reads env (.sumRest (a - v)) ts' w r →
      Reads env (.sumRest a) (.sym '-' :: ts) w r
  | sumEnd {a ts} : headNot (fun t => t = .sym '+' ∨ t = .sym '-') ts → Reads env (.sumRest a) ts a ts
  | neg {ts v r} : Reads env .signed ts v r → Reads env .signed (.sym '-' :: ts) (-v) r
  | pos {ts v r} : headNot (· = .sym '-') ts → Reads env .prod ts v r → Reads env .signed ts v r
  | prod {ts v ts' w r} : Reads env .power ts v ts' → Reads env (.prodRest v) ts' w r → Reads env .prod ts w r
  | cdot {a ts v ts' w r} : Reads env .power ts v ts' → Reads env (.prodRest (a * v)) ts' w r →
      Reads env (.prodRest a) (.cmd "cdot".toList :: ts) w r
  | juxt {a t ts v ts' w r} : startsFactor t → Reads env .power (t :: ts) v ts' → Reads env (.prodRest (a * v)) ts' w r →
      Reads env (.prodRest a) (t :: ts) w r
  | prodEnd {a ts} : headNot (fun t => t = .cmd "cdot".toList ∨ startsFactor t) ts → Reads env (.prodRest a) ts a ts
  | power {ts v k r} : Reads env .atom ts v (.sym '^' :: .digit k :: r) → Reads env .power ts (v ^ k) r
  | noPower {ts v r} : headNot (· = .sym '^') r → Reads env .atom ts v r → Reads env .power ts v r
  | number {d ts v r} : Reads env (.digits d) ts v r → Reads env .atom (.digit d :: ts) v r
  | name {t ts v} : isName env t → env.atom t = some v → Reads env .atom (t :: ts) v ts
  | frac {ts v ts' w r} : Reads env .sum ts v (.sym '}' :: .sym '{' :: ts') → Reads env .sum ts' w (.sym '}' :: r) → w ≠ 0 →
      Reads env .atom (.cmd "frac".toList :: .sym '{' :: ts) (v / w) r
  | paren {ts v r} : Reads env .sum ts v (.cmd "right".toList :: .sym ')' :: r) →
      Reads env .atom (.cmd "left".toList :: .sym '(' :: ts) v r
  | fn {f F ts v w r} : f ∉ reserved → env.fn f = some F → Reads env .sum ts v (.cmd "right".toList :: .sym ')' :: r) →
      F v = some w → Reads env .atom (.cmd f :: .cmd "left".toList :: .sym '(' :: ts) w r
  | sqrt {F ts v w r} : env.fn "sqrt".toList = some F → Reads env .sum ts v (.sym '}' :: r) → F v = some w →
      Reads env .atom (.cmd "sqrt".toList :: .sym '{' :: ts) w r
  | digit {n d ts v r} : Reads env (.digits (10 * n + d)) ts v r → Reads env (.digits n) (.digit d :: ts) v r
  | digitsEnd {n : ℕ} {ts} : headNot (fun t => ∃ d, t = .digit d) ts → Reads env (.digits n) ts (n : K) ts

/-- The string is a formula with the value `v`. -/
def Denotes {K : Type} [Field K] (env : TexEnv K) (s : Str) (v : K) : Prop := Reads env .sum (lex s) v []

/-- The string is an equation whose sides have the values `l` and `r`. -/
def EqnDenotes {K : Type} [Field K] (env : TexEnv K) (s : Str) (l r : K) : Prop :=
  ∃ ts, Reads env .sum (lex s) l (.sym '=' :: ts) ∧ Reads env .sum ts r []

/-- A name LaTeX reads as one symbol: a letter or a control word; it is no command or function. -/
def IsTexName {K : Type} (env : TexEnv K) (name : Str) (x : K) : Prop :=
  ∃ t, isName env t ∧ env.atom t = some x ∧
    ((∃ c : Char, c.isAlpha = true ∧ name = [c] ∧ t = .letter c) ∨
     (∃ w : Str, (∀ c ∈ w, c.isAlpha = true) ∧ name = '\\' :: w ∧ t = .cmd w))

/-- `a_k + b_{k+1}/(a_{k+1} + … + b_{k+n}/(a_{k+n} + t))`; `none` if some denominator is 0. -/
def nestedWith (a b : ℕ → ℚ) (t : ℚ) : (k n : ℕ) → Option ℚ
  | k, 0 => some (a k + t)
  | k, n + 1 =>
    match nestedWith a b t (k + 1) n with
    | none => none
    | some d => if d = 0 then none else some (a k + b (k + 1) / d)

/-- The functions of the post-processing list without the reciprocals: powers, then square root, sine, cosine, tangent,
cotangent, exponential, logarithm. -/
def baseFn {K : Type} [Field K] (env : TexEnv K) (k : ℕ) (v : K) : Option K :=
  if k < 5 then some (v ^ (k + 1))
  else
    match ["sqrt".toList, "sin".toList, "cos".toList, "tan".toList, "cot".toList, "exp".toList, "ln".toList][k - 5]? with
    | none => none
    | some f => (env.fn f).bind fun F => F v

/-- The value of post-processing function number `i`: an even number is a function, the next odd number its reciprocal. -/
def postFn {K : Type} [Field K] [DecidableEq K] (env : TexEnv K) (i : ℕ) (v : K) : Option K :=
  if i % 2 = 0 then baseFn env (i / 2) v
  else (baseFn env (i / 2) v).bind fun w => if w = 0 then none else some (1 / w)

end PiCF.Spec
