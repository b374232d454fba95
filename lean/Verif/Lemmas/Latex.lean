import Mathlib.Tactic.Cases
import Mathlib.Data.Nat.Digits.Lemmas
import Mathlib.Algebra.BigOperators.Group.List.Basic
import Verif.Model.PyStr
import Verif.Spec.Latex

/-!
# Facts about the LaTeX semantics
-/

namespace PiCF
open PiCF.Spec PiCF.Hashtable

variable {K : Type} [Field K] {env : TexEnv K}

theorem headNot_cons {p : Tok → Prop} {t : Tok} {ts : List Tok} : headNot p (t :: ts) ↔ ¬ p t := by simp [headNot]

theorem headNot_nil {p : Tok → Prop} : headNot p [] := by simp [headNot]

/-- A formula has at most one value. -/
theorem Spec.Reads.unique {m : Mode K} {ts r : List Tok} {v : K} (h : Reads env m ts v r) :
    ∀ {r' : List Tok} {v' : K}, Reads env m ts v' r' → v' = v ∧ r' = r := by
  induction h with
  | sum h1 h2 ih1 ih2 =>
    intro r' v' h
    cases h with
    | sum g1 g2 =>
      obtain ⟨rfl, rfl⟩ := ih1 g1
      exact ih2 g2
  | plus h1 h2 ih1 ih2 =>
    intro r' v' h
    cases h with
    | plus g1 g2 =>
      obtain ⟨rfl, rfl⟩ := ih1 g1
      exact ih2 g2
    | sumEnd g => exact absurd (.inl rfl) (headNot_cons.1 g)
  | minus h1 h2 ih1 ih2 =>
    intro r' v' h
    cases h with
    | minus g1 g2 =>
      obtain ⟨rfl, rfl⟩ := ih1 g1
      exact ih2 g2
    | sumEnd g => exact absurd (.inr rfl) (headNot_cons.1 g)
  | sumEnd h =>
    intro r' v' g
    cases g with
    | plus g1 g2 => exact absurd (.inl rfl) (headNot_cons.1 h)
    | minus g1 g2 => exact absurd (.inr rfl) (headNot_cons.1 h)
    | sumEnd _ => exact ⟨rfl, rfl⟩
  | neg h ih =>
    intro r' v' g
    cases g with
    | neg g => obtain ⟨rfl, rfl⟩ := ih g; exact ⟨rfl, rfl⟩
    | pos g _ => exact (headNot_cons.1 g rfl).elim
  | pos h h' ih =>
    intro r' v' g
    cases g with
    | neg g => exact (headNot_cons.1 h rfl).elim
    | pos _ g => exact ih g
  | prod h1 h2 ih1 ih2 =>
    intro r' v' h
    cases h with
    | prod g1 g2 =>
      obtain ⟨rfl, rfl⟩ := ih1 g1
      exact ih2 g2
  | cdot h1 h2 ih1 ih2 =>
    intro r' v' h
    cases h with
    | cdot g1 g2 =>
      obtain ⟨rfl, rfl⟩ := ih1 g1
      exact ih2 g2
    | juxt g _ _ => exact absurd rfl g.2
    | prodEnd g => exact absurd (.inl rfl) (headNot_cons.1 g)
  | juxt h h1 h2 ih1 ih2 =>
    intro r' v' h'
    cases h' with
    | cdot g1 g2 => exact absurd rfl h.2
    | juxt _ g1 g2 =>
      obtain ⟨rfl, rfl⟩ := ih1 g1
      exact ih2 g2
    | prodEnd g => exact absurd (.inr h) (headNot_cons.1 g)
  | prodEnd h =>
    intro r' v' g
    cases g with
    | cdot g1 g2 => exact absurd (.inl rfl) (headNot_cons.1 h)
    | juxt g _ _ => exact absurd (.inr g) (headNot_cons.1 h)
    | prodEnd _ => exact ⟨rfl, rfl⟩
  | power h ih =>
    intro r' v' g
    cases g with
    | power g => obtain ⟨rfl, e⟩ := ih g; cases e; exact ⟨rfl, rfl⟩
    | noPower g1 g => obtain ⟨rfl, rfl⟩ := ih g; exact (headNot_cons.1 g1 rfl).elim
  | noPower h h' ih =>
    intro r' v' g
    cases g with
    | power g => obtain ⟨rfl, rfl⟩ := ih g; exact (headNot_cons.1 h rfl).elim
    | noPower g1 g => exact ih g
  | number h ih =>
    intro r' v' g
    cases g with
    | number g => exact ih g
    | name g => exact g.elim
  | name h h' =>
    intro r' v' g
    cases g with
    | number g => exact h.elim
    | name _ g => rw [h'] at g; cases g; exact ⟨rfl, rfl⟩
    | frac => exact absurd (by simp [reserved]) h.1
    | paren => exact absurd (by simp [reserved]) h.1
    | fn _ g => rw [h.2] at g; cases g
    | sqrt => exact absurd (by simp [reserved]) h.1
  | frac h1 h2 h3 ih1 ih2 =>
    intro r' v' g
    cases g with
    | name g => exact absurd (by simp [reserved]) g.1
    | frac g1 g2 g3 =>
      obtain ⟨rfl, e⟩ := ih1 g1
      cases e
      obtain ⟨rfl, e⟩ := ih2 g2
      cases e
      exact ⟨rfl, rfl⟩
  | paren h ih =>
    intro r' v' g
    cases g with
    | name g => exact absurd (by simp [reserved]) g.1
    | paren g =>
      obtain ⟨rfl, e⟩ := ih g
      cases e
      exact ⟨rfl, rfl⟩
  | fn h1 h2 h3 h4 ih =>
    intro r' v' g
    cases g with
    | name g => rw [g.2] at h2; cases h2
    | fn g1 g2 g3 g4 =>
      obtain ⟨rfl, e⟩ := ih g3
      cases e
      rw [h2] at g2
      cases g2
      rw [h4] at g4
      cases g4
      exact ⟨rfl, rfl⟩
  | sqrt h2 h3 h4 ih =>
    intro r' v' g
    cases g with
    | name g => exact absurd (by simp [reserved]) g.1
    | sqrt g2 g3 g4 =>
      obtain ⟨rfl, e⟩ := ih g3
      cases e
      rw [h2] at g2
      cases g2
      rw [h4] at g4
      cases g4
      exact ⟨rfl, rfl⟩
  | digit h ih =>
    intro r' v' g
    cases g with
    | digit g => exact ih g
    | digitsEnd g => exact absurd ⟨_, rfl⟩ (headNot_cons.1 g)
  | digitsEnd h =>
    intro r' v' g
    cases g with
    | digit g => exact absurd ⟨_, rfl⟩ (headNot_cons.1 h)
    | digitsEnd _ => exact ⟨rfl, rfl⟩

theorem Spec.Denotes.unique {s : Str} {v w : K} (h : Denotes env s v) (h' : Denotes env s w) : v = w := (Spec.Reads.unique h' h).1

/-- The token cannot continue a formula. -/
def Closes (T : List Tok) : Prop := ∀ t ∈ T.head?, t = .sym '}' ∨ t = .cmd "right".toList ∨ t = .sym '='

theorem headNot_append {p : Tok → Prop} {ts T : List Tok} (h : headNot p ts) (hT : headNot p T) : headNot p (ts ++ T) := by
  cases ts with
  | nil => exact hT
  | cons t ts => exact headNot_cons.2 (headNot_cons.1 h)

theorem Closes.headNot {T : List Tok} (h : Closes T) {p : Tok → Prop} (h1 : ¬ p (.sym '}')) (h2 : ¬ p (.cmd "right".toList))
    (h3 : ¬ p (.sym '=')) : Spec.headNot p T := by
  intro t ht
  rcases h t ht with rfl | rfl | rfl
  · exact h1
  · exact h2
  · exact h3

/-- Text that cannot continue a formula does not matter for reading it. -/
theorem Spec.Reads.append {T : List Tok} (hT : Closes T) {m : Mode K} {ts r : List Tok} {v : K} (h : Reads env m ts v r) :
    Reads env m (ts ++ T) v (r ++ T) := by
  induction h with
  | sum _ _ ih1 ih2 => exact .sum ih1 ih2
  | plus _ _ ih1 ih2 => exact .plus ih1 ih2
  | minus _ _ ih1 ih2 => exact .minus ih1 ih2
  | sumEnd h => exact .sumEnd (headNot_append h (hT.headNot (by simp) (by simp) (by simp)))
  | neg _ ih => exact .neg ih
  | pos h _ ih => exact .pos (headNot_append h (hT.headNot (by simp) (by simp) (by simp))) ih
  | prod _ _ ih1 ih2 => exact .prod ih1 ih2
  | cdot _ _ ih1 ih2 => exact .cdot ih1 ih2
  | juxt h _ _ ih1 ih2 => exact .juxt h ih1 ih2
  | prodEnd h =>
    exact .prodEnd (headNot_append h (hT.headNot (by simp [startsFactor]) (by simp [startsFactor]) (by simp [startsFactor])))
  | power _ ih => exact .power ih
  | noPower h _ ih => exact .noPower (headNot_append h (hT.headNot (by simp) (by simp) (by simp))) ih
  | number _ ih => exact .number ih
  | name h h' => exact .name h h'
  | frac _ _ h ih1 ih2 => exact .frac ih1 ih2 h
  | paren _ ih => exact .paren ih
  | fn h1 h2 _ h3 ih => exact .fn h1 h2 ih h3
  | sqrt h1 _ h3 ih => exact .sqrt h1 ih h3
  | digit _ ih => exact .digit ih
  | digitsEnd h => exact .digitsEnd (headNot_append h (hT.headNot (by simp) (by simp) (by simp)))

/-! ### The lexer -/

/-- A character that ends a control word and is not a backslash. -/
def IsSep (c : Char) : Prop := c.isAlpha = false ∧ c ≠ '\\'

theorem lexFrom_sep {c : Char} (hc : IsSep c) (t : Str) : ∀ (s : Str) (o : Option Str),
    lexFrom o (s ++ c :: t) = lexFrom o s ++ charToks c ++ lex t := by
  intro s
  induction s with
  | nil =>
    intro o
    cases o with
    | none => simp [lexFrom, hc.2, lex]
    | some w => simp [lexFrom, hc.1, hc.2, lex]
  | cons x s ih =>
    intro o
    cases o with
    | none =>
      simp only [List.cons_append, lexFrom]
      split <;> simp [ih]
    | some w =>
      simp only [List.cons_append, lexFrom]
      split
      · exact ih _
      · split <;> simp [ih]

/-- Lexing text with a separating character. -/
theorem lex_sep {c : Char} (hc : IsSep c) (s t : Str) : lex (s ++ c :: t) = lex s ++ charToks c ++ lex t := lexFrom_sep hc t s none

theorem lex_space (s t : Str) : lex (s ++ ' ' :: t) = lex s ++ lex t := by
  rw [lex_sep ⟨by decide, by decide⟩]
  simp [charToks]

/-! ### Reading numbers -/

open PiCF.PyStr

theorem charToks_digitChar {d : ℕ} (h : d < 10) : charToks (digitChar d) = [.digit d] := by
  interval_cases d <;> decide

theorem digitChar_ne {d : ℕ} (h : d < 10) : digitChar d ≠ '\\' := by
  interval_cases d <;> decide

theorem lex_digitChars (ds : List ℕ) (h : ∀ d ∈ ds, d < 10) : lex (ds.map digitChar) = ds.map Tok.digit := by
  induction ds with
  | nil => rfl
  | cons d ds ih =>
    have hd := h d List.mem_cons_self
    rw [List.map_cons, lex, lexFrom, if_neg (digitChar_ne hd), charToks_digitChar hd]
    show [Tok.digit d] ++ lex (ds.map digitChar) = _
    rw [ih fun x hx => h x (List.mem_cons_of_mem _ hx)]
    rfl

theorem reads_digits {r : List Tok} (hr : headNot (fun t => ∃ d, t = .digit d) r) (ds : List ℕ) : ∀ n : ℕ,
    Reads env (.digits n) (ds.map Tok.digit ++ r) ((ds.foldl (fun n d => 10 * n + d) n : ℕ) : K) r := by
  induction ds with
  | nil => intro n; exact .digitsEnd hr
  | cons d ds ih => intro n; exact .digit (ih _)

theorem foldl_reverse_digits (l : List ℕ) : l.reverse.foldl (fun n d => 10 * n + d) 0 = Nat.ofDigits 10 l := by
  induction l with
  | nil => rfl
  | cons d l ih => rw [List.reverse_cons, List.foldl_append, ih, Nat.ofDigits_cons]; simp; ring

/-- The digits of the text of a number, the first one first. -/
theorem exists_strNat (n : ℕ) : ∃ d ds, d < 10 ∧ (∀ x ∈ ds, x < 10) ∧ (n ≠ 0 → d ≠ 0) ∧ strNat n = (d :: ds).map digitChar ∧
    (d :: ds).foldl (fun n d => 10 * n + d) 0 = n := by
  by_cases h0 : n = 0
  · exact ⟨0, [], by omega, by simp, by simp [h0], by simp [strNat, h0]; decide, by simp [h0]⟩
  · have hlt : ∀ x ∈ (Nat.digits 10 n).reverse, x < 10 := by
      intro x hx
      exact Nat.digits_lt_base (by omega) (List.mem_reverse.1 hx)
    have hne := (Nat.digits_ne_nil_iff_ne_zero (b := 10)).2 h0
    have hlast := Nat.getLast_digit_ne_zero 10 h0
    obtain ⟨d, ds, hd⟩ : ∃ d ds, (Nat.digits 10 n).reverse = d :: ds := by
      cases h : (Nat.digits 10 n).reverse with
      | nil => exact absurd (List.reverse_eq_nil_iff.1 h) hne
      | cons d ds => exact ⟨d, ds, rfl⟩
    refine ⟨d, ds, hlt d (by simp [hd]), fun x hx => hlt x (by simp [hd, hx]), fun _ => ?_, by simp [strNat, h0, hd], ?_⟩
    · have : (Nat.digits 10 n) = ds.reverse ++ [d] := by rw [← List.reverse_reverse (Nat.digits 10 n), hd]; simp
      simpa [this] using hlast
    · rw [← hd, foldl_reverse_digits, Nat.ofDigits_digits]

/-- What may follow a factor. -/
def FactorEnd (r : List Tok) : Prop := headNot (fun t => (∃ d, t = .digit d) ∨ t = .sym '^') r

/-- A piece of text that is a complete factor. -/
def IsFactor (env : TexEnv K) (ts : List Tok) (v : K) : Prop :=
  ∃ t ts', ts = t :: ts' ∧ startsFactor t ∧ ∀ r, FactorEnd r → Reads env .power (ts ++ r) v r

/-- What may follow a summand. -/
def TermEnd (r : List Tok) : Prop := ∀ t ∈ r.head?, t = .sym '+' ∨ t = .sym '}' ∨ t = .cmd "right".toList ∨ t = .sym '='

/-- A piece of text that is a complete summand. -/
def IsTerm (env : TexEnv K) (ts : List Tok) (v : K) : Prop := ∀ r, TermEnd r → Reads env .signed (ts ++ r) v r

theorem TermEnd.headNot {T : List Tok} (h : TermEnd T) {p : Tok → Prop} (h0 : ¬ p (.sym '+')) (h1 : ¬ p (.sym '}'))
    (h2 : ¬ p (.cmd "right".toList)) (h3 : ¬ p (.sym '=')) : Spec.headNot p T := by
  intro t ht
  rcases h t ht with rfl | rfl | rfl | rfl
  · exact h0
  · exact h1
  · exact h2
  · exact h3

theorem Closes.termEnd {T : List Tok} (h : Closes T) : TermEnd T := fun t ht => .inr (h t ht)

theorem TermEnd.factorEnd {T : List Tok} (h : TermEnd T) : FactorEnd T := h.headNot (by simp) (by simp) (by simp) (by simp)

theorem TermEnd.prodEnd {T : List Tok} (h : TermEnd T) {a : K} : Reads env (.prodRest a) T a T :=
  .prodEnd (h.headNot (by simp [startsFactor]) (by simp [startsFactor]) (by simp [startsFactor]) (by simp [startsFactor]))

theorem not_minus_of_starts {t : Tok} (h : startsFactor t) : t ≠ .sym '-' := by rintro rfl; exact h

theorem IsFactor.term {ts : List Tok} {v : K} (h : IsFactor env ts v) : IsTerm env ts v := by
  intro r hr
  obtain ⟨t, ts', rfl, ht, h⟩ := h
  exact .pos (headNot_cons.2 (not_minus_of_starts ht)) (.prod (h r hr.factorEnd) hr.prodEnd)

theorem IsFactor.factorEnd {ts : List Tok} {v : K} (h : IsFactor env ts v) (hd : ∀ d, ts.head? ≠ some (.digit d)) (r : List Tok) :
    FactorEnd (ts ++ r) := by
  obtain ⟨t, ts', rfl, ht, h⟩ := h
  refine headNot_cons.2 ?_
  rintro (⟨d, rfl⟩ | rfl)
  · exact hd d rfl
  · exact ht

/-- A product of two factors. -/
theorem IsFactor.mul {ts us : List Tok} {v w : K} (h : IsFactor env ts v) (h' : IsFactor env us w)
    (hd : ∀ d, us.head? ≠ some (.digit d)) : IsTerm env (ts ++ us) (v * w) := by
  intro r hr
  have he := h'.factorEnd hd r
  obtain ⟨t, ts', rfl, ht, h⟩ := h
  obtain ⟨u, us', rfl, hu, h'⟩ := h'
  rw [List.append_assoc]
  exact .pos (headNot_cons.2 (not_minus_of_starts ht)) (.prod (h _ he) (.juxt hu (h' r hr.factorEnd) hr.prodEnd))

theorem IsFactor.cdot {ts us : List Tok} {v w : K} (h : IsFactor env ts v) (h' : IsFactor env us w) :
    IsTerm env (ts ++ .cmd "cdot".toList :: us) (v * w) := by
  intro r hr
  obtain ⟨t, ts', rfl, ht, h⟩ := h
  obtain ⟨u, us', rfl, hu, h'⟩ := h'
  rw [List.append_assoc]
  exact .pos (headNot_cons.2 (not_minus_of_starts ht)) (.prod (h _ (headNot_cons.2 (by simp))) (.cdot (h' r hr.factorEnd) hr.prodEnd))

theorem IsTerm.neg {ts : List Tok} {v : K} (h : IsTerm env ts v) : IsTerm env (.sym '-' :: ts) (-v) :=
  fun r hr => .neg (h r hr)

/-- A sum, whatever may follow it. -/
def IsSum (env : TexEnv K) (ts : List Tok) (v : K) : Prop := ∀ r, Closes r → Reads env .sum (ts ++ r) v r

theorem isSum_iff {ts : List Tok} {v : K} : IsSum env ts v ↔ Reads env .sum ts v [] :=
  ⟨fun h => by simpa using h [] (by simp [Closes]), fun h r hr => by simpa using h.append hr⟩

theorem denotes_iff {s : Str} {v : K} : Denotes env s v ↔ IsSum env (lex s) v := isSum_iff.symm

theorem IsTerm.sum {ts : List Tok} {v : K} (h : IsTerm env ts v) : IsSum env ts v := fun r hr =>
  .sum (h r hr.termEnd) (.sumEnd (hr.headNot (by simp) (by simp) (by simp)))

/-- Summands joined by plus signs. -/
theorem reads_sumRest {r : List Tok} (hr : Closes r) {tss : List (List Tok)} {vs : List K}
    (h : List.Forall₂ (IsTerm env) tss vs) : ∀ a : K,
    Reads env (.sumRest a) ((tss.flatMap fun ts => .sym '+' :: ts) ++ r) (a + vs.sum) r := by
  induction h with
  | nil => intro a; simpa using Reads.sumEnd (hr.headNot (by simp) (by simp) (by simp))
  | @cons ts v tss vs h h' ih =>
    intro a
    rw [List.flatMap_cons, List.cons_append, List.cons_append, List.append_assoc, List.sum_cons, ← add_assoc]
    refine .plus (h _ ?_) (ih (a + v))
    cases tss with
    | nil => simpa using hr.termEnd
    | cons ts tss => intro t ht; left; simpa using ht.symm

theorem isSum_join {ts : List Tok} {v : K} (h : IsTerm env ts v) {tss : List (List Tok)} {vs : List K}
    (h' : List.Forall₂ (IsTerm env) tss vs) : IsSum env (ts ++ tss.flatMap fun ts => .sym '+' :: ts) (v + vs.sum) := by
  intro r hr
  rw [List.append_assoc]
  refine .sum (h _ ?_) (reads_sumRest hr h' v)
  cases h' with
  | nil => simpa using hr.termEnd
  | cons => intro t ht; left; simpa using ht.symm

theorem lex_plus (s t : Str) : lex (s ++ '+' :: t) = lex s ++ .sym '+' :: lex t := by
  rw [lex_sep ⟨by decide, by decide⟩]
  simp [charToks, show Char.isDigit '+' = false by decide, show Char.isAlpha '+' = false by decide]

theorem lex_join (s : Str) (ss : List Str) :
    lex (join ['+'] (s :: ss)) = lex s ++ (ss.map lex).flatMap fun ts => .sym '+' :: ts := by
  induction ss generalizing s with
  | nil => simp [join]
  | cons s' ss ih => rw [join, List.append_assoc, List.singleton_append, lex_plus, ih]; simp; simp

/-- The text of summands joined with `+` denotes their sum. -/
theorem denotes_join {ss : List Str} {vs : List K} (h : List.Forall₂ (fun s v => IsTerm env (lex s) v) ss vs) (hne : ss ≠ []) :
    Denotes env (join ['+'] ss) vs.sum := by
  cases h with
  | nil => exact absurd rfl hne
  | cons h h' =>
    rw [denotes_iff, lex_join, List.sum_cons]
    refine isSum_join h ?_
    rw [List.forall₂_map_left_iff]
    exact h'

/-! ### Factors -/

theorem isFactor_nat (n : ℕ) : IsFactor env (lex (strNat n)) (n : K) := by
  obtain ⟨d, ds, hd, hds, -, hs, hn⟩ := exists_strNat n
  have hl : lex (strNat n) = .digit d :: ds.map Tok.digit := by
    rw [hs, lex_digitChars _ (by simpa using ⟨hd, hds⟩), List.map_cons]
  refine ⟨.digit d, ds.map Tok.digit, hl, trivial, fun r hr => ?_⟩
  rw [hl]
  refine .noPower (fun t ht h => hr t ht (.inr h)) (.number ?_)
  have := reads_digits (K := K) (env := env) (r := r) (fun t ht h => hr t ht (.inl h)) ds d
  have e : ds.foldl (fun n d => 10 * n + d) d = n := by rw [← hn]; simp
  rwa [e] at this

theorem lex_minus (s : Str) : lex ('-' :: s) = .sym '-' :: lex s := rfl

theorem isTerm_int (n : ℤ) : IsTerm env (lex (strInt n)) (n : K) := by
  rw [strInt]
  split
  · rw [lex_minus]
    have := (isFactor_nat (env := env) n.natAbs).term.neg
    rwa [show -((n.natAbs : ℕ) : K) = (n : K) by
      rw [← Int.cast_natCast, Int.ofNat_natAbs_of_nonpos (by omega)]; push_cast; simp] at this
  · have := (isFactor_nat (env := env) n.natAbs).term
    rwa [show ((n.natAbs : ℕ) : K) = (n : K) by rw [← Int.cast_natCast, Int.natAbs_of_nonneg (by omega)]] at this

theorem lex_name {name : Str} {t : Tok} (h : (∃ c : Char, c.isAlpha = true ∧ name = [c] ∧ t = .letter c) ∨
    (∃ w : Str, (∀ c ∈ w, c.isAlpha = true) ∧ name = '\\' :: w ∧ t = .cmd w)) : lex name = [t] := by
  rcases h with ⟨c, hc, rfl, rfl⟩ | ⟨w, hw, rfl, rfl⟩
  · have h1 : c ≠ '\\' := by rintro rfl; revert hc; decide
    have h2 : c ≠ ' ' := by rintro rfl; revert hc; decide
    have h3 : c.isDigit = false := by
      simp only [Char.isAlpha, Char.isUpper, Char.isLower, Bool.or_eq_true, Bool.and_eq_true, decide_eq_true_eq] at hc
      simp only [Char.isDigit, Bool.and_eq_false_iff, decide_eq_false_iff_not]
      right
      intro h'
      rcases hc with ⟨h, -⟩ | ⟨h, -⟩
      · exact absurd (UInt32.le_trans h h') (by decide)
      · exact absurd (UInt32.le_trans h h') (by decide)
    simp [lex, lexFrom, h1, charToks, h2, h3, hc]
  · have : ∀ (w v : Str), (∀ c ∈ w, c.isAlpha = true) → lexFrom (some v) w = [.cmd (v ++ w)] := by
      intro w
      induction w with
      | nil => intro v _; simp [lexFrom]
      | cons c w ih =>
        intro v hw
        rw [lexFrom, if_pos (hw c List.mem_cons_self), ih _ fun x hx => hw x (List.mem_cons_of_mem _ hx)]
        simp
    simpa [lex, lexFrom] using this w [] hw

omit [Field K] in
theorem startsFactor_of_isName {t : Tok} (h : isName env t) : startsFactor t := by
  cases t with
  | digit => exact h.elim
  | letter => trivial
  | cmd w => exact ⟨fun e => h.1 (by simp [e, reserved]), fun e => h.1 (by simp [e, reserved])⟩
  | sym => exact h.elim

theorem isFactor_name {name : Str} {x : K} (h : IsTexName env name x) : IsFactor env (lex name) x := by
  obtain ⟨t, hn, ha, h⟩ := h
  rw [lex_name h]
  exact ⟨t, [], rfl, startsFactor_of_isName hn, fun r hr => .noPower (fun t ht h => hr t ht (.inr h)) (.name hn ha)⟩

omit [Field K] in
theorem name_not_digit {name : Str} {x : K} (h : IsTexName env name x) (ts : List Tok) (d : ℕ) :
    (lex name ++ ts).head? ≠ some (.digit d) := by
  obtain ⟨t, hn, -, h⟩ := h
  rw [lex_name h]
  rintro he
  cases he
  exact hn

theorem lex_caret (s t : Str) : lex (s ++ '^' :: t) = lex s ++ .sym '^' :: lex t := by
  rw [lex_sep ⟨by decide, by decide⟩]
  simp [charToks, show Char.isDigit '^' = false by decide, show Char.isAlpha '^' = false by decide]

theorem isFactor_namePow {name : Str} {x : K} (h : IsTexName env name x) (k : ℕ) (hk : k < 10) :
    IsFactor env (lex (name ++ '^' :: strNat k)) (x ^ k) := by
  obtain ⟨t, hn, ha, h⟩ := h
  have hd : lex (strNat k) = [.digit k] := by interval_cases k <;> rfl
  rw [lex_caret, hd, lex_name h]
  exact ⟨t, _, rfl, startsFactor_of_isName hn, fun r hr => .power (.name hn ha)⟩

/-- A fraction of two sums. -/
theorem isFactor_frac {ts us : List Tok} {v w : K} (h : IsSum env ts v) (h' : IsSum env us w) (hw : w ≠ 0) :
    IsFactor env (.cmd "frac".toList :: .sym '{' :: ts ++ .sym '}' :: .sym '{' :: us ++ [.sym '}']) (v / w) := by
  refine ⟨_, _, rfl, ⟨by decide, by decide⟩, fun r hr => .noPower (fun t ht h => hr t ht (.inr h)) ?_⟩
  have h1 := h (.sym '}' :: .sym '{' :: (us ++ .sym '}' :: r)) (by simp [Closes])
  have h2 := h' (.sym '}' :: r) (by simp [Closes])
  simpa using Reads.frac h1 h2 hw

/-- A sum in parentheses. -/
theorem isFactor_paren {ts : List Tok} {v : K} (h : IsSum env ts v) :
    IsFactor env (.cmd "left".toList :: .sym '(' :: ts ++ [.cmd "right".toList, .sym ')']) v := by
  refine ⟨_, _, rfl, ⟨by decide, by decide⟩, fun r hr => .noPower (fun t ht h => hr t ht (.inr h)) ?_⟩
  simpa using Reads.paren (h (.cmd "right".toList :: .sym ')' :: r) (by simp [Closes]))

theorem isFactor_parenPow {ts : List Tok} {v : K} (h : IsSum env ts v) (k : ℕ) :
    IsFactor env (.cmd "left".toList :: .sym '(' :: ts ++ [.cmd "right".toList, .sym ')', .sym '^', .digit k]) (v ^ k) := by
  refine ⟨_, _, rfl, ⟨by decide, by decide⟩, fun r hr => .power ?_⟩
  simpa using Reads.paren (h (.cmd "right".toList :: .sym ')' :: .sym '^' :: .digit k :: r) (by simp [Closes]))

theorem isFactor_fn {f : Str} {F : K → Option K} {ts : List Tok} {v w : K} (hf : f ∉ reserved) (hF : env.fn f = some F)
    (h : IsSum env ts v) (hw : F v = some w) :
    IsFactor env (.cmd f :: .cmd "left".toList :: .sym '(' :: ts ++ [.cmd "right".toList, .sym ')']) w := by
  refine ⟨_, _, rfl, ⟨fun e => hf (by simp [e, reserved]), fun e => hf (by simp [e, reserved])⟩,
    fun r hr => .noPower (fun t ht h => hr t ht (.inr h)) ?_⟩
  simpa using Reads.fn hf hF (h (.cmd "right".toList :: .sym ')' :: r) (by simp [Closes])) hw

end PiCF
