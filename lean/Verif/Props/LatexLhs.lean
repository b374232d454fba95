import Verif.Lemmas.Latex
import Verif.Model.Latex
import Verif.Props.MitmLhs
import Verif.Props.Utils

/-!
# C65: LaTeX of the left hand sides
-/

namespace PiCF
open PiCF.Spec PiCF.Hashtable PiCF.PyStr PiCF.Latex PiCF.Lhs Polynomial

variable {env : TexEnv ℚ}

/-! ### ULCD -/

theorem lex_fracFmt (s t : Str) : lex ("\\frac{ ".toList ++ (s ++ (" }{ ".toList ++ (t ++ " }".toList)))) =
    .cmd "frac".toList :: .sym '{' :: lex s ++ .sym '}' :: .sym '{' :: lex t ++ [.sym '}'] := by
  show [Tok.cmd "frac".toList, Tok.sym '{'] ++ lex (s ++ ' ' :: ("}{ ".toList ++ (t ++ " }".toList))) = _
  rw [lex_space]
  show [Tok.cmd "frac".toList, Tok.sym '{'] ++ (lex s ++ ([.sym '}', .sym '{'] ++ lex (t ++ ' ' :: ['}']))) = _
  rw [lex_space]
  simp
  rfl

theorem isTerm_fracFmt {s t : Str} {v w : ℚ} (h : IsSum env (lex s) v) (h' : IsSum env (lex t) w) (hw : w ≠ 0) :
    IsTerm env (lex ("\\frac{ ".toList ++ (s ++ (" }{ ".toList ++ (t ++ " }".toList))))) (v / w) := by
  rw [lex_fracFmt]
  exact (isFactor_frac h h' hw).term

theorem ulcdPartU_spec {name : Str} {x : ℚ} (hn : IsTexName env name x) (hx : x ≠ 0) (u : ℤ) :
    ∃ ss vs, ulcdPartU name u = .ok ss ∧ List.Forall₂ (fun s v => IsTerm env (lex s) v) ss vs ∧ vs.sum = u / x := by
  rw [ulcdPartU]
  split
  · exact ⟨_, [u / x], rfl, .cons (isTerm_fracFmt (isTerm_int u).sum (isFactor_name hn).term.sum hx) .nil, by simp⟩
  · rename_i h
    simp only [ne_eq, not_not] at h
    exact ⟨[], [], rfl, .nil, by simp [h]⟩

theorem ulcdPartL_spec {name : Str} {x : ℚ} (hn : IsTexName env name x) (l : ℤ) (hl : l ≠ 0) :
    ∃ s v, ulcdPartL name l = .ok [s] ∧ IsTerm env (lex s) v ∧ v = x / l := by
  rw [ulcdPartL]
  split
  · exact ⟨_, x / l, rfl, isTerm_fracFmt (isFactor_name hn).term.sum (isTerm_int l).sum (by exact_mod_cast hl), rfl⟩
  · rename_i h
    split
    · rename_i h1
      refine ⟨_, (-1) * x, rfl, ?_, by rw [h1]; push_cast; rw [div_neg, div_one, neg_one_mul]⟩
      show IsTerm env (lex ("\\left(-1\\right) \\cdot ".toList ++ (name ++ []))) _
      rw [List.append_nil]
      have e : lex ("\\left(-1\\right) \\cdot ".toList ++ name) =
        (.cmd "left".toList :: .sym '(' :: [.sym '-', .digit 1] ++ [.cmd "right".toList, .sym ')']) ++
          .cmd "cdot".toList :: lex name := rfl
      rw [e]
      refine (isFactor_paren (v := -1) ?_).cdot (isFactor_name hn)
      have := (isFactor_nat (env := env) 1).term.neg.sum
      rw [show lex (strNat 1) = [.digit 1] from rfl] at this
      simpa using this
    · rename_i h1
      have : l = 1 := by
        rcases abs_eq (by omega : (0 : ℤ) ≤ 1) |>.1 (not_not.1 h) with h | h
        · exact h
        · exact absurd h h1
      exact ⟨_, x, rfl, (isFactor_name hn).term, by rw [this]; simp⟩

theorem ulcdPartC_spec (c : ℤ) :
    ∃ vs, List.Forall₂ (fun s v => IsTerm env (lex s) v) (ulcdPartC c) vs ∧ vs.sum = (c : ℚ) := by
  rw [ulcdPartC]
  split
  · exact ⟨[(c : ℚ)], .cons (isTerm_int c) .nil, by simp⟩
  · rename_i h
    simp only [ne_eq, not_not] at h
    exact ⟨[], .nil, by simp [h]⟩

theorem lex_parenFmt (s : Str) : lex ("\\left( ".toList ++ (s ++ " \\right)".toList)) =
    .cmd "left".toList :: .sym '(' :: lex s ++ [.cmd "right".toList, .sym ')'] := by
  show [Tok.cmd "left".toList, Tok.sym '('] ++ lex (s ++ ' ' :: "\\right)".toList) = _
  rw [lex_space]
  rfl

theorem ulcdPartD_spec (d : ℤ) (hd : d ≠ 0) {exp : Str} {v : ℚ} (h : Denotes env exp v) :
    ∃ s, ulcdPartD d exp = .ok s ∧ Denotes env s (v / d) := by
  have hp := isFactor_paren (denotes_iff.1 h)
  rw [ulcdPartD]
  split
  · refine ⟨_, rfl, ?_⟩
    show Denotes env ("\\frac{ 1 }{ ".toList ++ (strInt d ++ (" } \\left( ".toList ++ (exp ++ " \\right)".toList)))) _
    have e : lex ("\\frac{ 1 }{ ".toList ++ (strInt d ++ (" } \\left( ".toList ++ (exp ++ " \\right)".toList)))) =
        (.cmd "frac".toList :: .sym '{' :: [.digit 1] ++ .sym '}' :: .sym '{' :: lex (strInt d) ++ [.sym '}']) ++
          (.cmd "left".toList :: .sym '(' :: lex exp ++ [.cmd "right".toList, .sym ')']) := by
      show [Tok.cmd "frac".toList, .sym '{', .digit 1, .sym '}', .sym '{'] ++
        lex (strInt d ++ ' ' :: ("} ".toList ++ ("\\left( ".toList ++ (exp ++ " \\right)".toList)))) = _
      rw [lex_space]
      show _ ++ (_ ++ (.sym '}' :: lex ("\\left( ".toList ++ (exp ++ " \\right)".toList)))) = _
      rw [lex_parenFmt]
      simp
    rw [denotes_iff, e]
    have h1 : IsSum env [.digit 1] 1 := by
      have := (isFactor_nat (env := env) 1).term.sum
      rw [show lex (strNat 1) = [.digit 1] from rfl] at this
      simpa using this
    have := (isFactor_frac h1 (isTerm_int (env := env) d).sum (by exact_mod_cast hd)).mul hp (by simp)
    rw [show v / d = 1 / (d : ℚ) * v by ring]
    exact this.sum
  · rename_i h'
    split
    · rename_i h1
      refine ⟨_, rfl, ?_⟩
      show Denotes env ("- \\left( ".toList ++ (exp ++ " \\right)".toList)) _
      rw [denotes_iff, h1]
      show IsSum env (.sym '-' :: lex ("\\left( ".toList ++ (exp ++ " \\right)".toList))) _
      rw [lex_parenFmt]
      push_cast
      rw [div_neg, div_one]
      exact hp.term.neg.sum
    · rename_i h1
      have : d = 1 := by
        rcases abs_eq (by omega : (0 : ℤ) ≤ 1) |>.1 (not_not.1 h') with h | h
        · exact h
        · exact absurd h h1
      exact ⟨exp, rfl, by rw [this]; simpa using h⟩

theorem ulcdLatex_spec {x : ℚ} {s : Ulcd} (h : UlcdOk x s) {name : Str} (hn : IsTexName env name x) :
    ∃ t, ulcdLatex name s = .ok t ∧ Denotes env t s.val := by
  obtain ⟨⟨u, l, c, d⟩, y, v⟩ := s
  obtain ⟨rfl, hx, ⟨hl, hd⟩, hv⟩ := h
  obtain ⟨su, vu, eu, hu, su'⟩ := ulcdPartU_spec hn hx u
  obtain ⟨sl, vl, el, hl', rfl⟩ := ulcdPartL_spec hn l hl
  obtain ⟨vc, hc, sc'⟩ := ulcdPartC_spec (env := env) c
  have hall := List.rel_append (List.rel_append hu (.cons hl' .nil)) hc
  have hden := denotes_join hall (by simp)
  obtain ⟨t, et, ht⟩ := ulcdPartD_spec d hd hden
  refine ⟨t, ?_, ?_⟩
  · simp only [ulcdLatex, eu, el]
    exact et
  · simp only at hv
    rw [hv]
    convert ht using 1
    simp only [ulcdExpr, List.sum_append, List.sum_cons, List.sum_nil, su', sc', add_zero]

/-- **C65 (ULCD).** For a ULCD object built from legal parameters and changed by any sequence of `flip_sign()`, `add_int(i)`
(and `canonalize_params()`), `get_latex_exp(name)` returns a formula whose value is the value of the object, if the name stands
for the target constant. -/
theorem C65_ulcd {p : ℤ × ℤ × ℤ × ℤ} {x : ℚ} {s s' : Ulcd} (hs : Ulcd.init p x = .ok s) (ops : List LhsOp)
    (hrun : ulcdRun ops s = (s', .ok ())) {name : Str} (hn : IsTexName env name x) :
    ∃ t, ulcdLatex name s' = .ok t ∧ Denotes env t s'.val := by
  obtain ⟨h, -⟩ := Ulcd.init_ok hs
  obtain ⟨s1, e1, h1, -⟩ := ulcdRun_ok ops h
  rw [hrun] at e1
  cases e1
  exact ulcdLatex_spec h1 hn

/-- The environment in which `\pi` is `22/7` and `\dots` is 0. -/
def exTexEnv : TexEnv ℚ :=
  ⟨fun t => if t = .cmd "pi".toList then some (22 / 7) else if t = .cmd "dots".toList then some 0 else none, fun _ => none⟩

theorem exTexName : IsTexName exTexEnv "\\pi".toList (22 / 7) :=
  ⟨.cmd "pi".toList, ⟨by decide, rfl⟩, rfl, .inr ⟨"pi".toList, by decide, rfl, rfl⟩⟩

example : ∃ s, Ulcd.init (-3, -1, 4, 5) (22 / 7) = .ok s ∧
    ulcdLatex "\\pi".toList s = .ok "\\frac{ 1 }{ 5 } \\left( \\frac{ -3 }{ \\pi }+\\left(-1\\right) \\cdot \\pi+4 \\right)".toList :=
  ⟨⟨(-3, -1, 4, 5), 22 / 7, _⟩, by rw [Ulcd.init, ulcdVal_eq (by norm_num) ⟨by decide, by decide⟩], by rfl⟩

/-! ### Rational functions -/

theorem isPrefixOf_infix {old s : Str} (h : old.isPrefixOf s = true) : old <+: s := by simpa using h

theorem removeAll_eq {old s : Str} (h : ¬ old <:+: s) : removeAll old 0 s = s := by
  induction s with
  | nil => rfl
  | cons c s ih =>
    rw [removeAll, if_neg fun hp => h (isPrefixOf_infix hp).isInfix, ih fun hs => h (hs.trans (List.suffix_cons c s).isInfix)]

theorem caret_zero_infix {pre rest : Str} (h1 : '^' ∉ pre) (h2 : '^' ∉ rest) (h : ['^', '0'] <:+: pre ++ '^' :: rest) :
    rest.head? = some '0' := by
  obtain ⟨a, b, hab⟩ := h
  induction pre generalizing a with
  | nil =>
    cases a with
    | nil => simp at hab; rw [← hab]; rfl
    | cons y a =>
      simp at hab
      exact absurd (hab.2 ▸ by simp) h2
  | cons y pre ih =>
    cases a with
    | nil => simp at hab; exact absurd (hab.1 ▸ List.mem_cons_self) h1
    | cons z a =>
      simp at hab
      exact ih (fun h => h1 (List.mem_cons_of_mem _ h)) a (by simpa using hab.2)

theorem no_caret_infix {s : Str} (h : '^' ∉ s) (old : Str) : ¬ (old ++ ['^', '0']) <:+: s := fun h' =>
  h (h'.subset (by simp))

theorem digitChar_ne_caret {d : ℕ} (h : d < 10) : digitChar d ≠ '^' := by
  interval_cases d <;> decide

theorem caret_strNat (n : ℕ) : '^' ∉ strNat n := by
  obtain ⟨d, ds, hd, hds, -, hs, -⟩ := exists_strNat n
  rw [hs]
  intro h
  obtain ⟨x, hx, he⟩ := List.mem_map.1 h
  have hx' : x < 10 := by
    rcases List.mem_cons.1 hx with rfl | hx
    · exact hd
    · exact hds x hx
  exact digitChar_ne_caret hx' he

theorem caret_strInt (n : ℤ) : '^' ∉ strInt n := by
  rw [strInt]
  split
  · intro h
    rcases List.mem_cons.1 h with h | h
    · exact absurd h (by decide)
    · exact caret_strNat _ h
  · exact caret_strNat _

theorem caret_name {name : Str} {x : ℚ} (h : IsTexName env name x) : '^' ∉ name := by
  obtain ⟨t, -, -, ⟨c, hc, rfl, -⟩ | ⟨w, hw, rfl, -⟩⟩ := h
  · intro h
    rw [List.mem_singleton] at h
    subst h
    exact absurd hc (by decide)
  · intro h
    rcases List.mem_cons.1 h with h | h
    · exact absurd h (by decide)
    · exact absurd (hw _ h) (by decide)

/-- What the loop appends for one coefficient. -/
theorem rfElement_spec {name : Str} {x : ℚ} (hn : IsTexName env name x) (i : ℕ) (hi : i < 10) (c : ℤ) :
    (c = 0 ∧ rfElement name i c = .ok none) ∨
    (c ≠ 0 ∧ ∃ s, rfElement name i c = .ok (some s) ∧ IsTerm env (lex s) (c * x ^ i) ∧ ¬ (name ++ ['^', '0']) <:+: s) := by
  by_cases hc : c = 0
  · exact .inl ⟨hc, by rw [rfElement, if_pos hc]⟩
  have hmul : ∀ {s : Str} {v : ℚ}, IsFactor env (lex s) v → (∀ d, (lex s).head? ≠ some (.digit d)) →
      IsTerm env (lex (strInt c ++ ' ' :: s)) (c * v) := by
    intro s v hs hd
    rw [lex_space, strInt]
    split
    · have := ((isFactor_nat (env := env) c.natAbs).mul hs hd).neg
      rw [show -((c.natAbs : ℚ) * v) = c * v by
        rw [← Int.cast_natCast, Int.ofNat_natAbs_of_nonpos (by omega)]; push_cast; simp] at this
      exact this
    · have := (isFactor_nat (env := env) c.natAbs).mul hs hd
      rwa [show ((c.natAbs : ℕ) : ℚ) = (c : ℚ) by rw [← Int.cast_natCast, Int.natAbs_of_nonneg (by omega)]] at this
  refine .inr ⟨hc, ?_⟩
  rw [rfElement, if_neg hc]
  by_cases h0 : i = 0
  · subst h0
    exact ⟨strInt c, rfl, by simpa using isTerm_int (env := env) c, no_caret_infix (caret_strInt c) _⟩
  rw [if_neg h0]
  have hno : ∀ pre : Str, '^' ∉ pre → ¬ (name ++ ['^', '0']) <:+: pre ++ '^' :: strNat i := by
    intro pre hpre h
    have := caret_zero_infix hpre (caret_strNat i) ((List.infix_append' name ['^', '0'] []).trans (by simpa using h))
    revert this
    interval_cases i <;> first | exact absurd rfl h0 | decide
  by_cases h1 : i = 1
  · subst h1
    rw [if_pos rfl]
    by_cases c1 : c = 1
    · subst c1
      refine ⟨name, by rw [if_pos rfl]; exact congrArg (fun s => Except.ok (some s)) (List.append_nil name), ?_,
        no_caret_infix (caret_name hn) _⟩
      simpa using (isFactor_name hn).term
    · rw [if_neg c1]
      by_cases c2 : c = -1
      · subst c2
        refine ⟨'-' :: name, by rw [if_pos rfl]; exact congrArg (fun s => Except.ok (some ('-' :: s))) (List.append_nil name), ?_,
          no_caret_infix ?_ _⟩
        · simpa [lex_minus] using (isFactor_name hn).term.neg
        · intro h
          rcases List.mem_cons.1 h with h | h
          · exact absurd h (by decide)
          · exact caret_name hn h
      · rw [if_neg c2]
        refine ⟨strInt c ++ ' ' :: name, congrArg (fun s => Except.ok (some (strInt c ++ ' ' :: s))) (List.append_nil name), ?_,
          no_caret_infix ?_ _⟩
        · simpa using hmul (isFactor_name hn) (by simpa using name_not_digit hn [])
        · intro h
          rcases List.mem_append.1 h with h | h
          · exact caret_strInt c h
          · rcases List.mem_cons.1 h with h | h
            · exact absurd h (by decide)
            · exact caret_name hn h
  · rw [if_neg h1]
    by_cases c1 : c = 1
    · subst c1
      refine ⟨name ++ '^' :: strNat i, ?_, ?_, hno _ (caret_name hn)⟩
      · rw [if_pos rfl]
        exact congrArg (fun s => Except.ok (some (name ++ '^' :: s))) (List.append_nil _)
      · simpa using (isFactor_namePow hn i hi).term
    · rw [if_neg c1]
      refine ⟨strInt c ++ ' ' :: (name ++ '^' :: strNat i), ?_, ?_, ?_⟩
      · exact congrArg (fun s => Except.ok (some (strInt c ++ ' ' :: (name ++ '^' :: s)))) (List.append_nil _)
      · refine hmul (isFactor_namePow hn i hi) fun d => ?_
        rw [lex_caret]
        exact name_not_digit hn _ d
      · have := hno (strInt c ++ ' ' :: name) (by
          intro h
          rcases List.mem_append.1 h with h | h
          · exact caret_strInt c h
          · rcases List.mem_cons.1 h with h | h
            · exact absurd h (by decide)
            · exact caret_name hn h)
        simpa using this

theorem rfElements_spec {name : Str} {x : ℚ} (hn : IsTexName env name x) (p : List ℤ) : ∀ i, i + p.length ≤ 10 →
    ∃ ss vs, rfElements name i p = .ok ss ∧ List.Forall₂ (fun s v => IsTerm env (lex s) v) ss vs ∧
      vs.sum = x ^ i * horner (p.map (Int.cast : ℤ → ℚ)) x ∧ ((∃ c ∈ p, c ≠ 0) → ss ≠ []) ∧ ((∀ c ∈ p, c = 0) → ss = []) ∧
      ∀ s ∈ ss, ¬ (name ++ ['^', '0']) <:+: s := by
  induction p with
  | nil => intro i _; exact ⟨[], [], rfl, .nil, by simp [horner], by simp, by simp, by simp⟩
  | cons c p ih =>
    intro i hi
    rw [List.length_cons] at hi
    obtain ⟨ss, vs, e, h, hs, h1, h2, h3⟩ := ih (i + 1) (by omega)
    rcases rfElement_spec hn i (by omega) c with ⟨hc, he⟩ | ⟨hc, s, he, hs', hno⟩
    · refine ⟨ss, vs, by simp [rfElements, he, e], h, ?_, ?_, ?_, h3⟩
      · rw [hs, hc]; simp [horner]; ring
      · rintro ⟨y, hy, hy0⟩
        rcases List.mem_cons.1 hy with rfl | hy
        · exact absurd hc hy0
        · exact h1 ⟨y, hy, hy0⟩
      · intro h'; exact h2 fun y hy => h' y (List.mem_cons_of_mem _ hy)
    · refine ⟨s :: ss, (c * x ^ i) :: vs, by simp [rfElements, he, e], .cons hs' h, ?_, by simp, ?_, ?_⟩
      · rw [List.sum_cons, hs]; simp [horner]; ring
      · intro h'; exact absurd (h' c List.mem_cons_self) hc
      · intro y hy
        rcases List.mem_cons.1 hy with rfl | hy
        · exact hno
        · exact h3 y hy

/-- The text is a list of summands joined by plus signs. -/
def IsSumText (env : TexEnv ℚ) (s : Str) (v : ℚ) : Prop :=
  ∃ ss vs, s = join ['+'] ss ∧ ss ≠ [] ∧ List.Forall₂ (fun s v => IsTerm env (lex s) v) ss vs ∧ vs.sum = v

theorem IsSumText.denotes {s : Str} {v : ℚ} (h : IsSumText env s v) : Denotes env s v := by
  obtain ⟨ss, vs, rfl, hne, h, rfl⟩ := h
  exact denotes_join h hne

theorem join_append (ss : List Str) (s : Str) (h : ss ≠ []) : join ['+'] (ss ++ [s]) = join ['+'] ss ++ '+' :: s := by
  induction ss with
  | nil => exact absurd rfl h
  | cons t ss ih =>
    cases ss with
    | nil => simp [join]
    | cons t' ss =>
      have := ih (by simp)
      simp only [List.cons_append] at this ⊢
      have h2 : ∀ u : List Str, join ['+'] (t :: t' :: u) = t ++ ['+'] ++ join ['+'] (t' :: u) := fun u => by
        rw [join]; simp
      rw [h2, this, h2]
      simp

theorem IsSumText.add {s t : Str} {v w : ℚ} (h : IsSumText env s v) (h' : IsTerm env (lex t) w) :
    IsSumText env (s ++ '+' :: t) (v + w) := by
  obtain ⟨ss, vs, rfl, hne, h, rfl⟩ := h
  exact ⟨ss ++ [t], vs ++ [w], (join_append ss t hne).symm, by simp, List.rel_append h (.cons h' .nil), by simp⟩

theorem rfPoly_spec {name : Str} {x : ℚ} (hn : IsTexName env name x) {p : List ℤ} (hp : p.length ≤ 10) (h0 : ∃ c ∈ p, c ≠ 0) :
    ∃ t, rfPoly name p = .ok t ∧ IsSumText env t (horner (p.map (Int.cast : ℤ → ℚ)) x) := by
  obtain ⟨ss, vs, e, h, hs, h1, -, h3⟩ := rfElements_spec hn p 0 (by omega)
  have hne := h1 h0
  cases ss with
  | nil => exact absurd rfl hne
  | cons s ss =>
    refine ⟨join ['+'] (s :: ss), ?_, ⟨_, vs, rfl, hne, h, by rw [hs]; simp⟩⟩
    rw [rfPoly, e]
    show Except.ok (join ['+'] (removeAll (name ++ ['^', '0']) 0 s :: ss)) = _
    rw [removeAll_eq (h3 s List.mem_cons_self)]

theorem lex_strip (s : Str) : lex (strip s) = lex s := by
  have h1 : ∀ s : Str, lex (s.dropWhile (· = ' ')) = lex s := by
    intro s
    induction s with
    | nil => rfl
    | cons c s ih =>
      rw [List.dropWhile_cons]
      split
      · rename_i h
        simp only [decide_eq_true_eq] at h
        subst h
        exact ih
      · rfl
  have h2 : ∀ s : Str, lex (s.dropWhile (· = ' ')).reverse = lex s.reverse := by
    intro s
    induction s with
    | nil => rfl
    | cons c s ih =>
      rw [List.dropWhile_cons]
      split
      · rename_i h
        simp only [decide_eq_true_eq] at h
        subst h
        rw [ih, List.reverse_cons, lex_space]
        simp [lex, lexFrom]
      · rfl
  rw [strip, h2, List.reverse_reverse, h1]

theorem rfFraction_spec {num den : Str} {v w : ℚ} (hn : IsSumText env num v) (hd : IsSumText env den w) (hw : w ≠ 0) :
    ∃ t, rfFraction num den = .ok t ∧ IsSumText env t (v / w) := by
  rw [rfFraction]
  split
  · rename_i h
    have h1 : Denotes env den 1 := by
      rw [Denotes, ← lex_strip, h]
      have := isSum_iff.1 (isFactor_nat (env := env) 1).term.sum
      rw [show lex (strNat 1) = lex ['1'] from rfl] at this
      simpa using this
    have : w = 1 := hd.denotes.unique h1
    exact ⟨num, rfl, by rw [this, div_one]; exact hn⟩
  · exact ⟨_, rfl, [_], [v / w], rfl, by simp,
      .cons (isTerm_fracFmt (denotes_iff.1 hn.denotes) (denotes_iff.1 hd.denotes) hw) .nil, by simp⟩

theorem rfAdded_spec (k : ℤ) {s : Str} {v : ℚ} (h : IsSumText env s v) : ∃ t, rfAdded k s = .ok t ∧ IsSumText env t (v + k) := by
  rw [rfAdded]
  split
  · refine ⟨s ++ '+' :: (' ' :: strInt k), ?_, h.add (isTerm_int k)⟩
    exact congrArg (fun t => Except.ok (s ++ '+' :: ' ' :: t)) (List.append_nil _)
  · rename_i hk
    simp only [ne_eq, not_not] at hk
    exact ⟨s, rfl, by simpa [hk] using h⟩

theorem rfLatexText_spec {name : Str} {s : RF} (hn : IsTexName env name s.x) (hi : s.Inv) (h1 : s.num.length ≤ 10)
    (h2 : s.den.length ≤ 10) {v : ℚ} (hv : s.val = .fin v) : ∃ t, rfLatexText name s = .ok t ∧ Denotes env t v := by
  rw [hi.val, RF.calcVal] at hv
  simp only [Utils.subsInPolynom_eq_horner] at hv
  split at hv
  · cases hv
  · rename_i hne
    rw [not_or] at hne
    cases hv
    have nz : ∀ p : List ℤ, horner (p.map (Int.cast : ℤ → ℚ)) s.x ≠ 0 → ∃ c ∈ p, c ≠ 0 := by
      intro p hp
      rw [← RF.ofCoeffs_ne_zero_iff]
      intro h
      rw [← eval_ofCoeffs, h, toQ_zero, eval_zero] at hp
      exact hp rfl
    obtain ⟨tn, en, hn'⟩ := rfPoly_spec hn h1 (nz _ hne.2)
    obtain ⟨td, ed, hd'⟩ := rfPoly_spec hn h2 (nz _ hne.1)
    obtain ⟨tf, ef, hf⟩ := rfFraction_spec hn' hd' hne.1
    obtain ⟨t, e, h⟩ := rfAdded_spec s.added hf
    exact ⟨t, by simp [rfLatexText, en, ed, ef, e], h.denotes⟩

theorem natDegree_ofCoeffs_lt {l : List ℤ} (h : l ≠ []) : (ofCoeffs l).natDegree < l.length := by
  have hpos : 0 < l.length := List.length_pos_iff.2 h
  have : (ofCoeffs l).natDegree ≤ l.length - 1 := by
    rw [natDegree_le_iff_coeff_eq_zero]
    intro m hm
    rw [coeff_ofCoeffs, List.getD_eq_default _ _ (by omega)]
  omega

/-- Canonicalisation does not raise the degrees. -/
theorem RF.canon_length {s s' : RF} (h : s.Inv) (hr : RF.canonalizeParams s = (s', .ok ())) {m : ℕ} (h1 : s.num.length ≤ m)
    (h2 : s.den.length ≤ m) : s'.num.length ≤ m ∧ s'.den.length ≤ m := by
  obtain ⟨s1, n, d, e, i, hx, hp, hn, hd, hd0, -, e2, e3⟩ := RF.canonalizeParams_eq h
  rw [hr] at e
  cases e
  have g0 : polyGcd (ofCoeffs s.num) (ofCoeffs s.den) ≠ 0 := polyGcd_ne_zero h.den_ne
  have b1 := natDegree_ofCoeffs_lt h.num_ne
  have b2 := natDegree_ofCoeffs_lt h.den_ne_nil
  have dd : d.natDegree ≤ (ofCoeffs s.den).natDegree := by
    rw [hd]; generalize polyGcd (ofCoeffs s.num) (ofCoeffs s.den) = g at g0
    rw [natDegree_mul g0 hd0]; omega
  have dn : n.natDegree ≤ (ofCoeffs s.num).natDegree := by
    by_cases n0 : n = 0
    · simp [n0]
    · rw [hn]; generalize polyGcd (ofCoeffs s.num) (ofCoeffs s.den) = g at g0
      rw [natDegree_mul g0 n0]; omega
  constructor
  · rw [e2, length_sympoly2poly]
    have := (natDegree_sub_le n (C ⌈(toQ n / toQ d).coeff 0⌉ * d)).trans (max_le_max le_rfl (natDegree_C_mul_le _ d))
    rcases le_total n.natDegree d.natDegree with hle | hle
    · rw [max_eq_right hle] at this; omega
    · rw [max_eq_left hle] at this; omega
  · rw [e3, length_sympoly2poly]; omega

theorem rfRun_length (ops : List LhsOp) {m : ℕ} : ∀ {s s' : RF}, s.Inv → rfRun ops s = (s', .ok ()) → s.num.length ≤ m →
    s.den.length ≤ m → s'.num.length ≤ m ∧ s'.den.length ≤ m := by
  induction ops with
  | nil => intro s s' _ e h1 h2; cases e; exact ⟨h1, h2⟩
  | cons op ops ih =>
    intro s s' hi e h1 h2
    have : ∃ s1, rfCall op s = (s1, .ok ()) ∧ s1.Inv ∧ s1.num.length ≤ m ∧ s1.den.length ≤ m := by
      cases op with
      | flip =>
        obtain ⟨s1, e1, i1, -⟩ := RF.flipSign_val hi
        refine ⟨s1, e1, i1, ?_⟩
        rw [show RF.flipSign s = _ from RF.flipSign_eq s] at e1
        cases e1
        exact ⟨h1, by simpa using h2⟩
      | add n =>
        obtain ⟨s1, e1, i1, -⟩ := RF.addInt_val hi n
        refine ⟨s1, e1, i1, ?_⟩
        rw [RF.addInt_eq n s] at e1
        cases e1
        exact ⟨h1, h2⟩
      | canon =>
        obtain ⟨s1, e1, i1, -⟩ := RF.canon_val hi
        exact ⟨s1, e1, i1, RF.canon_length hi e1 h1 h2⟩
    obtain ⟨s1, e1, i1, l1, l2⟩ := this
    rw [rfRun, PyM.bind_ok e1] at e
    exact ih i1 e l1 l2

/-- `get_latex_exp` for objects whose value is not an integer. -/
theorem rfLatex_spec {name : Str} {s : RF} (hn : IsTexName env name s.x) (hi : s.Inv) (h1 : s.num.length ≤ 10)
    (h2 : s.den.length ≤ 10) {v : ℚ} (hv : s.val = .fin v) (hint : ¬ IsInteger v) :
    ∃ s' t, rfLatex name s = (s', .ok t) ∧ s'.Inv ∧ s'.val = .fin v ∧ Denotes env t v := by
  obtain ⟨s', e, i, x', -, hval, -⟩ := RF.canon_val hi
  obtain ⟨l1, l2⟩ := RF.canon_length hi e h1 h2
  have hv' := (hval v hv).resolve_right fun h => hint h.2
  obtain ⟨t, et, ht⟩ := rfLatexText_spec (by rw [x']; exact hn) i l1 l2 hv'
  refine ⟨s', t, ?_, i, hv', ht⟩
  rw [rfLatex, PyM.bind_ok e, PyM.bind_ok (show PyM.get s' = (s', .ok s') from rfl), et]
  rfl

/-- **C65 (rational functions, partial).** For a rational function object built from legal parameters of degree at most 9 and
changed by any sequence of `flip_sign()`, `add_int(i)`, `canonalize_params()`: if its value is a number that is no integer,
`get_latex_exp(name)` returns a formula with this value (and the object keeps the value).
Missing: integer values and higher degrees, see `C65_integer_violated` and `C65_degree_violated`. -/
theorem C65_rational_partial {p : List ℤ × List ℤ × ℤ} (hp : RfLegal p) (h1 : p.1.length ≤ 10) (h2 : p.2.1.length ≤ 10) {x : ℚ}
    (ops : List LhsOp) {s : RF} (hrun : rfRun ops (RF.init p x) = (s, .ok ())) {v : ℚ} (hv : s.val = .fin v)
    (hint : ¬ IsInteger v) {name : Str} (hn : IsTexName env name x) :
    ∃ s' t, rfLatex name s = (s', .ok t) ∧ s'.val = .fin v ∧ Denotes env t v := by
  have hi := RF.init_inv (x := x) hp.1 hp.2
  obtain ⟨l1, l2⟩ := rfRun_length ops hi hrun h1 h2
  obtain ⟨s1, e1, i1, x1, -⟩ := rfRun_inv ops hi
  rw [hrun] at e1
  cases e1
  have hx : s.x = x := x1
  obtain ⟨s', t, e, -, hv', ht⟩ := rfLatex_spec (by rw [hx]; exact hn) i1 l1 l2 hv hint
  exact ⟨s', t, e, hv', ht⟩

/-- **C65 (violated, integers).** For the constant function `2/1` (value 2) `get_latex_exp` raises IndexError: the numerator of
the canonical form is 0 and has no elements. -/
theorem C65_integer_violated :
    (RF.init ([2], [1], 0) 3).val = .fin 2 ∧ ∀ name, ∃ s', rfLatex name (RF.init ([2], [1], 0) 3) = (s', .error .indexError) := by
  refine ⟨by decide +kernel, fun name => ?_⟩
  have hi : (RF.init ([2], [1], 0) 3).Inv := RF.init_inv (by simp) ⟨1, by simp, by decide⟩
  obtain ⟨s', n, d, e, i, hx, hpar, hn, hd, hd0, h1, h2, h3⟩ := RF.canonalizeParams_eq hi
  have c2 : ofCoeffs (RF.init ([2], [1], 0) 3).num = C 2 := by simp [RF.init, ofCoeffs]
  have c1 : ofCoeffs (RF.init ([2], [1], 0) 3).den = 1 := by simp [RF.init, ofCoeffs]
  rw [c2, c1, polyGcd_eq_one isRelPrime_one_right, one_mul] at hn hd
  subst hn
  subst hd
  have hk : ⌈(toQ (C 2) / toQ (1 : ℤ[X])).coeff 0⌉ = 2 := by
    rw [toQ_C, show toQ 1 = 1 by simp [toQ], EuclideanDomain.div_one, coeff_C_zero]
    simp
  rw [hk, mul_one, sub_self] at h2
  have hnum : s'.num = [0] := by rw [h2]; simp [sympoly2poly]
  refine ⟨s', ?_⟩
  rw [rfLatex, PyM.bind_ok e, PyM.bind_ok (show PyM.get s' = (s', .ok s') from rfl), rfLatexText, hnum]
  rfl

/-- **C65 (violated, degrees).** For the function `x^10` at `x = 2` (value 1024) the text is `\pi^10`, which LaTeX reads as
`\pi^1` times 0. -/
theorem C65_degree_violated :
    (RF.init ([0, 0, 0, 0, 0, 0, 0, 0, 0, 0, 1], [1], 0) 2).val = .fin 1024 ∧
    (∃ s', rfLatex "\\pi".toList (RF.init ([0, 0, 0, 0, 0, 0, 0, 0, 0, 0, 1], [1], 0) 2) = (s', .ok "\\pi^10".toList)) ∧
    ∀ env : TexEnv ℚ, IsTexName env "\\pi".toList 2 → Denotes env "\\pi^10".toList 0 := by
  refine ⟨by decide +kernel, ?_, ?_⟩
  · have hi : (RF.init ([0, 0, 0, 0, 0, 0, 0, 0, 0, 0, 1], [1], 0) 2).Inv := RF.init_inv (by simp) ⟨1, by simp, by decide⟩
    obtain ⟨s', n, d, e, i, hx, hpar, hn, hd, hd0, h1, h2, h3⟩ := RF.canonalizeParams_eq hi
    have c2 : ofCoeffs (RF.init ([0, 0, 0, 0, 0, 0, 0, 0, 0, 0, 1], [1], 0) 2).num = X ^ 10 := by
      simp [RF.init, ofCoeffs]; ring
    have c1 : ofCoeffs (RF.init ([0, 0, 0, 0, 0, 0, 0, 0, 0, 0, 1], [1], 0) 2).den = 1 := by simp [RF.init, ofCoeffs]
    rw [c2, c1, polyGcd_eq_one isRelPrime_one_right, one_mul] at hn hd
    subst hn
    subst hd
    have hk : ⌈(toQ (X ^ 10) / toQ (1 : ℤ[X])).coeff 0⌉ = 0 := by
      rw [show toQ (X ^ 10) = X ^ 10 by simp [toQ], show toQ 1 = 1 by simp [toQ], EuclideanDomain.div_one, coeff_X_pow]
      simp
    rw [hk] at h1 h2
    have hnum : s'.num = [0, 0, 0, 0, 0, 0, 0, 0, 0, 0, 1] := by
      rw [h2, C_0, zero_mul, sub_zero, sympoly2poly, natDegree_X_pow]
      simp [List.range_succ, coeff_X_pow]
    have hden : s'.den = [1] := by rw [h3]; simp [sympoly2poly]
    have hadd : s'.added = 0 := by rw [h1]; rfl
    refine ⟨s', ?_⟩
    rw [rfLatex, PyM.bind_ok e, PyM.bind_ok (show PyM.get s' = (s', .ok s') from rfl), rfLatexText, hnum, hden, hadd]
    rfl
  · intro env hn
    obtain ⟨t, hn', ha, h⟩ := hn
    have ht : lex "\\pi".toList = [t] := lex_name h
    have ht' : t = .cmd "pi".toList := by
      have : lex "\\pi".toList = [.cmd "pi".toList] := rfl
      rw [this] at ht
      exact (List.cons.inj ht).1.symm
    subst ht'
    have e : lex "\\pi^10".toList = [.cmd "pi".toList, .sym '^', .digit 1, .digit 0] := rfl
    rw [Denotes, e]
    have h0 : Reads env .power [.digit 0] 0 [] :=
      .noPower headNot_nil (.number (by simpa using Reads.digitsEnd (env := env) (K := ℚ) (n := 0) headNot_nil))
    have hs := Reads.sum (env := env) (.pos (headNot_cons.2 (by simp)) (.prod (.power (k := 1) (.name hn' ha))
      (.juxt (t := .digit 0) trivial h0 (.prodEnd headNot_nil)))) (.sumEnd headNot_nil)
    simpa using hs

/-- `(1 + x)/(2 + x)` at 2, plus 5: legal, small, not an integer. -/
example : RfLegal ([1, 1], [2, 1], 5) ∧ (RF.init ([1, 1], [2, 1], 5) 2).val = .fin (23 / 4) ∧
    rfLatexText "\\pi".toList (RF.init ([-1, -1, 3], [2, 1], 5) 2) = .ok "\\frac{ -1+-\\pi+3 \\pi^2 }{ 2+\\pi }+ 5".toList :=
  ⟨⟨by simp, 2, by simp, by decide⟩, by decide +kernel, by rfl⟩

end PiCF
