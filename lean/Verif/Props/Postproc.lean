import Mathlib.Analysis.SpecialFunctions.Log.Basic
import Verif.Lemmas.Latex
import Verif.Model.Postproc
import Verif.Model.RationalFunc

/-!
# C66-C68: the tables of post-processing functions
-/

namespace PiCF
open PiCF.Spec PiCF.Hashtable PiCF.PyStr PiCF.Postproc

/-! ### C66 -/

section Latex
variable {K : Type} [Field K] [DecidableEq K] {env : TexEnv K}

omit [DecidableEq K] in
theorem eqnDenotes_of {lhs rhs : Str} {l r : K} (hl : IsSum env (lex lhs) l) (hr : IsSum env (lex rhs) r) :
    EqnDenotes env (lhs ++ (" = ".toList ++ rhs)) l r := by
  refine ⟨lex rhs, ?_, isSum_iff.1 hr⟩
  have e : lex (lhs ++ (" = ".toList ++ rhs)) = lex lhs ++ .sym '=' :: lex rhs := by
    show lex (lhs ++ ' ' :: ("= ".toList ++ rhs)) = _
    rw [lex_space]
    rfl
  rw [e]
  exact hl _ (by simp [Closes])

/-- The equation text of a pair of sides (enum_params.py:445). -/
theorem format_eqn (l r : Str) : format "{0} = {1}".toList [l, r] = .ok (l ++ (" = ".toList ++ r)) := by
  have : format "{0} = {1}".toList [l, r] = .ok (l ++ (" = ".toList ++ (r ++ []))) := rfl
  rw [this, List.append_nil]

omit [DecidableEq K] in
theorem post_recip {s : Str} {v : K} (h : IsSum env (lex s) v) (hv : v ≠ 0) :
    IsSum env (lex ("\\frac{1}{ ".toList ++ (s ++ " }".toList))) (1 / v) := by
  have e : lex ("\\frac{1}{ ".toList ++ (s ++ " }".toList)) =
      .cmd "frac".toList :: .sym '{' :: [.digit 1] ++ .sym '}' :: .sym '{' :: lex s ++ [.sym '}'] := by
    show [Tok.cmd "frac".toList, .sym '{', .digit 1, .sym '}', .sym '{'] ++ lex (s ++ ' ' :: ['}']) = _
    rw [lex_space]
    rfl
  rw [e]
  have h1 : IsSum env [.digit 1] 1 := by
    have := (isFactor_nat (env := env) 1).term.sum
    rw [show lex (strNat 1) = [.digit 1] from rfl] at this
    simpa using this
  exact (isFactor_frac h1 h hv).term.sum

omit [DecidableEq K] in
theorem post_pow {s : Str} {v : K} (h : IsSum env (lex s) v) {k : ℕ} {suffix : Str}
    (hs : lex suffix = [.cmd "right".toList, .sym ')', .sym '^', .digit k]) :
    IsSum env (lex ("\\left( ".toList ++ (s ++ ' ' :: suffix))) (v ^ k) := by
  have e : lex ("\\left( ".toList ++ (s ++ ' ' :: suffix)) =
      .cmd "left".toList :: .sym '(' :: lex s ++ [.cmd "right".toList, .sym ')', .sym '^', .digit k] := by
    show [Tok.cmd "left".toList, .sym '('] ++ lex (s ++ ' ' :: suffix) = _
    rw [lex_space, hs]
    rfl
  rw [e]
  exact (isFactor_parenPow h k).term.sum

omit [DecidableEq K] in
theorem post_fn {s : Str} {v w : K} (h : IsSum env (lex s) v) {f : Str} (hf : f ∉ reserved) {F : K → Option K}
    (hF : env.fn f = some F) (hw : F v = some w) {pre : Str}
    (hp : ∀ t, lex (pre ++ t) = .cmd f :: .cmd "left".toList :: .sym '(' :: lex t) :
    IsSum env (lex (pre ++ (s ++ " \\right)".toList))) w := by
  rw [hp]
  show IsSum env (_ :: _ :: _ :: lex (s ++ ' ' :: "\\right)".toList)) w
  rw [lex_space]
  exact (isFactor_fn hf hF h hw).term.sum

/-- The functions with a correct LaTeX form. -/
def goodPostLatex : List ℕ := [0, 1, 2, 3, 4, 5, 6, 7, 8, 9, 12, 13, 14, 15, 16, 17, 18, 19, 21, 23]

omit [DecidableEq K] in
theorem post_ok {i : ℕ} {lhs rhs rhs' : Str} {l w : K} (hl : Denotes env lhs l)
    (h : postLatex postprocFuncs postprocFuncsLatex i lhs rhs = .ok (lhs, rhs')) (hr : IsSum env (lex rhs') w) :
    ∃ lhs' rhs' eqn, postLatex postprocFuncs postprocFuncsLatex i lhs rhs = .ok (lhs', rhs') ∧
      format "{0} = {1}".toList [lhs', rhs'] = .ok eqn ∧ EqnDenotes env eqn l w :=
  ⟨lhs, rhs', _, h, format_eqn _ _, eqnDenotes_of (denotes_iff.1 hl) hr⟩

theorem postFn_odd {i : ℕ} (hi : i % 2 = 1) {r w : K} (h : postFn env i r = some w) :
    ∃ v, baseFn env (i / 2) r = some v ∧ v ≠ 0 ∧ w = 1 / v := by
  rw [postFn, if_neg (by omega)] at h
  cases hb : baseFn env (i / 2) r with
  | none => rw [hb] at h; cases h
  | some v =>
    rw [hb] at h
    simp only [Option.bind_some] at h
    split at h
    · cases h
    · rename_i hv; cases h; exact ⟨v, rfl, hv, rfl⟩

theorem postFn_even {i : ℕ} (hi : i % 2 = 0) {r w : K} (h : postFn env i r = some w) : baseFn env (i / 2) r = some w := by
  rwa [postFn, if_pos hi] at h

omit [DecidableEq K] in
theorem baseFn_pow {k : ℕ} (hk : k < 5) {r v : K} (h : baseFn env k r = some v) : v = r ^ (k + 1) := by
  rw [baseFn, if_pos hk] at h
  exact (Option.some.inj h).symm

omit [DecidableEq K] in
theorem baseFn_fn {k : ℕ} (hk : ¬ k < 5) {f : Str}
    (hf : ["sqrt".toList, "sin".toList, "cos".toList, "tan".toList, "cot".toList, "exp".toList, "ln".toList][k - 5]? = some f)
    {r v : K} (h : baseFn env k r = some v) : ∃ F, env.fn f = some F ∧ F r = some v := by
  rw [baseFn, if_neg hk, hf] at h
  simp only at h
  cases hF : env.fn f with
  | none => rw [hF] at h; cases h
  | some F => rw [hF] at h; exact ⟨F, rfl, h⟩

/-- **C66 (partial).** For twenty of the functions and all texts of the two sides: the generated equation has the value of the
given left hand side on the left and the function applied to the value of the given right hand side on the right.
Missing: the square roots, exp and ln, see `C66_sqrt_violated`, `C66_exp_violated`, `C66_ln_violated`. -/
theorem C66_equations_partial {i : ℕ} (hi : i ∈ goodPostLatex) {lhs rhs : Str} {l r w : K} (hl : Denotes env lhs l)
    (hr : Denotes env rhs r) (hw : postFn env i r = some w) :
    ∃ lhs' rhs' eqn, postLatex postprocFuncs postprocFuncsLatex i lhs rhs = .ok (lhs', rhs') ∧
      format "{0} = {1}".toList [lhs', rhs'] = .ok eqn ∧ EqnDenotes env eqn l w := by
  rw [denotes_iff] at hr
  have even_pow : ∀ (k : ℕ) (suffix : Str), 0 < k → k < 5 → i = 2 * k →
      lex suffix = [.cmd "right".toList, .sym ')', .sym '^', .digit (k + 1)] →
      postLatex postprocFuncs postprocFuncsLatex i lhs rhs = .ok (lhs, "\\left( ".toList ++ (rhs ++ ' ' :: suffix)) →
      ∃ lhs' rhs' eqn, postLatex postprocFuncs postprocFuncsLatex i lhs rhs = .ok (lhs', rhs') ∧
        format "{0} = {1}".toList [lhs', rhs'] = .ok eqn ∧ EqnDenotes env eqn l w := by
    intro k suffix h0 hk hik hs he
    have hb := postFn_even (by omega) hw
    rw [show i / 2 = k by omega] at hb
    rw [baseFn_pow hk hb]
    exact post_ok hl he (post_pow hr hs)
  have odd_pow : ∀ (k : ℕ) (suffix : Str), 0 < k → k < 5 → i = 2 * k + 1 →
      lex suffix = [.cmd "right".toList, .sym ')', .sym '^', .digit (k + 1)] →
      postLatex postprocFuncs postprocFuncsLatex i lhs rhs =
        .ok (lhs, "\\frac{1}{ ".toList ++ ("\\left( ".toList ++ (rhs ++ ' ' :: suffix) ++ " }".toList)) →
      ∃ lhs' rhs' eqn, postLatex postprocFuncs postprocFuncsLatex i lhs rhs = .ok (lhs', rhs') ∧
        format "{0} = {1}".toList [lhs', rhs'] = .ok eqn ∧ EqnDenotes env eqn l w := by
    intro k suffix h0 hk hik hs he
    obtain ⟨v, hb, hv, rfl⟩ := postFn_odd (by omega) hw
    rw [show i / 2 = k by omega] at hb
    have hbv := baseFn_pow hk hb
    subst hbv
    exact post_ok hl he (post_recip (post_pow hr hs) hv)
  have even_fn : ∀ (k : ℕ) (f pre : Str), 5 ≤ k → i = 2 * k → f ∉ reserved →
      ["sqrt".toList, "sin".toList, "cos".toList, "tan".toList, "cot".toList, "exp".toList, "ln".toList][k - 5]? = some f →
      (∀ t, lex (pre ++ t) = .cmd f :: .cmd "left".toList :: .sym '(' :: lex t) →
      postLatex postprocFuncs postprocFuncsLatex i lhs rhs = .ok (lhs, pre ++ (rhs ++ " \\right)".toList)) →
      ∃ lhs' rhs' eqn, postLatex postprocFuncs postprocFuncsLatex i lhs rhs = .ok (lhs', rhs') ∧
        format "{0} = {1}".toList [lhs', rhs'] = .ok eqn ∧ EqnDenotes env eqn l w := by
    intro k f pre hk hik hres hf hp he
    have hb := postFn_even (by omega) hw
    rw [show i / 2 = k by omega] at hb
    obtain ⟨F, hF, hv⟩ := baseFn_fn (by omega) hf hb
    exact post_ok hl he (post_fn hr hres hF hv hp)
  have odd_fn : ∀ (k : ℕ) (f pre : Str), 5 ≤ k → i = 2 * k + 1 → f ∉ reserved →
      ["sqrt".toList, "sin".toList, "cos".toList, "tan".toList, "cot".toList, "exp".toList, "ln".toList][k - 5]? = some f →
      (∀ t, lex (pre ++ t) = .cmd f :: .cmd "left".toList :: .sym '(' :: lex t) →
      postLatex postprocFuncs postprocFuncsLatex i lhs rhs =
        .ok (lhs, "\\frac{1}{ ".toList ++ (pre ++ (rhs ++ " \\right)".toList) ++ " }".toList)) →
      ∃ lhs' rhs' eqn, postLatex postprocFuncs postprocFuncsLatex i lhs rhs = .ok (lhs', rhs') ∧
        format "{0} = {1}".toList [lhs', rhs'] = .ok eqn ∧ EqnDenotes env eqn l w := by
    intro k f pre hk hik hres hf hp he
    obtain ⟨v, hb, hv, rfl⟩ := postFn_odd (by omega) hw
    rw [show i / 2 = k by omega] at hb
    obtain ⟨F, hF, hv'⟩ := baseFn_fn (by omega) hf hb
    exact post_ok hl he (post_recip (post_fn hr hres hF hv' hp) hv)
  have assoc : ∀ (pre suf : Str) (i : ℕ) (X : Str),
      postLatex postprocFuncs postprocFuncsLatex i lhs rhs = .ok (lhs, pre ++ (rhs ++ suf)) → X = pre ++ (rhs ++ suf) →
      postLatex postprocFuncs postprocFuncsLatex i lhs rhs = .ok (lhs, X) := fun _ _ _ _ h e => e ▸ h
  simp only [goodPostLatex, List.mem_cons, List.not_mem_nil, or_false] at hi
  rcases hi with rfl | rfl | rfl | rfl | rfl | rfl | rfl | rfl | rfl | rfl | rfl | rfl | rfl | rfl | rfl | rfl | rfl | rfl |
    rfl | rfl
  · have hb := baseFn_pow (k := 0) (by omega) (postFn_even (i := 0) rfl hw)
    rw [zero_add, pow_one] at hb
    subst hb
    exact post_ok hl rfl hr
  · obtain ⟨v, hb, hv, rfl⟩ := postFn_odd (i := 1) rfl hw
    have hb := baseFn_pow (k := 0) (by omega) hb
    rw [zero_add, pow_one] at hb
    subst hb
    exact post_ok hl rfl (post_recip hr hv)
  · exact even_pow 1 "\\right)^2".toList (by omega) (by omega) rfl rfl rfl
  · exact odd_pow 1 "\\right)^2".toList (by omega) (by omega) rfl rfl
      (assoc "\\frac{1}{ \\left( ".toList " \\right)^2 }".toList _ _ rfl (by simp))
  · exact even_pow 2 "\\right)^3".toList (by omega) (by omega) rfl rfl rfl
  · exact odd_pow 2 "\\right)^3".toList (by omega) (by omega) rfl rfl
      (assoc "\\frac{1}{ \\left( ".toList " \\right)^3 }".toList _ _ rfl (by simp))
  · exact even_pow 3 "\\right)^4".toList (by omega) (by omega) rfl rfl rfl
  · exact odd_pow 3 "\\right)^4".toList (by omega) (by omega) rfl rfl
      (assoc "\\frac{1}{ \\left( ".toList " \\right)^4 }".toList _ _ rfl (by simp))
  · exact even_pow 4 "\\right)^5".toList (by omega) (by omega) rfl rfl rfl
  · exact odd_pow 4 "\\right)^5".toList (by omega) (by omega) rfl rfl
      (assoc "\\frac{1}{ \\left( ".toList " \\right)^5 }".toList _ _ rfl (by simp))
  · exact even_fn 6 "sin".toList "\\sin\\left( ".toList (by omega) rfl (by decide) rfl (fun _ => rfl) rfl
  · exact odd_fn 6 "sin".toList "\\sin\\left( ".toList (by omega) rfl (by decide) rfl (fun _ => rfl)
      (assoc "\\frac{1}{ \\sin\\left( ".toList " \\right) }".toList _ _ rfl (by simp))
  · exact even_fn 7 "cos".toList "\\cos\\left( ".toList (by omega) rfl (by decide) rfl (fun _ => rfl) rfl
  · exact odd_fn 7 "cos".toList "\\cos\\left( ".toList (by omega) rfl (by decide) rfl (fun _ => rfl)
      (assoc "\\frac{1}{ \\cos\\left( ".toList " \\right) }".toList _ _ rfl (by simp))
  · exact even_fn 8 "tan".toList "\\tan\\left( ".toList (by omega) rfl (by decide) rfl (fun _ => rfl) rfl
  · exact odd_fn 8 "tan".toList "\\tan\\left( ".toList (by omega) rfl (by decide) rfl (fun _ => rfl)
      (assoc "\\frac{1}{ \\tan\\left( ".toList " \\right) }".toList _ _ rfl (by simp))
  · exact even_fn 9 "cot".toList "\\cot\\left( ".toList (by omega) rfl (by decide) rfl (fun _ => rfl) rfl
  · exact odd_fn 9 "cot".toList "\\cot\\left( ".toList (by omega) rfl (by decide) rfl (fun _ => rfl)
      (assoc "\\frac{1}{ \\cot\\left( ".toList " \\right) }".toList _ _ rfl (by simp))
  · exact odd_fn 10 "exp".toList "\\exp\\left( ".toList (by omega) rfl (by decide) rfl (fun _ => rfl)
      (assoc "\\frac{1}{ \\exp\\left( ".toList " \\right) }".toList _ _ rfl (by simp))
  · exact odd_fn 11 "ln".toList "\\ln\\left( ".toList (by omega) rfl (by decide) rfl (fun _ => rfl)
      (assoc "\\frac{1}{ \\ln\\left( ".toList " \\right) }".toList _ _ rfl (by simp))

end Latex

/-- **C66 (violated, square roots).** For functions 10 and 11 no equation is produced: whatever the sides are, the format string
is malformed (a single brace) and ValueError is raised. -/
theorem C66_sqrt_violated (lhs rhs : Str) :
    postLatex postprocFuncs postprocFuncsLatex 10 lhs rhs = .error .valueError ∧
    postLatex postprocFuncs postprocFuncsLatex 11 lhs rhs = .error .valueError := ⟨rfl, rfl⟩

/-- The real numbers with `exp`, `ln` and the letter `e`. -/
noncomputable def realEnv : TexEnv ℝ :=
  ⟨fun t => if t = .letter 'e' then some (Real.exp 1) else none,
   fun f => if f = "exp".toList then some fun x => some (Real.exp x)
     else if f = "ln".toList then some fun x => if 0 < x then some (Real.log x) else none else none⟩

theorem denotes_digit {K : Type} [Field K] (env : TexEnv K) (n : ℕ) : Denotes env (strNat n) (n : K) :=
  denotes_iff.2 (isFactor_nat n).term.sum

theorem denotes_one {K : Type} [Field K] (env : TexEnv K) : Denotes env "1".toList (1 : K) := by
  have := denotes_digit env 1
  rw [Nat.cast_one] at this
  exact this

theorem denotes_zero {K : Type} [Field K] (env : TexEnv K) : Denotes env "0".toList (0 : K) := by
  have := denotes_digit env 0
  rw [Nat.cast_zero] at this
  exact this

/-- **C66 (violated, exp).** For function 20 the left hand side is lost.  For the true statement `1 = exp 0` the equation is
`0 = \exp\left( 0 \right)`, whose sides are 0 and 1. -/
theorem C66_exp_violated :
    (∀ lhs lhs' rhs, postLatex postprocFuncs postprocFuncsLatex 20 lhs rhs =
      postLatex postprocFuncs postprocFuncsLatex 20 lhs' rhs) ∧
    (Denotes realEnv "1".toList 1 ∧ Denotes realEnv "0".toList 0 ∧ baseFn realEnv 10 0 = some 1) ∧
    postLatex postprocFuncs postprocFuncsLatex 20 "1".toList "0".toList = .ok ("0".toList, "\\exp\\left( 0 \\right)".toList) ∧
    EqnDenotes realEnv "0 = \\exp\\left( 0 \\right)".toList 0 1 := by
  have d1 : Denotes realEnv "1".toList 1 := denotes_one realEnv
  have d0 : Denotes realEnv "0".toList 0 := denotes_zero realEnv
  refine ⟨fun _ _ _ => rfl, ⟨d1, d0, ?_⟩, rfl, ?_⟩
  · simp [baseFn, realEnv]
  · exact eqnDenotes_of (rhs := "\\exp\\left( 0 \\right)".toList) (denotes_iff.1 d0)
      (post_fn (denotes_iff.1 d0) (f := "exp".toList) (by decide) (F := fun x => some (Real.exp x)) (by simp [realEnv])
        (by simp) (pre := "\\exp\\left( ".toList) fun _ => rfl)

/-- **C66 (violated, ln).** For function 22 the sides are exchanged, but the function is not inverted.  For the true
statement `1 = ln e` the equation is `e = \ln\left( 1 \right)`, whose sides are `e` and 0. -/
theorem C66_ln_violated :
    (Denotes realEnv "1".toList 1 ∧ Denotes realEnv "e".toList (Real.exp 1) ∧ baseFn realEnv 11 (Real.exp 1) = some 1) ∧
    postLatex postprocFuncs postprocFuncsLatex 22 "1".toList "e".toList = .ok ("e".toList, "\\ln\\left( 1 \\right)".toList) ∧
    EqnDenotes realEnv "e = \\ln\\left( 1 \\right)".toList (Real.exp 1) 0 ∧ Real.exp 1 ≠ 0 := by
  have d1 : Denotes realEnv "1".toList 1 := denotes_one realEnv
  have de : Denotes realEnv "e".toList (Real.exp 1) := denotes_iff.2 (isFactor_name
    ⟨.letter 'e', trivial, by simp [realEnv], .inl ⟨'e', by decide, rfl, rfl⟩⟩).term.sum
  refine ⟨⟨d1, de, ?_⟩, rfl, ?_, Real.exp_ne_zero 1⟩
  · simp [baseFn, realEnv, Real.exp_pos]
  · exact eqnDenotes_of (rhs := "\\ln\\left( 1 \\right)".toList) (denotes_iff.1 de)
      (post_fn (denotes_iff.1 d1) (f := "ln".toList) (by decide) (F := fun x => if 0 < x then some (Real.log x) else none)
        (by simp [realEnv]) (by simp) (pre := "\\ln\\left( ".toList) fun _ => rfl)

/-- The hypotheses of C66 for `1/x^2` and the sides `1` and `e`. -/
example : 3 ∈ goodPostLatex ∧ Denotes realEnv "1".toList 1 ∧
    postLatex postprocFuncs postprocFuncsLatex 3 "1".toList "e".toList = .ok ("1".toList, "\\frac{1}{ \\left( e \\right)^2 }".toList) :=
  ⟨by decide, denotes_one realEnv, rfl⟩

/-! ### C67 -/

theorem index_getElem {α : Type} [DecidableEq α] {l : List α} (hl : l.Nodup) {i : ℕ} {x : α} (h : l[i]? = some x) :
    index l x = .ok i := by
  induction l generalizing i with
  | nil => cases h
  | cons y l ih =>
    rw [List.nodup_cons] at hl
    cases i with
    | zero => cases h; simp [index]
    | succ i =>
      rw [List.getElem?_cons_succ] at h
      rw [index, if_neg, ih hl.2 h]
      rintro rfl
      exact hl.1 (List.mem_of_getElem? h)

theorem indexPairs_ok {α : Type} [DecidableEq α] {l : List α} (hl : l.Nodup) : ∀ (m : List α) (k : ℕ),
    (∀ i, m[i]? ≠ none → l[k + i]? = m[i]?) → ∃ ps, indexPairs l ((evens m).zip (odds m)) = .ok ps ∧
      ∀ i j, (i, j) ∈ ps ↔ ∃ n, i = k + 2 * n ∧ j = k + 2 * n + 1 ∧ 2 * n + 1 < m.length := by
  intro m
  induction m using evens.induct with
  | case1 => intro k _; exact ⟨[], rfl, by simp⟩
  | case2 x => intro k _; exact ⟨[], rfl, by simp⟩
  | case3 x y m ih =>
    intro k h
    obtain ⟨ps, e, hps⟩ := ih (k + 2) fun i hi => by
      have := h (i + 2) (by simpa using hi)
      rw [show k + 2 + i = k + (i + 2) by omega, this]
      simp
    have h0 : index l x = .ok k := index_getElem hl (by simpa using h 0 (by simp))
    have h1 : index l y = .ok (k + 1) := index_getElem hl (by simpa using h 1 (by simp))
    refine ⟨(k, k + 1) :: ps, by simp [evens, odds, indexPairs, h0, h1, e], ?_⟩
    intro i j
    rw [List.mem_cons, hps]
    constructor
    · rintro (h | ⟨n, rfl, rfl, hn⟩)
      · cases h; exact ⟨0, by omega, by omega, by simp⟩
      · exact ⟨n + 1, by omega, by omega, by simp; omega⟩
    · rintro ⟨n, rfl, rfl, hn⟩
      cases n with
      | zero => left; rfl
      | succ n => right; exact ⟨n, by omega, by omega, by simp at hn; omega⟩

/-- **C67.** For every list of different functions, of even length, the table of inverse pairs is built and contains exactly
the pairs `(2k, 2k+1)` and `(2k+1, 2k)` of indices; in particular it is symmetric.  `POSTPROC_FUNCS` is such a list. -/
theorem C67_inverse_pairs {α : Type} [DecidableEq α] {funcs : List α} (h : funcs.Nodup) (heven : funcs.length % 2 = 0) :
    ∃ ps, inversePairs funcs = .ok ps ∧
      (∀ i j, (i, j) ∈ ps ↔ i / 2 = j / 2 ∧ i ≠ j ∧ i < funcs.length) ∧ (∀ i j, (i, j) ∈ ps → (j, i) ∈ ps) := by
  obtain ⟨ps, e, hps⟩ := indexPairs_ok h funcs 0 fun i _ => by simp
  refine ⟨ps ++ ps.map (fun p => (p.2, p.1)), by simp only [inversePairs, e], ?_, ?_⟩
  · intro i j
    simp only [List.mem_append, List.mem_map, Prod.exists, Prod.mk.injEq, hps]
    constructor
    · rintro (⟨n, rfl, rfl, hn⟩ | ⟨_, _, ⟨n, rfl, rfl, hn⟩, rfl, rfl⟩)
      · exact ⟨by omega, by omega, by omega⟩
      · exact ⟨by omega, by omega, by omega⟩
    · rintro ⟨h1, h2, h3⟩
      by_cases hi : i % 2 = 0
      · exact .inl ⟨i / 2, by omega, by omega, by omega⟩
      · exact .inr ⟨j, i, ⟨j / 2, by omega, by omega, by omega⟩, rfl, rfl⟩
  · intro i j hij
    simp only [List.mem_append, List.mem_map, Prod.exists, Prod.mk.injEq] at hij ⊢
    rcases hij with h | ⟨a, b, h, rfl, rfl⟩
    · exact .inr ⟨i, j, h, rfl, rfl⟩
    · exact .inl h

/-- **C67 (this list).** The 24 functions are different; the pairs are those the equivalence test of the rational functions uses
(`Lhs.inversePair`); and of the two functions of a pair the second is the reciprocal of the first. -/
theorem C67_this_table (A : Analysis) : postprocFuncs.Nodup ∧ postprocFuncs.length = 24 ∧
    (evaluatedFuncs A).length = 24 ∧
    (∃ ps, inversePairs postprocFuncs = .ok ps ∧ ∀ i j, (i, j) ∈ ps ↔ Lhs.inversePair i j = true) ∧
    ∀ k < 12, ∃ f g, (evaluatedFuncs A)[2 * k]? = some f ∧ (evaluatedFuncs A)[2 * k + 1]? = some g ∧
      ∀ x, g x = match f x with | .error e => .error e | .ok y => safeInverse y := by
  have hn : postprocFuncs.Nodup := by decide
  refine ⟨hn, rfl, rfl, ?_, ?_⟩
  · obtain ⟨ps, e, h, -⟩ := C67_inverse_pairs hn rfl
    exact ⟨ps, e, fun i j => by rw [h, Lhs.inversePair, decide_eq_true_iff]; rfl⟩
  · intro k hk
    interval_cases k <;> exact ⟨_, _, rfl, rfl, fun _ => rfl⟩

example : inversePairs ["a", "b", "c", "d"] = .ok [(0, 1), (2, 3), (1, 0), (3, 2)] ∧ ["a", "b", "c", "d"].Nodup :=
  ⟨by rfl, by decide⟩

/-! ### C68 -/

/-- The call returns a number. -/
def Returns (r : Except PyErr Number) : Prop := ∃ y, r = .ok y

/-- **C68 (partial).** Applied to a finite Decimal (exact arithmetic, no overflow) functions 0-11 and 20, 21 return a number for
every value, and 22, 23 for every positive value.
Missing: sine to cotangent for every value and logarithms of negative numbers (`C68_evaluable_violated`), and most functions for
the `mpf` numbers the present code uses (`C68_mpf_violated`). -/
theorem C68_evaluable_partial (A : Analysis) (q : ℚ) (i : ℕ) (hi : i < 24) :
    ∃ f, (evaluatedFuncs A)[i]? = some f ∧ ((i ≤ 11 ∨ i = 20 ∨ i = 21 ∨ 0 < q ∧ 20 ≤ i) → Returns (f (.dec (.fin q)))) := by
  have inv : ∀ v : Num, Returns (safeInverse (.dec v)) := by
    intro v
    rw [safeInverse]
    split
    · exact ⟨_, rfl⟩
    · exact ⟨_, rfl⟩
  have sq : ∃ v, safeSqrt A (.dec (.fin q)) = .ok (.dec v) := by
    rw [safeSqrt]
    split
    · exact ⟨_, rfl⟩
    · exact ⟨_, rfl⟩
  have ln : 0 < q → lnMethod A (.dec (.fin q)) = .ok (.dec (.fin (A.ln q))) := by
    intro h
    rw [lnMethod, if_neg (not_lt.2 h.le), if_neg h.ne']
  interval_cases i
  · exact ⟨_, rfl, fun _ => ⟨_, rfl⟩⟩
  · exact ⟨_, rfl, fun _ => inv _⟩
  · exact ⟨_, rfl, fun _ => ⟨_, rfl⟩⟩
  · exact ⟨_, rfl, fun _ => inv _⟩
  · exact ⟨_, rfl, fun _ => ⟨_, rfl⟩⟩
  · exact ⟨_, rfl, fun _ => inv _⟩
  · exact ⟨_, rfl, fun _ => ⟨_, rfl⟩⟩
  · exact ⟨_, rfl, fun _ => inv _⟩
  · exact ⟨_, rfl, fun _ => ⟨_, rfl⟩⟩
  · exact ⟨_, rfl, fun _ => inv _⟩
  · exact ⟨_, rfl, fun _ => by obtain ⟨v, h⟩ := sq; exact ⟨_, h⟩⟩
  · refine ⟨_, rfl, fun _ => ?_⟩
    obtain ⟨v, h⟩ := sq
    rw [inverseOf, h]
    exact inv v
  · exact ⟨_, rfl, by omega⟩
  · exact ⟨_, rfl, by omega⟩
  · exact ⟨_, rfl, by omega⟩
  · exact ⟨_, rfl, by omega⟩
  · exact ⟨_, rfl, by omega⟩
  · exact ⟨_, rfl, by omega⟩
  · exact ⟨_, rfl, by omega⟩
  · exact ⟨_, rfl, by omega⟩
  · exact ⟨_, rfl, fun _ => ⟨_, rfl⟩⟩
  · exact ⟨_, rfl, fun _ => inv _⟩
  · refine ⟨_, rfl, fun h => ?_⟩
    have h : 0 < q := by simpa using h
    exact ⟨_, ln h⟩
  · refine ⟨_, rfl, fun h => ?_⟩
    have h : 0 < q := by simpa using h
    rw [inverseOf, ln h]
    exact inv _

/-- **C68 (violated).** Functions 12 to 19 raise NameError for every number; functions 22 and 23 raise for every negative
Decimal. -/
theorem C68_evaluable_violated (A : Analysis) :
    (∀ i, 12 ≤ i → i < 20 → ∃ f, (evaluatedFuncs A)[i]? = some f ∧ ∀ x, f x = .error .nameError) ∧
    (∀ i, 22 ≤ i → i < 24 → ∃ f, (evaluatedFuncs A)[i]? = some f ∧ ∀ q < 0, f (.dec (.fin q)) = .error .invalidOperation) := by
  constructor
  · intro i h1 h2
    interval_cases i <;> exact ⟨_, rfl, fun _ => rfl⟩
  · intro i h1 h2
    interval_cases i
    · exact ⟨_, rfl, fun q hq => by rw [lnMethod, if_pos hq]⟩
    · exact ⟨_, rfl, fun q hq => by rw [inverseOf, lnMethod, if_pos hq]⟩

/-- **C68 (violated, `mpf`).** For the `mpf` numbers the code computes with, exactly the identity, the powers and the square root
(indices 0, 2, 4, 6, 8, 10) return a number, and the reciprocal of the square root of a negative number (a Decimal NaN); all
others raise, for every finite value. -/
theorem C68_mpf_violated (A : Analysis) (q : ℚ) (i : ℕ) (hi : i < 24) :
    ∃ f, (evaluatedFuncs A)[i]? = some f ∧
      (Returns (f (.mpf (.fin q))) ↔ i = 0 ∨ i = 2 ∨ i = 4 ∨ i = 6 ∨ i = 8 ∨ i = 10 ∨ (i = 11 ∧ q < 0)) := by
  have bad : ∀ {f : Number → Except PyErr Number} {e : PyErr}, f (.mpf (.fin q)) = .error e → ¬ Returns (f (.mpf (.fin q))) := by
    rintro f e h ⟨y, hy⟩
    rw [h] at hy
    cases hy
  interval_cases i
  · exact ⟨_, rfl, by simpa using ⟨_, rfl⟩⟩
  · exact ⟨_, rfl, by simpa using bad rfl⟩
  · exact ⟨_, rfl, by simpa using ⟨_, rfl⟩⟩
  · exact ⟨_, rfl, by simpa using bad rfl⟩
  · exact ⟨_, rfl, by simpa using ⟨_, rfl⟩⟩
  · exact ⟨_, rfl, by simpa using bad rfl⟩
  · exact ⟨_, rfl, by simpa using ⟨_, rfl⟩⟩
  · exact ⟨_, rfl, by simpa using bad rfl⟩
  · exact ⟨_, rfl, by simpa using ⟨_, rfl⟩⟩
  · exact ⟨_, rfl, by simpa using bad rfl⟩
  · refine ⟨_, rfl, iff_of_true ?_ (by omega)⟩
    rw [safeSqrt]
    split
    · exact ⟨_, rfl⟩
    · exact ⟨_, rfl⟩
  · refine ⟨_, rfl, ?_⟩
    by_cases hq : q < 0
    · refine iff_of_true ?_ (by simp [hq])
      rw [inverseOf, safeSqrt, if_pos hq]
      exact ⟨_, rfl⟩
    · refine iff_of_false (bad (e := .attributeError) ?_) (by simp [hq])
      rw [inverseOf, safeSqrt, if_neg hq]
      rfl
  all_goals exact ⟨_, rfl, by simpa using bad rfl⟩

example : ∃ f g, (evaluatedFuncs ⟨id, id, id⟩)[5]? = some f ∧ f (.dec (.fin 2)) = .ok (.dec (.fin (1 / 8))) ∧
    (evaluatedFuncs ⟨id, id, id⟩)[23]? = some g ∧ g (.dec (.fin 4)) = .ok (.dec (.fin (1 / 4))) :=
  ⟨_, _, rfl, by rfl, rfl, by rfl⟩

end PiCF
