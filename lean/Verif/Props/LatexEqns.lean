import Verif.Model.Latex
import Verif.Props.ContFrac
import Verif.Props.LatexLhs
import Verif.Props.Postproc

/-!
# C64: the exported equations
-/

namespace PiCF
open PiCF.Spec PiCF.Hashtable PiCF.PyStr PiCF.Postproc PiCF.Latex PiCF.Mitm PiCF.ContFrac PiCF.Lhs

/-! ### The continued fraction -/

theorem firstValues_eq {ps : List (List ℤ)} (h : ps ≠ []) : ∀ n i, firstValues ps i n = .ok ((List.range' i n).map (seqAt ps))
  | 0, i => rfl
  | n + 1, i => by
    have hl : ps.length ≠ 0 := by simpa using h
    rw [firstValues, polyAt, if_neg hl, firstValues_eq h n (i + 1)]
    simp [List.range'_succ, seqAt, Utils.subsInPolynom_eq_horner]

/-- `\dots` stands for the value `t`. -/
def DotsIs (env : TexEnv ℚ) (t : ℚ) : Prop := env.atom (.cmd "dots".toList) = some t ∧ env.fn "dots".toList = none

variable {env : TexEnv ℚ}

theorem cf_last {t : ℚ} (hd : DotsIs env t) (x : ℤ) : IsSum env (lex (strInt x ++ " + \\dots".toList)) ((x : ℚ) + t) := by
  have e : lex (strInt x ++ " + \\dots".toList) = lex (strInt x) ++ [.sym '+', .cmd "dots".toList] := by
    show lex (strInt x ++ ' ' :: "+ \\dots".toList) = _
    rw [lex_space]
    rfl
  rw [e]
  have hn : IsTexName env "\\dots".toList t :=
    ⟨.cmd "dots".toList, ⟨by decide, hd.2⟩, hd.1, .inr ⟨"dots".toList, by decide, rfl, rfl⟩⟩
  have h := isSum_join (isTerm_int (env := env) x) (tss := [lex "\\dots".toList]) (vs := [t])
    (.cons (isFactor_name hn).term .nil)
  rw [show lex "\\dots".toList = [.cmd "dots".toList] from rfl] at h
  simpa using h

theorem cf_step {cur : Str} {d : ℚ} (hc : IsSum env (lex cur) d) (h0 : d ≠ 0) (x y : ℤ) :
    ∃ new, format "{0} + \\frac{{ {1} }} {{ {2} }}".toList [strInt x, strInt y, cur] = .ok new ∧
      IsSum env (lex new) ((x : ℚ) + (y : ℚ) / d) := by
  refine ⟨_, rfl, ?_⟩
  have e : lex (strInt x ++ (" + \\frac{ ".toList ++ (strInt y ++ (" } { ".toList ++ (cur ++ " }".toList))))) =
      lex (strInt x) ++ .sym '+' :: (.cmd "frac".toList :: .sym '{' :: lex (strInt y) ++
        .sym '}' :: .sym '{' :: lex cur ++ [.sym '}']) := by
    show lex (strInt x ++ ' ' :: ("+ \\frac{ ".toList ++ (strInt y ++ ' ' :: ("} { ".toList ++ (cur ++ ' ' :: ['}']))))) = _
    rw [lex_space]
    show _ ++ (.sym '+' :: .cmd "frac".toList :: .sym '{' :: lex (strInt y ++ ' ' :: ("} { ".toList ++ (cur ++ ' ' :: ['}'])))) = _
    rw [lex_space]
    show _ ++ (.sym '+' :: .cmd "frac".toList :: .sym '{' :: (_ ++ .sym '}' :: .sym '{' :: lex (cur ++ ' ' :: ['}']))) = _
    rw [lex_space]
    simp [show lex ['}'] = [.sym '}'] from rfl]
  show IsSum env (lex (strInt x ++ (" + \\frac{ ".toList ++ (strInt y ++ (" } { ".toList ++ (cur ++ " }".toList)))))) _
  rw [e]
  have h := isSum_join (isTerm_int (env := env) x) (vs := [(y : ℚ) / d])
    (.cons (isFactor_frac (isTerm_int y).sum hc h0).term .nil)
  simpa using h

theorem contFracLoop_ok : ∀ (n : ℕ) (a b : List ℤ) (cur : Str), a.length ≤ b.length →
    ∃ s, contFracLoop n a b cur = .ok s
  | 0, _, _, cur, _ => ⟨cur, rfl⟩
  | n + 1, a, b, cur, h => by
    rw [contFracLoop]
    split
    · rename_i hl
      obtain ⟨x, hx⟩ : ∃ x, a.dropLast.getLast? = some x := by
        rw [← Option.isSome_iff_exists, List.getLast?_isSome]
        intro e
        have := congrArg List.length e
        simp at this
        omega
      obtain ⟨y, hy⟩ : ∃ y, b.getLast? = some y := by
        rw [← Option.isSome_iff_exists, List.getLast?_isSome]
        rintro rfl
        rw [List.length_nil] at h
        omega
      rw [hx, hy]
      exact contFracLoop_ok n _ _ _ (by simp; omega)
    · exact ⟨cur, rfl⟩

theorem nestedWith_prev {a b : ℕ → ℚ} {t : ℚ} : ∀ {m k n : ℕ} {v : ℚ}, nestedWith a b t k (m + n) = some v →
    ∃ w, nestedWith a b t (k + m) n = some w ∧ (m ≠ 0 → w ≠ 0)
  | 0, k, n, v, h => ⟨v, by simpa using h, by simp⟩
  | m + 1, k, n, v, h => by
    rw [show m + 1 + n = (m + n) + 1 by omega, nestedWith] at h
    cases hd : nestedWith a b t (k + 1) (m + n) with
    | none => rw [hd] at h; cases h
    | some d =>
      rw [hd] at h
      simp only at h
      split at h
      · cases h
      · rename_i h0
        obtain ⟨w, hw, hw'⟩ := nestedWith_prev hd
        refine ⟨w, by rw [← hw]; congr 1; omega, fun _ => ?_⟩
        cases m with
        | zero => rw [Nat.zero_add] at hd; rw [Nat.add_zero] at hw; rw [hw] at hd; cases hd; exact h0
        | succ m => exact hw' (by omega)

theorem contFracLoop_spec (fa fb : ℕ → ℤ) (t : ℚ) (D : ℕ) {V : ℚ}
    (hV : nestedWith (fun i => (fa i : ℚ)) (fun i => (fb i : ℚ)) t 0 D = some V) : ∀ (m n : ℕ) (cur s : Str) (v : ℚ), m ≤ n → m ≤ D →
    nestedWith (fun i => (fa i : ℚ)) (fun i => (fb i : ℚ)) t m (D - m) = some v → IsSum env (lex cur) v →
    contFracLoop n ((List.range (m + 1)).map fa) ((List.range (m + 1)).map fb) cur = .ok s → IsSum env (lex s) V
  | 0, n, cur, s, v, _, _, hv, hc, hs => by
    rw [Nat.sub_zero, hV] at hv
    cases hv
    have : contFracLoop n ((List.range (0 + 1)).map fa) ((List.range (0 + 1)).map fb) cur = .ok cur := by cases n <;> simp [contFracLoop]
    rw [this] at hs
    cases hs
    exact hc
  | m + 1, 0, _, _, _, h, _, _, _, _ => by omega
  | m + 1, n + 1, cur, s, v, hn, hD, hv, hc, hs => by
    rw [contFracLoop, if_pos (by simp)] at hs
    have e1 : ((List.range (m + 1 + 1)).map fa).dropLast = (List.range (m + 1)).map fa := by
      rw [List.range_succ, List.map_append, List.map_singleton, List.dropLast_concat]
    have e2 : ((List.range (m + 1 + 1)).map fb).dropLast = (List.range (m + 1)).map fb := by
      rw [List.range_succ, List.map_append, List.map_singleton, List.dropLast_concat]
    have e3 : ((List.range (m + 1)).map fa).getLast? = some (fa m) := by simp [List.range_succ]
    have e4 : ((List.range (m + 1 + 1)).map fb).getLast? = some (fb (m + 1)) := by simp [List.range_succ]
    rw [e1, e2, e3, e4] at hs
    simp only at hs
    have hprev := nestedWith_prev (m := m + 1) (k := 0) (n := D - (m + 1)) (by rw [Nat.add_sub_cancel' hD]; exact hV)
    obtain ⟨w, hw, hw0⟩ := hprev
    rw [Nat.zero_add, hv] at hw
    cases hw
    have hv0 := hw0 (by omega)
    obtain ⟨new, enew, hnew⟩ := cf_step hc hv0 (fa m) (fb (m + 1))
    rw [enew] at hs
    refine contFracLoop_spec fa fb t D hV m n new s _ (by omega) (by omega) ?_ hnew hs
    rw [show D - m = (D - (m + 1)) + 1 by omega, nestedWith, hv]
    simp [hv0]

/-- **C64 (the fraction).** For the first `D + 1 ≥ 1` elements of two sequences, `latex_cont_frac` returns a formula that shows
`a_0 + b_1/(a_1 + b_2/(… + b_D/(a_D + \dots)))`: whenever that expression has a value, with `\dots` standing for any number `t`,
the formula has this value. -/
theorem C64_fraction (fa fb : ℕ → ℤ) (D : ℕ) :
    ∃ s, latexContFrac ((List.range (D + 1)).map fa) ((List.range (D + 1)).map fb) = .ok s ∧
      ∀ {env : TexEnv ℚ} {t V : ℚ}, DotsIs env t →
        nestedWith (fun i => (fa i : ℚ)) (fun i => (fb i : ℚ)) t 0 D = some V → Denotes env s V := by
  have e3 : ((List.range (D + 1)).map fa).getLast? = some (fa D) := by simp [List.range_succ]
  rw [latexContFrac, e3]
  obtain ⟨s, hs⟩ := contFracLoop_ok ((List.range (D + 1)).map fa).length ((List.range (D + 1)).map fa)
    ((List.range (D + 1)).map fb) (strInt (fa D) ++ " + \\dots".toList) (by simp)
  refine ⟨s, hs, ?_⟩
  intro env t V hd hV
  rw [denotes_iff]
  refine contFracLoop_spec fa fb t D hV D _ _ s _ (by simp) le_rfl ?_ (cf_last hd (fa D)) hs
  rw [Nat.sub_self, nestedWith]

example : latexContFrac [1, 2, 3] [4, -5, 6] = .ok "1 + \\frac{ -5 } { 2 + \\frac{ 6 } { 3 + \\dots } }".toList := rfl

/-! ### The list of equations -/

variable {L : Type}

/-- The continued fraction of a result is truncated: some `b_j` used within the 400 iterations is 0. -/
def Truncated (c : Click L) : Prop := ∃ j < 400, seqAt c.b (j + 1) = 0

instance (c : Click L) : Decidable (Truncated c) := by unfold Truncated; infer_instance

/-- A result that can be evaluated: its continued fraction can be built, and its post-processing function exists and
returns a number. -/
def ExportEvaluable (post : List (Num → Except PyErr Num)) (c : Click L) : Prop :=
  (∃ s, ContFrac.init c.a c.b = .ok s) ∧ ∃ f, post[c.post]? = some f ∧ ∀ v, ∃ w, f v = .ok w

theorem build_iff {post : List (Num → Except PyErr Num)} {c : Click L} (h : ExportEvaluable post c) :
    ((buildFromParams post 400 c).map (fun _ => ()) = .ok () ↔ ¬ Truncated c) ∧
    ∀ i, (buildFromParams post 400 c).map (fun _ => ()) = .error (.zeroB i) ↔
      ∃ j : ℕ, i = j ∧ 1 ≤ j ∧ j ≤ 400 ∧ seqAt c.b j = 0 ∧ ∀ k, 1 ≤ k → k < j → seqAt c.b k ≠ 0 := by
  obtain ⟨⟨s, hs⟩, f, hf, hfw⟩ := h
  have hc := C11_zero_b_reported hs [] 400 true
  have hp : s.params.b = c.b := by rw [(init_fresh hs).2]; rfl
  rw [show runOps [] s = s from rfl] at hc
  simp only [hp, Nat.cast_ofNat, true_and, forall_const] at hc
  obtain ⟨h1, h2⟩ := hc
  have key : (buildFromParams post 400 c).map (fun _ => ()) = (genIterations 400 true s).2 := by
    rw [buildFromParams, hs]
    simp only
    rcases genIterations 400 true s with ⟨cf, r⟩
    cases r with
    | error e => simp [Except.map]
    | ok u =>
      obtain ⟨w, hw⟩ := hfw (getResult cf)
      simp [hf, hw, Except.map]
  rw [key]
  refine ⟨?_, h1⟩
  rw [h2, Truncated]
  constructor
  · rintro h ⟨j, hj, h0⟩
    exact h (j + 1) (by omega) (by omega) h0
  · intro h j h3 h4 h0
    exact h ⟨j - 1, by omega, by rwa [Nat.sub_add_cancel h3]⟩

/-- The functions whose LaTeX form is produced without an exception. -/
theorem postLatex_total {i : ℕ} (hi : i ∈ goodPostLatex) (lhs rhs : Str) :
    ∃ p, postLatex postprocFuncs postprocFuncsLatex i lhs rhs = .ok p := by
  simp only [goodPostLatex, List.mem_cons, List.not_mem_nil, or_false] at hi
  rcases hi with rfl | rfl | rfl | rfl | rfl | rfl | rfl | rfl | rfl | rfl | rfl | rfl | rfl | rfl | rfl | rfl | rfl | rfl |
    rfl | rfl <;> exact ⟨_, rfl⟩

/-- What an equation for the result `c`, cut after `depth` elements, has to say: with `\dots` standing for `t`, the left hand side
has the value of the LHS object, and the right hand side is the post-processing function of the continued fraction. -/
def Shows (env : TexEnv ℚ) (val : L → ℚ) (depth : ℕ) (c : Click L) (s : Str) : Prop :=
  ∀ t v w, DotsIs env t →
    nestedWith (fun i => (seqAt c.a i : ℚ)) (fun i => (seqAt c.b i : ℚ)) t 0 (depth - 1) = some v →
    postFn env c.post v = some w → EqnDenotes env s (val c.lhs) w

theorem equation_spec {latex : Str → PyM L Str} {val : L → ℚ} {target : Str} {c : Click L} {depth : ℕ} (hd : 0 < depth)
    (ha : c.a ≠ []) (hb : c.b ≠ []) (hi : c.post ∈ goodPostLatex) {l : L} {lhs : Str}
    (hlat : latex (exportName target) c.lhs = (l, .ok lhs)) (hden : Denotes env lhs (val c.lhs)) :
    ∃ s, equation latex postprocFuncs postprocFuncsLatex target depth c = (l, .ok s) ∧ Shows env val depth c s := by
  obtain ⟨D, rfl⟩ : ∃ D, depth = D + 1 := ⟨depth - 1, by omega⟩
  obtain ⟨rhs, hr, hrd⟩ := C64_fraction (seqAt c.a) (seqAt c.b) D
  obtain ⟨⟨l', r'⟩, hp⟩ := postLatex_total hi lhs rhs
  refine ⟨l' ++ (" = ".toList ++ r'), ?_, ?_⟩
  · rw [equation, firstValues_eq ha, firstValues_eq hb]
    simp only [hlat]
    rw [← List.range_eq_range', hr]
    simp only [hp, format_eqn]
  · intro t v w ht hv hw
    rw [Nat.add_sub_cancel] at hv
    obtain ⟨l2, r2, eqn, e1, e2, h⟩ := C66_equations_partial hi hden (hrd ht hv) hw
    rw [hp] at e1
    cases e1
    rw [format_eqn] at e2
    cases e2
    exact h

/-- **C64 (partial).** For every list of evaluable results, whose LHS objects have LaTeX expressions (C65) and whose
post-processing functions have a correct LaTeX form (C66), and every depth ≥ 1: `get_results_as_eqns` returns, in the order of
the results, exactly one equation for every result that is not truncated, and each shows its result.
Missing: the post-processing functions for which C66 fails, and depth 0 (`C64_depth_zero_violated`). -/
theorem C64_equations_partial {latex : Str → PyM L Str} {val : L → ℚ} {post : List (Num → Except PyErr Num)} {target : Str}
    {depth : ℕ} (hd : 0 < depth) {clicks : List (Click L)} (hev : ∀ c ∈ clicks, ExportEvaluable post c)
    (hgood : ∀ c ∈ clicks, c.post ∈ goodPostLatex)
    (hlat : ∀ c ∈ clicks, ∃ l lhs, latex (exportName target) c.lhs = (l, .ok lhs) ∧ Denotes env lhs (val c.lhs)) :
    ∃ clicks' eqns, getResultsAsEqns latex post postprocFuncs postprocFuncsLatex target true depth clicks = (clicks', .ok eqns) ∧
      List.Forall₂ (Shows env val depth) (clicks.filter fun c => ¬ Truncated c) eqns := by
  rw [getResultsAsEqns]
  induction clicks with
  | nil => exact ⟨[], [], rfl, .nil⟩
  | cons c cs ih =>
    obtain ⟨cs', eqns, e, h⟩ := ih (fun x hx => hev x (List.mem_cons_of_mem _ hx)) (fun x hx => hgood x (List.mem_cons_of_mem _ hx))
      fun x hx => hlat x (List.mem_cons_of_mem _ hx)
    have hc := hev c List.mem_cons_self
    obtain ⟨b1, b2⟩ := build_iff hc
    by_cases ht : Truncated c
    · have : ∃ j, 1 ≤ j ∧ j ≤ 400 ∧ seqAt c.b j = 0 := by
        obtain ⟨j, hj, h0⟩ := ht
        exact ⟨j + 1, by omega, by omega, h0⟩
      have hz : (buildFromParams post 400 c).map (fun _ => ()) = .error (.zeroB (Nat.find this : ℕ)) := by
        rw [b2]
        refine ⟨_, rfl, (Nat.find_spec this).1, (Nat.find_spec this).2.1, (Nat.find_spec this).2.2, fun k h1 h2 h0 => ?_⟩
        exact Nat.find_min this h2 ⟨h1, by have := (Nat.find_spec this).2.1; omega, h0⟩
      refine ⟨c :: cs', eqns, ?_, by rw [List.filter_cons_of_neg (by simpa using ht)]; exact h⟩
      rw [eqnsLoop, hz]
      simp only [if_true, e]
    · obtain ⟨l, lhs, hl, hden⟩ := hlat c List.mem_cons_self
      obtain ⟨⟨s0, hs0⟩, -⟩ := hc
      have hwf : WF c.a c.b := (init_ok_iff _ _ _ _).1 ⟨s0, hs0⟩
      obtain ⟨s, es, hs⟩ := equation_spec (env := env) (val := val) hd hwf.ha hwf.hb (hgood c List.mem_cons_self) hl hden
      refine ⟨{ c with lhs := l } :: cs', s :: eqns, ?_, by rw [List.filter_cons_of_pos (by simpa using ht)]; exact .cons hs h⟩
      rw [eqnsLoop, b1.2 ht]
      simp only [es, e]

/-- **C64 (ULCD, `pi`).** Everything together for ULCD results: the objects are in the state any sequence of calls leaves them in
(`UlcdOk`, see C65), the name `pi` is exported as `\pi`. -/
theorem C64_ulcd_partial {x t : ℚ} {post : List (Num → Except PyErr Num)} {depth : ℕ} (hd : 0 < depth)
    (hx : IsTexName env "\\pi".toList x) (ht : DotsIs env t) {clicks : List (Click Ulcd)} (hev : ∀ c ∈ clicks, ExportEvaluable post c)
    (hgood : ∀ c ∈ clicks, c.post ∈ goodPostLatex) (hok : ∀ c ∈ clicks, UlcdOk x c.lhs) :
    ∃ eqns, getResultsAsEqns (fun name s => (s, ulcdLatex name s)) post postprocFuncs postprocFuncsLatex "pi".toList true depth clicks =
        (clicks, .ok eqns) ∧
      List.Forall₂ (fun c s => ∀ v w,
          nestedWith (fun i => (seqAt c.a i : ℚ)) (fun i => (seqAt c.b i : ℚ)) t 0 (depth - 1) = some v →
          postFn env c.post v = some w → EqnDenotes env s c.lhs.val w)
        (clicks.filter fun c => ¬ Truncated c) eqns := by
  obtain ⟨cs', eqns, e, h⟩ := C64_equations_partial (env := env) (latex := fun name s => (s, ulcdLatex name s))
    (val := fun s => s.val) (target := "pi".toList) hd hev hgood fun c hc => by
      obtain ⟨s, es, hs⟩ := ulcdLatex_spec (hok c hc) hx
      exact ⟨c.lhs, s, by rw [show exportName "pi".toList = "\\pi".toList from rfl, es], hs⟩
  have hsame : ∀ (cs : List (Click Ulcd)), (getResultsAsEqns (fun name s => (s, ulcdLatex name s)) post postprocFuncs
      postprocFuncsLatex "pi".toList true depth cs).1 = cs := by
    have heq : ∀ c : Click Ulcd, (equation (fun name s => (s, ulcdLatex name s)) postprocFuncs postprocFuncsLatex "pi".toList
        depth c).1 = c.lhs := by
      intro c
      unfold equation
      split
      · rfl
      · split
        · rfl
        · split
          · rename_i h; exact (congrArg Prod.fst h).symm
          · rename_i h
            have h := (congrArg Prod.fst h).symm
            split
            · exact h
            · split <;> exact h
    intro cs
    unfold getResultsAsEqns
    induction cs with
    | nil => rfl
    | cons c cs ih =>
      rw [eqnsLoop]
      have hq := heq c
      split
      · simp only [if_true]
        exact congrArg (c :: ·) ih
      · rfl
      · split
        · rename_i h; rw [h] at hq; simp only at hq; rw [hq]
        · rename_i h
          rw [h] at hq
          simp only at hq
          rw [hq]
          split
          · rename_i h'; rw [h'] at ih; simp only at ih; rw [ih]
          · rename_i h'; rw [h'] at ih; simp only at ih; rw [ih]
  refine ⟨eqns, ?_, h.imp fun c s hs v w => hs t v w ht⟩
  have := hsame clicks
  rw [e] at this ⊢
  simp only at this
  rw [this]

/-- **C64 (no filter).** With `ignore_zerob_exceptions=False`, if the first truncated result comes after evaluable, exportable
ones, the exception `ZeroB` with the first index where its `b` vanishes is raised, and no equations are returned. -/
theorem C64_zero_b_raised {latex : Str → PyM L Str} {val : L → ℚ} {post : List (Num → Except PyErr Num)} {target : Str}
    {depth : ℕ} (hd : 0 < depth) {pre rest : List (Click L)} {c : Click L} (hev : ∀ x ∈ pre, ExportEvaluable post x)
    (hgood : ∀ x ∈ pre, x.post ∈ goodPostLatex)
    (hlat : ∀ x ∈ pre, ∃ l lhs, latex (exportName target) x.lhs = (l, .ok lhs) ∧ Denotes env lhs (val x.lhs))
    (hpre : ∀ x ∈ pre, ¬ Truncated x) (hc : ExportEvaluable post c) {j : ℕ} (h1 : 1 ≤ j) (h2 : j ≤ 400) (h0 : seqAt c.b j = 0)
    (hfirst : ∀ k, 1 ≤ k → k < j → seqAt c.b k ≠ 0) :
    (getResultsAsEqns latex post postprocFuncs postprocFuncsLatex target false depth (pre ++ c :: rest)).2 = .error (.zeroB j) := by
  rw [getResultsAsEqns]
  induction pre with
  | nil => rw [List.nil_append, eqnsLoop, (build_iff hc).2 j |>.2 ⟨j, rfl, h1, h2, h0, hfirst⟩]; rfl
  | cons x xs ih =>
    have ih := ih (fun y hy => hev y (List.mem_cons_of_mem _ hy)) (fun y hy => hgood y (List.mem_cons_of_mem _ hy))
      (fun y hy => hlat y (List.mem_cons_of_mem _ hy)) (fun y hy => hpre y (List.mem_cons_of_mem _ hy))
    obtain ⟨l, lhs, hl, hden⟩ := hlat x List.mem_cons_self
    obtain ⟨⟨s0, hs0⟩, -⟩ := hev x List.mem_cons_self
    have hwf : WF x.a x.b := (init_ok_iff _ _ _ _).1 ⟨s0, hs0⟩
    obtain ⟨s, es, -⟩ := equation_spec (env := env) (val := val) hd hwf.ha hwf.hb (hgood x List.mem_cons_self) hl hden
    rw [List.cons_append, eqnsLoop, (build_iff (hev x List.mem_cons_self)).1.2 (hpre x List.mem_cons_self)]
    simp only [es]
    split
    · rename_i h; rw [h] at ih; exact ih
    · rename_i h; rw [h] at ih; cases ih

/-- **C64 (violated for depth 0).** If there is a result that is not truncated, `depth=0` raises IndexError (the first one in the
list reaching `latex_cont_frac([], [])`), although an LHS expression exists. -/
theorem C64_depth_zero_violated {latex : Str → PyM L Str} {post : List (Num → Except PyErr Num)} {funcs : List Str}
    {table : Dict Str LatexFn} {target : Str} {c : Click L} {rest : List (Click L)} (hc : ExportEvaluable post c) (ht : ¬ Truncated c)
    {l : L} {lhs : Str} (hlat : latex (exportName target) c.lhs = (l, .ok lhs)) :
    (getResultsAsEqns latex post funcs table target true 0 (c :: rest)).2 = .error .indexError := by
  rw [getResultsAsEqns, eqnsLoop, (build_iff hc).1.2 ht]
  simp only [equation, firstValues, hlat]
  rfl

/-- A concrete list: `a_i = 1 + i`, `b_i = 2`, post-processing `1/x`; and one whose `b_1` is 0. -/
def exClicks : List (Click Ulcd) :=
  [⟨[[1, 1]], [[2]], ⟨(0, 1, 0, 1), 22 / 7, 22 / 7⟩, 1, none⟩, ⟨[[1]], [[1, -1]], ⟨(0, 1, 0, 1), 22 / 7, 22 / 7⟩, 0, none⟩]

example : (∀ c ∈ exClicks, ExportEvaluable [fun v => .ok v, fun v => .ok v] c) ∧ (∀ c ∈ exClicks, c.post ∈ goodPostLatex) ∧
    (∀ c ∈ exClicks, UlcdOk (22 / 7) c.lhs) ∧ DotsIs exTexEnv 0 ∧ IsTexName exTexEnv "\\pi".toList (22 / 7) := by
  refine ⟨?_, by decide, ?_, ⟨rfl, rfl⟩, exTexName⟩
  · intro c hc
    simp only [exClicks, List.mem_cons, List.not_mem_nil, or_false] at hc
    rcases hc with rfl | rfl
    · exact ⟨(init_ok_iff _ _ _ _).2 ⟨⟨_, _, _, rfl⟩, by decide⟩, _, rfl, fun v => ⟨v, rfl⟩⟩
    · exact ⟨(init_ok_iff _ _ _ _).2 ⟨⟨_, _, _, rfl⟩, by decide⟩, _, rfl, fun v => ⟨v, rfl⟩⟩
  · intro c hc
    simp only [exClicks, List.mem_cons, List.not_mem_nil, or_false] at hc
    rcases hc with rfl | rfl <;> exact ⟨rfl, by norm_num, ⟨by decide, by decide⟩, by norm_num [ulcdExpr]⟩

end PiCF
