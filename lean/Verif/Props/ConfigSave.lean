import Verif.Props.ConfigFile

/-!
# Saved configurations (C72)
-/

namespace PiCF.Config
open PiCF.Hashtable PiCF.PyStr PiCF.Json PiCF.Spec

theorem not_none {c : Char} {s : Str} (h1 : ¬ Space c) (h2 : c.toLower ≠ 'n') : strip (lower (c :: s)) ≠ "none".toList := by
  intro h
  rw [strip_lower] at h
  obtain ⟨⟨a, b, e, ha, -⟩, -, -⟩ := strip_trimmed (c :: s)
  generalize strip (c :: s) = t at *
  cases t with
  | nil => cases h
  | cons x t =>
    rw [show lower (x :: t) = x.toLower :: lower t from rfl, show "none".toList = 'n' :: "one".toList from rfl] at h
    injection h with hx
    cases a with
    | nil =>
      injection e with e
      rw [e] at h2
      exact h2 hx
    | cons y a =>
      injection e with e
      exact h1 (e ▸ ha y List.mem_cons_self)

theorem digit_lower {c : Char} (h : isDigit c = true) : c.toLower ≠ 'n' := by
  have h0 := toLower_spec c
  simp only [isDigit, Bool.and_eq_true, decide_eq_true_eq] at h
  have h2 : c.toNat ≤ 57 := h.2
  rw [if_neg (by omega)] at h0
  rw [h0]
  rintro rfl
  exact absurd h2 (by decide)

theorem not_none_int (n : ℤ) : strip (lower (strInt n)) ≠ "none".toList := by
  obtain ⟨c, s, e, hc⟩ := exists_strInt_cons n
  rw [e]
  rcases hc with rfl | hc
  · exact not_none (by unfold Space; decide) (by decide)
  · exact not_none (digit_not_space hc) (digit_lower hc)

theorem intParser_strInt (n : ℤ) : intParser (strInt n) = .ok n := by
  unfold strInt
  split
  · have hlast : ∀ c ∈ ('-' :: strNat n.natAbs).getLast?, ¬ Space c := by
      intro c hc
      have := List.mem_of_getLast? hc
      rcases List.mem_cons.1 this with rfl | hm
      · unfold Space; decide
      · exact digit_not_space (strNat_digits _ c hm)
    have e := strip_eq_self (s := '-' :: strNat n.natAbs) (by intro c hc; simp at hc; subst hc; unfold Space; decide) hlast
    rw [intParser, e]
    simp only [natParser_strNat]
    show Except.ok (-(n.natAbs : ℤ)) = _
    rw [show -(n.natAbs : ℤ) = n by omega]
  · rw [intParser_digits (strNat_digits _) (natParser_strNat _), show (n.natAbs : ℤ) = n by omega]

theorem not_none_repr {v : Val} (h : IntLists v) : strip (lower v.repr) ≠ "none".toList := by
  cases h with
  | int n => exact not_none_int n
  | arr h =>
    rename_i l
    cases l with
    | nil => decide
    | cons v l =>
      rw [Val.repr]
      exact not_none (by unfold Space; decide) (by decide)

theorem value_str_int {v : Val} (h : IntLists v) : (Value.data v).str = v.repr := by
  cases h <;> rfl

theorem cast_null (k : Kind) : cast k (Value.data .null).str = .ok (.data .null) := by
  have e : (Value.data .null).str = "None".toList := by
    show Val.repr .null = _
    rw [Val.repr]
  rw [e, cast, if_pos (by decide)]

/-- **C72 (single options, partial).** For every option other than lhs_type and every text accepted for it: the text of the
value is accepted and gives the same value, if the value of a list option is None or consists of lists of integers.
Missing: lhs_type and list options with booleans or strings, see `C72_lhs_type_violated` and `C72_true_violated`; the strings of
postproc_funcs_filter are the subject of `C72_filter_partial`. -/
theorem C72_option_partial {k : Kind} {s : Str} {v : Value} (h : cast k s = .ok v) (hk : k ≠ .lhs)
    (hj : k = .json → v = .data .null ∨ ∃ j, v = .data j ∧ IntLists j) : cast k v.str = .ok v := by
  by_cases hn : v = .data .null
  · subst hn; exact cast_null k
  cases k with
  | string =>
    rw [cast_string] at h ⊢
    injection h with h
    rw [← h, (C70_idempotent s).1]
  | lhs => exact absurd rfl hk
  | json =>
    rcases hj rfl with hj' | ⟨j, rfl, hj'⟩
    · exact absurd hj' hn
    · rw [value_str_int hj', cast, if_neg (not_none_repr hj'), parse, loads_repr hj']
      rfl
  | poly =>
    rw [cast] at h
    split at h
    · injection h with h; exact absurd h.symm hn
    · rw [parse] at h
      cases hp : polyParser s with
      | error e => rw [hp] at h; cases h
      | ok c =>
        rw [hp] at h
        injection h with h
        subst h
        cases c <;> rfl
  | bool =>
    rw [cast] at h
    split at h
    · injection h with h; exact absurd h.symm hn
    · rw [parse] at h
      cases hp : boolParser s with
      | error e => rw [hp] at h; cases h
      | ok b =>
        rw [hp] at h
        injection h with h
        subst h
        cases b <;> rfl
  | int =>
    rw [cast] at h
    split at h
    · injection h with h; exact absurd h.symm hn
    · rw [parse] at h
      cases hp : intParser s with
      | error e => rw [hp] at h; cases h
      | ok n =>
        rw [hp] at h
        injection h with h
        subst h
        rw [show (Value.data (.int n)).str = strInt n by rw [value_str_int (.int n), Val.repr], cast, if_neg (not_none_int n), parse,
          intParser_strInt]
        rfl
  | path =>
    rw [cast] at h
    split at h
    · injection h with h; exact absurd h.symm hn
    · rw [parse, pathParser] at h
      have hi := (C70_idempotent s).1
      cases hp : stringParser s with
      | str t =>
        rw [hp] at h hi
        injection h with h
        subst h
        rw [show (Value.data (.str t)).str = t from rfl] at hi ⊢
        rw [cast, if_neg, parse, pathParser, hi]
        · rfl
        · intro hc
          rw [strip_lower] at hc
          rw [stringParser, if_pos hc] at hi
          cases hi
      | null => rw [hp] at h; cases h
      | bool b => rw [hp] at h; cases h
      | int n => rw [hp] at h; cases h
      | arr l => rw [hp] at h; cases h

/-- A value of a_coeffs_range. -/
def someRange : Val := .arr [.arr [.int (-4), .int 4], .arr [.int 1, .int 2]]

theorem someRange_ints : IntLists someRange := by
  refine .arr ?_; intro v hv; simp at hv; rcases hv with rfl | rfl <;>
  · refine .arr ?_; intro v hv; simp at hv; rcases hv with rfl | rfl <;> exact .int _

example : cast .json "[[-4, 4], [1, 2]]".toList = .ok (.data someRange) ∧ IntLists someRange := by
  have e : "[[-4, 4], [1, 2]]".toList = someRange.repr := by decide +kernel
  exact ⟨by rw [e, cast, if_neg (not_none_repr someRange_ints), parse, loads_repr someRange_ints]; rfl, someRange_ints⟩

/-! ### The filter of post-processing functions -/

theorem scanOnce_str {f r : Str} (hq : ∀ c ∈ f, c ≠ '"' ∧ c ≠ '\\' ∧ 32 ≤ c.toNat) (fuel : ℕ) :
    scanOnce (fuel + 1) ('"' :: f ++ ('"' :: r)) = .ok (.str f, r) := by
  have h := takeWhile_all (p := fun c => decide (c ≠ '"')) (x := f) (r := '"' :: r) (by intro c hc; simpa using (hq c hc).1)
    (by intro c hc; simp at hc; subst hc; decide)
  rw [List.cons_append, scanOnce, scanStr, h.2, h.1]
  simp only
  rw [if_neg]
  intro hc
  obtain ⟨c, hc1, hc2⟩ := List.any_eq_true.1 hc
  have := hq c hc1
  simp only [Bool.or_eq_true, decide_eq_true_eq] at hc2
  rcases hc2 with hc2 | hc2
  · exact this.2.1 hc2
  · omega

/-- The names in double quotes, as written by `set`. -/
def quoted (f : Str) : Str := '"' :: f ++ ['"']

theorem scanItems_quoted {r : Str} : ∀ (fs : List Str) (f : Str) (fuel : ℕ),
    (∀ g ∈ f :: fs, ∀ c ∈ g, c ≠ '"' ∧ c ≠ '\\' ∧ 32 ≤ c.toNat) → fs.length + 2 ≤ fuel →
    scanItems fuel (PyStr.join ", ".toList ((f :: fs).map quoted) ++ ']' :: r) = .ok ((f :: fs).map Val.str, r)
  | [], f, fuel, hq, hf => by
    obtain ⟨fuel, rfl⟩ : ∃ n, fuel = n + 2 := ⟨fuel - 2, by simp at hf; omega⟩
    have := scanOnce_str (f := f) (r := ']' :: r) (hq f List.mem_cons_self) fuel
    rw [List.map_cons, List.map_nil, PyStr.join, scanItems, quoted, List.append_assoc, List.singleton_append, this]
    rfl
  | g :: fs, f, fuel, hq, hf => by
    rw [List.length_cons] at hf
    obtain ⟨fuel, rfl⟩ : ∃ n, fuel = n + 2 := ⟨fuel - 2, by omega⟩
    have ih := scanItems_quoted (r := r) fs g (fuel + 1) (fun x hx => hq x (List.mem_cons_of_mem _ hx)) (by omega)
    have h1 : PyStr.join ", ".toList ((f :: g :: fs).map quoted) ++ ']' :: r =
        '"' :: f ++ ('"' :: (',' :: ' ' :: (PyStr.join ", ".toList ((g :: fs).map quoted) ++ ']' :: r))) := by
      rw [List.map_cons, List.map_cons, PyStr.join]
      · simp only [quoted, List.append_assoc, List.cons_append, List.nil_append]
        rfl
      · simp
    have := scanOnce_str (f := f) (r := ',' :: ' ' :: (PyStr.join ", ".toList ((g :: fs).map quoted) ++ ']' :: r))
      (hq f List.mem_cons_self) fuel
    rw [scanItems, h1, this]
    have hs : ∀ t : Str, skipWs (' ' :: '"' :: t) = '"' :: t := by intro t; rfl
    have hj : ∃ t, PyStr.join ", ".toList ((g :: fs).map quoted) ++ ']' :: r = '"' :: t := by
      cases fs with
      | nil => exact ⟨_, rfl⟩
      | cons x fs =>
        rw [List.map_cons, List.map_cons, PyStr.join]
        · exact ⟨_, rfl⟩
        · simp
    obtain ⟨t, ht⟩ := hj
    rw [ht] at ih ⊢
    show (match scanItems (fuel + 1) (skipWs (' ' :: '"' :: t)) with
      | .error e => Except.error e
      | .ok (l, r) => .ok (Val.str f :: l, r)) = _
    rw [hs, ih]
    rfl

theorem scanOnce_arr {s t r' : Str} {c : Char} {l : List Val} {fuel : ℕ} (h1 : skipWs s = c :: t) (h2 : c ≠ ']')
    (h : scanItems fuel (c :: t) = .ok (l, r')) : scanOnce (fuel + 1) ('[' :: s) = .ok (.arr l, r') := by
  rw [scanOnce, h1]
  split
  · rename_i e
    injection e with e
    exact absurd e h2
  · rw [h]

theorem loads_quoted (fs : List Str) (hq : ∀ g ∈ fs, ∀ c ∈ g, c ≠ '"' ∧ c ≠ '\\' ∧ 32 ≤ c.toNat) :
    loads ('[' :: PyStr.join ", ".toList (fs.map quoted) ++ [']']) = .ok (.arr (fs.map Val.str)) := by
  cases fs with
  | nil => rfl
  | cons f fs =>
    have hlen : ∀ l : List Str, l.length ≤ (PyStr.join ", ".toList (l.map quoted)).length := by
      intro l
      induction l with
      | nil => simp
      | cons x l ih =>
        cases l with
        | nil => simp [PyStr.join, quoted]
        | cons y l =>
          rw [List.map_cons, List.map_cons, PyStr.join]
          · rw [List.map_cons] at ih
            have : 2 ≤ (quoted x).length := by simp [quoted]
            simp only [List.length_append, List.length_cons] at ih ⊢
            omega
          · simp
    have hl := hlen (f :: fs)
    have := scanItems_quoted (r := []) fs f (2 * ('[' :: PyStr.join ", ".toList ((f :: fs).map quoted) ++ [']']).length + 1) hq (by
      simp only [List.length_cons, List.length_append] at hl ⊢
      omega)
    have hj : ∃ t, PyStr.join ", ".toList ((f :: fs).map quoted) ++ [']'] = '"' :: t := by
      cases fs with
      | nil => exact ⟨_, rfl⟩
      | cons x fs =>
        rw [List.map_cons, List.map_cons, PyStr.join]
        · exact ⟨_, rfl⟩
        · simp
    obtain ⟨t, ht⟩ := hj
    rw [List.cons_append] at this ⊢
    rw [ht] at this ⊢
    have h2 := scanOnce_arr (s := '"' :: t) rfl (by decide) this
    rw [loads, show skipWs ('[' :: '"' :: t) = '[' :: '"' :: t from rfl]
    show (match scanOnce (2 * ('[' :: '"' :: t).length + 1 + 1) ('[' :: '"' :: t) with
      | .error e => (Except.error e : Except PyErr Val)
      | .ok (v, r) => if skipWs r = [] then Except.ok v else .error .jsonDecodeError) = _
    rw [h2]
    rfl

theorem postproc_chars : ∀ g ∈ Postproc.postprocFuncs, ∀ c ∈ g, c ≠ '"' ∧ c ≠ '\\' ∧ 32 ≤ c.toNat := by
  decide +kernel

theorem index_ok {l : List Str} {f : Str} {i : ℕ} (h : Postproc.index l f = .ok i) : i < l.length ∧ l.getD i [] = f := by
  induction l generalizing i with
  | nil => cases h
  | cons y l ih =>
    rw [Postproc.index] at h
    split at h
    · rename_i e
      injection h with h
      subst h
      exact ⟨by simp, by simpa using e⟩
    · split at h
      · cases h
      · rename_i n hn
        injection h with h
        subst h
        have := ih hn
        exact ⟨by simpa using this.1, by simpa using this.2⟩

/-- The functions of an accepted filter are found again by their positions. -/
theorem funcIndices_ok : ∀ {l is : List Val}, funcIndices l = .ok is → ∃ fs : List Str, l = fs.map Val.str ∧
    (∀ v ∈ is, IntLists v) ∧ quotedFuncs is = .ok (fs.map quoted) ∧ ∀ f ∈ fs, f ∈ Postproc.postprocFuncs
  | [], is, h => by
    injection h with h
    subst h
    exact ⟨[], rfl, by simp, rfl, by simp⟩
  | .str f :: l, is, h => by
    rw [funcIndices] at h
    split at h
    · cases h
    · rename_i i hi
      cases hl : funcIndices l with
      | error e => rw [hl] at h; cases h
      | ok is' =>
        rw [hl] at h
        injection h with h
        subst h
        obtain ⟨fs, e1, h2, h3, h4⟩ := funcIndices_ok hl
        obtain ⟨hi1, hi2⟩ := index_ok hi
        refine ⟨f :: fs, by rw [e1]; rfl, ?_, ?_, ?_⟩
        · intro v hv
          rcases List.mem_cons.1 hv with rfl | hv
          · exact .int _
          · exact h2 v hv
        · rw [quotedFuncs]
          rw [if_pos ⟨by omega, by omega⟩, h3, if_neg (by omega), Int.toNat_natCast, hi2]
          rfl
        · intro g hg
          rcases List.mem_cons.1 hg with rfl | hg
          · rw [← hi2, List.getD_eq_getElem?_getD, List.getElem?_eq_getElem hi1, Option.getD_some]
            exact List.getElem_mem hi1
          · exact h4 g hg
  | .null :: _, _, h => by cases h
  | .bool _ :: _, _, h => by cases h
  | .int _ :: _, _, h => by cases h
  | .arr _ :: _, _, h => by cases h

/-- The option of the post-processing functions. -/
abbrev filterKey : Str := "postproc_funcs_filter".toList

/-- **C72 (post-processing functions).** For every accepted postproc_funcs_filter: the text written for it is accepted and gives
the same functions. -/
theorem C72_filter {v w : Val} (h : genFilter v = .ok w) : ∃ t v', setText filterKey (Value.data w).str = .ok t ∧
    cast .json t = .ok (.data v') ∧ genFilter v' = .ok w := by
  have key : ∀ l is, funcIndices l = .ok is → ∃ t v', setText filterKey (Value.data (.arr is)).str = .ok t ∧
      cast .json t = .ok (.data v') ∧ genFilter v' = .ok (.arr is) := by
    intro l is hl
    obtain ⟨fs, e1, h2, h3, h4⟩ := funcIndices_ok hl
    have hI : IntLists (.arr is) := .arr h2
    have hne : (Val.arr is).repr ≠ [] := by
      obtain ⟨c, s, e, -⟩ := repr_head hI
      rw [e]; simp
    have hq := loads_quoted fs fun g hg => postproc_chars g (h4 g hg)
    refine ⟨'[' :: PyStr.join ", ".toList (fs.map quoted) ++ [']'], .arr (fs.map Val.str), ?_, ?_, ?_⟩
    · rw [value_str_int hI, setText, if_pos ⟨rfl, hne⟩, loads_repr hI]
      simp only [h3]
      rfl
    · rw [cast, if_neg (by rw [List.cons_append]; exact not_none (by unfold Space; decide) (by decide)), parse, hq]
      rfl
    · rw [← e1, genFilter, hl]
      rfl
  cases v with
  | arr l =>
    rw [genFilter] at h
    cases hl : funcIndices l with
    | error e => rw [hl] at h; cases h
    | ok is =>
      rw [hl] at h
      injection h with h
      subst h
      exact key l is hl
  | str s =>
    cases s with
    | nil =>
      injection h with h
      subst h
      exact key [] [] rfl
    | cons c s => cases h
  | null => cases h
  | bool b => cases h
  | int n => cases h

example : genFilter (.arr [.str "safe_inverse".toList, .str "lambda x: x**2".toList]) = .ok (.arr [.int 1, .int 2]) := by
  have h1 : (Postproc.index Postproc.postprocFuncs "safe_inverse".toList).toOption = some 1 := by decide +kernel
  have h2 : (Postproc.index Postproc.postprocFuncs "lambda x: x**2".toList).toOption = some 2 := by decide +kernel
  have key : ∀ (x : Except PyErr ℕ) n, x.toOption = some n → x = .ok n := by
    intro x n h; cases x <;> simp_all [Except.toOption]
  rw [genFilter, funcIndices, key _ _ h1]
  simp only
  rw [funcIndices, key _ _ h2]
  rfl

/-! ### The whole file -/

theorem readItems_ok : ∀ {items : List (Str × Str)} (d : Dict),
    (∀ x ∈ items, ∀ kind, kindOf x.1 = some kind → ∃ v, cast kind x.2 = .ok v) → ∃ d', readItems d items = .ok d'
  | [], d, _ => ⟨d, rfl⟩
  | (key, text) :: items, d, h => by
    have h' := fun x hx => h x (List.mem_cons_of_mem _ hx)
    rw [readItems]
    cases hk : kindOf key with
    | none => exact readItems_ok _ h'
    | some kind =>
      obtain ⟨v, hv⟩ := h _ List.mem_cons_self kind hk
      simp only [hv]
      exact readItems_ok _ h'

theorem saveItems_ok {d : Dict} : ∀ {ps : List (Str × Kind)}, (∀ p ∈ ps, ∃ v t, d p.1 = some v ∧ setText p.1 v.str = .ok t) →
    ∃ saved, saveItems d ps = .ok saved
  | [], _ => ⟨[], rfl⟩
  | (key, kind) :: ps, h => by
    obtain ⟨v, t, hv, ht⟩ := h _ List.mem_cons_self
    obtain ⟨saved, hs⟩ := saveItems_ok (ps := ps) fun p hp => h p (List.mem_cons_of_mem _ hp)
    exact ⟨(key, t) :: saved, by rw [saveItems]; simp only [hv, ht, hs]; rfl⟩

theorem saveItems_spec {d : Dict} : ∀ {ps : List (Str × Kind)} {saved : List (Str × Str)}, saveItems d ps = .ok saved →
    (∀ x ∈ saved, ∃ v, d x.1 = some v ∧ setText x.1 v.str = .ok x.2) ∧ ∀ p ∈ ps, ∃ x ∈ saved, x.1 = p.1
  | [], saved, h => by
    injection h with h
    subst h
    exact ⟨by simp, by simp⟩
  | (key, kind) :: ps, saved, h => by
    rw [saveItems] at h
    split at h
    · cases h
    · rename_i v hv
      split at h
      · cases h
      · rename_i t ht
        cases hs : saveItems d ps with
        | error e => rw [hs] at h; cases h
        | ok saved' =>
          rw [hs] at h
          injection h with h
          subst h
          obtain ⟨h1, h2⟩ := saveItems_spec hs
          constructor
          · intro x hx
            rcases List.mem_cons.1 hx with rfl | hx
            · exact ⟨v, hv, ht⟩
            · exact h1 x hx
          · intro p hp
            rcases List.mem_cons.1 hp with rfl | hp
            · exact ⟨_, List.mem_cons_self, rfl⟩
            · obtain ⟨x, hx, e⟩ := h2 p hp
              exact ⟨x, List.mem_cons_of_mem _ hx, e⟩

theorem written_mem {k t : Str} : ∀ {l : List (Str × Str)}, written l k = some t → (k, t) ∈ l
  | [], h => by cases h
  | (key, t') :: l, h => by
    rw [written] at h
    split at h
    · rename_i t'' ht
      injection h with h
      subst h
      exact List.mem_cons_of_mem _ (written_mem ht)
    · split at h
      · rename_i e
        injection h with h
        subst h e
        exact List.mem_cons_self
      · cases h

theorem kindOf_mem {k : Str} {kind : Kind} (h : kindOf k = some kind) : (k, kind) ∈ params := by
  have : ∀ l : List (Str × Kind), l.lookup k = some kind → (k, kind) ∈ l := by
    intro l
    induction l with
    | nil => intro h; cases h
    | cons p l ih =>
      intro h
      obtain ⟨a, b⟩ := p
      rw [List.lookup_cons] at h
      split at h
      · rename_i e
        injection h with h
        have := eq_of_beq e
        subst this h
        exact List.mem_cons_self
      · exact List.mem_cons_of_mem _ (ih h)
  exact this params h

theorem mem_kindOf {p : Str × Kind} (h : p ∈ params) : kindOf p.1 = some p.2 := by
  have : ∀ p ∈ params, kindOf p.1 = some p.2 := by decide +kernel
  exact this p h

/-- A saved text comes back as the value, for every option. -/
theorem saved_written {d : Dict} {saved : List (Str × Str)} (h : save d = .ok saved) {k : Str} {kind : Kind}
    (hk : kindOf k = some kind) : ∃ v t, d k = some v ∧ setText k v.str = .ok t ∧ written saved k = some t := by
  obtain ⟨h1, h2⟩ := saveItems_spec h
  obtain ⟨x, hx, e⟩ := h2 _ (kindOf_mem hk)
  cases hw : written saved k with
  | none => exact absurd e (written_none hw x hx)
  | some t =>
    obtain ⟨v, hv, ht⟩ := h1 _ (written_mem hw)
    exact ⟨v, t, hv, ht, rfl⟩

theorem setText_other {k : Str} (hk : k ≠ filterKey) (x : Str) : setText k x = .ok x := by
  rw [setText, if_neg fun h => hk h.1]

/-- Options not changed after the loop have a value accepted by their parser, or None. -/
theorem load_value {listdir : Str → Except PyErr (List Str)} {items : List (Str × Str)} {d : Dict}
    (h : load listdir items = .ok d) {k : Str} {kind : Kind} (hk : kindOf k = some kind) (h1 : k ≠ "hashtable_file".toList)
    (h2 : k ≠ filterKey) (h3 : k ≠ "gen_hashtable_only".toList) :
    ∃ v, d k = some v ∧ (v = .data .null ∨ ∃ t, cast kind t = .ok v) := by
  cases hw : written items k with
  | none => exact ⟨_, C73_missing_partial h (by rw [hk]; rfl) (written_none hw), .inl rfl⟩
  | some t =>
    obtain ⟨d0, f, is, h0, -, -, hfin⟩ := load_ok h
    obtain ⟨v, hv, e⟩ := readItems_written hk h0 hw
    refine ⟨v, ?_, .inr ⟨t, hv⟩⟩
    rw [finish_other hfin h3, Dict.set, if_neg h2, Dict.set, if_neg h1, fillMissing, e]

theorem load_filter {listdir : Str → Except PyErr (List Str)} {items : List (Str × Str)} {d : Dict}
    (h : load listdir items = .ok d) : ∃ v w, genFilter v = .ok w ∧ d filterKey = some (.data w) := by
  obtain ⟨d0, f, is, h0, -, his, hfin⟩ := load_ok h
  exact ⟨_, is, his, by rw [finish_other hfin (by decide), Dict.set, if_pos rfl]⟩

theorem load_gen {listdir : Str → Except PyErr (List Str)} {items : List (Str × Str)} {d : Dict}
    (h : load listdir items = .ok d) : ∃ v, d "gen_hashtable_only".toList = some (.data v) ∧ v ≠ .str "auto".toList ∧
      stringParser (Value.data v).str = v := by
  have hnull : stringParser (Value.data .null).str = .null := by
    show stringParser (Val.repr .null) = _
    rw [Val.repr]
    rfl
  have hbool : ∀ b, stringParser (Value.data (.bool b)).str = .bool b := by
    intro b
    show stringParser (Val.repr (.bool b)) = _
    cases b <;> (rw [Val.repr]; rfl)
  cases hw : written items "gen_hashtable_only".toList with
  | none => exact ⟨_, C73_missing_partial h (by decide +kernel) (written_none hw), by simp, hnull⟩
  | some t =>
    obtain ⟨op, hop, -, hg⟩ := C74_auto h
    by_cases ha : stringParser t = .str "auto".toList
    · obtain ⟨g1, g2⟩ := (hg t hw).1 ha
      simp only [List.mem_cons, List.not_mem_nil, or_false] at hop
      rcases hop with rfl | rfl | rfl
      · exact ⟨_, g1 (.inl rfl), by simp, hbool _⟩
      · exact ⟨_, g1 (.inr rfl), by simp, hbool _⟩
      · exact ⟨_, g2 rfl, by simp, hbool _⟩
    · exact ⟨_, (hg t hw).2 ha, ha, (C70_idempotent t).1⟩

/-- The list options other than the functions. -/
def listOptions : List Str :=
  ["ab_polys_special_params".toList, "a_coeffs_range".toList, "b_coeffs_range".toList, "lhs_params".toList]

/-- Options whose values come back from their texts come back from the saved file; the hashtable file is chosen anew. -/
theorem reload_core {d : Dict}
    (round : ∀ k kind, kindOf k = some kind → k ≠ filterKey → ∃ v, d k = some v ∧ cast kind v.str = .ok v)
    {fw fv' g : Val} {ft q op : Str} (hfd : d filterKey = some (.data fw)) (hft : setText filterKey (Value.data fw).str = .ok ft)
    (hfc : cast .json ft = .ok (.data fv')) (hfg : genFilter fv' = .ok fw)
    (hg : d "gen_hashtable_only".toList = some (.data g)) (hga : g ≠ .str "auto".toList)
    (hq : d "hashtable_file".toList = some (.data (.str q)))
    (hop : d "hashtable_file_operation".toList = some (.data (.str op)))
    (hmem : op ∈ ["generate".toList, "expand".toList, "use".toList]) :
    ∃ saved, save d = .ok saved ∧ ∀ listdir f, genFilename listdir (.str op) (.str q) = .ok (.str f) →
      ∃ d', load listdir saved = .ok d' ∧ ∀ k, (kindOf k).isSome →
        d' k = if k = "hashtable_file".toList then some (.data (.str f)) else d k := by
  obtain ⟨saved, hs⟩ : ∃ saved, save d = .ok saved := by
    refine saveItems_ok fun p hp => ?_
    by_cases h2 : p.1 = filterKey
    · rw [h2]; exact ⟨_, ft, hfd, hft⟩
    · obtain ⟨v, hv, -⟩ := round p.1 p.2 (mem_kindOf hp) h2
      exact ⟨v, v.str, hv, setText_other h2 _⟩
  refine ⟨saved, hs, fun listdir f hgen => ?_⟩
  -- the texts of the saved file
  have texts : ∀ k kind, kindOf k = some kind → k ≠ filterKey → ∃ v, d k = some v ∧ written saved k = some v.str ∧ cast kind v.str = .ok v := by
    intro k kind hk h2
    obtain ⟨v, t, hv, ht, hw⟩ := saved_written hs hk
    obtain ⟨v', hv', hc⟩ := round k kind hk h2
    rw [hv] at hv'
    injection hv' with hv'
    subst hv'
    rw [setText_other h2] at ht
    injection ht with ht
    subst ht
    exact ⟨v, hv, hw, hc⟩
  have textF : written saved filterKey = some ft := by
    obtain ⟨v, t, hv, ht, hw⟩ := saved_written hs (k := filterKey) (kind := .json) (by decide)
    rw [hfd] at hv
    injection hv with hv
    subst hv
    rw [hft] at ht
    injection ht with ht
    rw [hw, ht]
  obtain ⟨d0, hd0⟩ : ∃ d0, readItems (fun _ => none) saved = .ok d0 := by
    refine readItems_ok _ fun x hx kind hk => ?_
    obtain ⟨v, hv, ht⟩ := (saveItems_spec hs).1 x hx
    by_cases h2 : x.1 = filterKey
    · rw [h2] at hk hv ht
      have : kind = .json := by
        have := hk.symm.trans (show kindOf filterKey = some .json by decide)
        injection this
      subst this
      rw [hfd] at hv
      injection hv with hv
      subst hv
      rw [hft] at ht
      injection ht with ht
      subst ht
      exact ⟨_, hfc⟩
    · obtain ⟨v', hv', hc⟩ := round x.1 kind hk h2
      rw [hv] at hv'
      injection hv' with hv'
      subst hv'
      rw [setText_other h2] at ht
      injection ht with ht
      rw [← ht]
      exact ⟨v, hc⟩
  have val : ∀ k kind, kindOf k = some kind → k ≠ filterKey → fillMissing d0 k = d k := by
    intro k kind hk h2
    obtain ⟨v, hv, hw, hc⟩ := texts k kind hk h2
    obtain ⟨v', hv', e⟩ := readItems_written hk hd0 hw
    rw [hc] at hv'
    injection hv' with hv'
    rw [fillMissing, e, hv, hv']
  have valF : fillMissing d0 filterKey = some (.data fv') := by
    obtain ⟨v', hv', e⟩ := readItems_written (k := filterKey) (kind := .json) (by decide) hd0 textF
    rw [hfc] at hv'
    injection hv' with hv'
    rw [fillMissing, e, hv']
  have vop := val _ .string (show kindOf "hashtable_file_operation".toList = some .string by decide) (by decide)
  have vfile := val _ .path (show kindOf "hashtable_file".toList = some .path by decide) (by decide)
  have vgen := val _ .string (show kindOf "gen_hashtable_only".toList = some .string by decide) (by decide)
  rw [hop] at vop
  rw [hq] at vfile
  rw [hg] at vgen
  let d' : Dict := ((fillMissing d0).set "hashtable_file".toList (.data (.str f))).set "postproc_funcs_filter".toList (.data fw)
  have e1 : ∀ k, k ≠ filterKey → k ≠ "hashtable_file".toList → d' k = fillMissing d0 k := by
    intro k n2 n1
    show (if k = _ then _ else (if k = _ then _ else _)) = _
    rw [if_neg n2, if_neg n1]
  have hfin : finish d' = .ok d' := by
    unfold finish
    rw [e1 _ (by decide) (by decide), vop, e1 _ (by decide) (by decide), vgen]
    simp only [dataOf]
    rw [if_pos (by simpa using hmem)]
    cases g with
    | str s => simp only; rw [if_neg (by rintro rfl; exact hga rfl)]
    | null => rfl
    | bool b => rfl
    | int n => rfl
    | arr l => rfl
  refine ⟨d', ?_, ?_⟩
  · unfold load
    rw [hd0]
    simp only
    rw [vop, vfile]
    simp only [dataOf, hgen]
    have e2 : ((fillMissing d0).set "hashtable_file".toList (.data (.str f))) "postproc_funcs_filter".toList = some (.data fv') := by
      rw [Dict.set, if_neg (by decide)]
      exact valF
    rw [e2]
    simp only [hfg]
    exact hfin
  · intro k hk
    obtain ⟨kind, hk⟩ := Option.isSome_iff_exists.1 hk
    by_cases h2 : k = filterKey
    · subst h2
      rw [hfd, if_neg (by decide)]
      show (if _ then _ else _) = _
      rw [if_pos rfl]
    · by_cases h1 : k = "hashtable_file".toList
      · subst h1
        rw [if_pos rfl]
        show (if _ then _ else (if _ then _ else _)) = _
        rw [if_neg (by decide), if_pos rfl]
      · rw [e1 k h2 h1, val k kind hk h2, if_neg h1]

/-- The options of an accepted configuration without lhs_type whose list options hold lists of integers come back from their
texts, apart from the functions and the hashtable file. -/
theorem load_round {listdir : Str → Except PyErr (List Str)} {items : List (Str × Str)} {d : Dict}
    (h : load listdir items = .ok d) (hl : d "lhs_type".toList = some (.data .null))
    (hj : ∀ k ∈ listOptions, ∀ v, d k = some v → v = .data .null ∨ ∃ j, v = .data j ∧ IntLists j) {k : Str} {kind : Kind}
    (hk : kindOf k = some kind) (h2 : k ≠ filterKey) (h1 : k ≠ "hashtable_file".toList) :
    ∃ v, d k = some v ∧ cast kind v.str = .ok v := by
  obtain ⟨g, hg, hga, hgs⟩ := load_gen h
  by_cases h3 : k = "gen_hashtable_only".toList
  · subst h3
    have : kind = .string := by
      have := hk.symm.trans (show kindOf "gen_hashtable_only".toList = some .string by decide)
      injection this
    subst this
    exact ⟨_, hg, by rw [cast_string, hgs]⟩
  obtain ⟨v, hv, hv'⟩ := load_value h hk h1 h2 h3
  refine ⟨v, hv, ?_⟩
  rcases hv' with rfl | ⟨t, ht⟩
  · exact cast_null kind
  · by_cases hkl : kind = .lhs
    · have : k = "lhs_type".toList := by
        have key : ∀ p ∈ params, p.2 = .lhs → p.1 = "lhs_type".toList := by decide +kernel
        exact key _ (kindOf_mem hk) hkl
      subst this
      rw [hl] at hv
      injection hv with hv
      subst hv
      exact cast_null kind
    · refine C72_option_partial ht hkl fun hkj => hj k ?_ v hv
      have key : ∀ p ∈ params, p.2 = .json → p.1 ≠ filterKey → p.1 ∈ listOptions := by decide +kernel
      exact key _ (kindOf_mem hk) hkj h2

/-- **C72 (whole file, partial).** For every accepted configuration without lhs_type whose list options hold lists of integers,
whose hashtable path is a lower case path, and for which the program still chooses the same hashtable file: the parameters are
saved, the saved file is accepted, and it gives the same value to every option.
Missing: configurations with lhs_type, other list options, and the change of the file, see `C72_lhs_type_violated`,
`C72_true_violated`, `C72_generate_violated` and `C71_case_violated`. -/
theorem C72_reload_partial {listdir : Str → Except PyErr (List Str)} {items : List (Str × Str)} {d : Dict}
    (h : load listdir items = .ok d) (hl : d "lhs_type".toList = some (.data .null))
    (hj : ∀ k ∈ listOptions, ∀ v, d k = some v → v = .data .null ∨ ∃ j, v = .data j ∧ IntLists j)
    {q op : Str} (hq : d "hashtable_file".toList = some (.data (.str q))) (hq' : cast .path q = .ok (.data (.str q)))
    (hop : d "hashtable_file_operation".toList = some (.data (.str op)))
    (hgen : genFilename listdir (.str op) (.str q) = .ok (.str q)) :
    ∃ saved d', save d = .ok saved ∧ load listdir saved = .ok d' ∧ ∀ k, (kindOf k).isSome → d' k = d k := by
  obtain ⟨fv, fw, hfv, hfd⟩ := load_filter h
  obtain ⟨ft, fv', hft, hfc, hfg⟩ := C72_filter hfv
  obtain ⟨g, hg, hga, hgs⟩ := load_gen h
  -- every option but the functions comes back
  have round : ∀ k kind, kindOf k = some kind → k ≠ filterKey → ∃ v, d k = some v ∧ cast kind v.str = .ok v := by
    intro k kind hk h2
    by_cases h1 : k = "hashtable_file".toList
    · subst h1
      have : kind = .path := by
        have := hk.symm.trans (show kindOf "hashtable_file".toList = some .path by decide)
        injection this
      subst this
      exact ⟨_, hq, hq'⟩
    exact load_round h hl hj hk h2 h1
  obtain ⟨op', hmem, hop', -⟩ := C74_auto h
  have : op' = op := by
    rw [hop] at hop'
    injection hop' with hop'; injection hop' with hop'; injection hop' with hop'
    exact hop'.symm
  subst this
  obtain ⟨saved, hs, hload⟩ := reload_core round hfd hft hfc hfg hg hga hq hop hmem
  obtain ⟨d', hd', e⟩ := hload listdir q hgen
  refine ⟨saved, d', hs, hd', fun k hk => ?_⟩
  rw [e k hk]
  split
  · rename_i h1
    rw [h1, hq]
  · rfl

/-- Load a configuration, save it, and load the saved one; the text of an option before and after. -/
def reloaded (listdir listdir' : Str → Except PyErr (List Str)) (items : List (Str × Str)) (k : Str) : Option (Str × Str) :=
  match load listdir items with
  | .error _ => none
  | .ok d =>
    match save d with
    | .error _ => none
    | .ok saved =>
      match load listdir' saved with
      | .error _ => none
      | .ok d' =>
        match d k, d' k with
        | some v, some v' => some (v.str, v'.str)
        | _, _ => none

theorem of_reloaded {listdir listdir' : Str → Except PyErr (List Str)} {items : List (Str × Str)} {k x y : Str}
    (h : reloaded listdir listdir' items k = some (x, y)) : ∃ d saved d' v v', load listdir items = .ok d ∧ save d = .ok saved ∧
      load listdir' saved = .ok d' ∧ d k = some v ∧ d' k = some v' ∧ v.str = x ∧ v'.str = y := by
  unfold reloaded at h
  split at h
  · cases h
  · rename_i d hd
    split at h
    · cases h
    · rename_i saved hs
      split at h
      · cases h
      · rename_i d' hd'
        split at h
        · rename_i v v' hv hv'
          injection h with h
          injection h with h1 h2
          exact ⟨d, saved, d', v, v', hd, hs, hd', hv, hv', h1, h2⟩
        · cases h

/-- A configuration that uses an existing hashtable. -/
def useItems : List (Str × Str) :=
  [("hashtable_file_operation".toList, "use".toList), ("hashtable_file".toList, "h.pkl".toList),
   ("postproc_funcs_filter".toList, "[\"safe_inverse\"]".toList), ("gen_hashtable_only".toList, "auto".toList),
   ("a_coeffs_range".toList, "[[0, 5], [-3, 4]]".toList), ("const".toList, "Pi".toList), ("is_test".toList, "False".toList)]

example : reloaded (fun _ => .ok ["h_v1.pkl".toList, "h_v2.pkl".toList]) (fun _ => .ok ["h_v1.pkl".toList, "h_v2.pkl".toList]) useItems
    "hashtable_file".toList = some ("./h_v2.pkl".toList, "./h_v2.pkl".toList) := by decide +kernel

/-- The versions in the directory. -/
def twoVersions : Str → Except PyErr (List Str) := fun _ => .ok ["h_v1.pkl".toList, "h_v2.pkl".toList]

/-- The text of a value read from a path. -/
def pathResult : Except PyErr Value → Option Str
  | .ok (.data (.str s)) => some s
  | _ => none

theorem of_pathResult {x : Except PyErr Value} {s : Str} (h : pathResult x = some s) : x = .ok (.data (.str s)) := by
  unfold pathResult at h
  split at h
  · injection h with h; rw [h]
  · cases h

/-- The text of an option of a loaded configuration. -/
def textOf (x : Except PyErr Dict) (k : Str) : Option Str :=
  match x with
  | .error _ => none
  | .ok d => match d k with
    | some (.data (.str s)) => some s
    | _ => none

theorem of_textOf {x : Except PyErr Dict} {k s : Str} (h : textOf x k = some s) : ∃ d, x = .ok d ∧ d k = some (.data (.str s)) := by
  cases x with
  | error e => cases h
  | ok d =>
    refine ⟨d, rfl, ?_⟩
    simp only [textOf] at h
    split at h
    · rename_i t ht
      injection h with h
      rw [ht, h]
    · cases h

/-- The hypotheses of `C72_reload_partial` hold for `useItems`. -/
example : ∃ d, load twoVersions useItems = .ok d ∧ d "lhs_type".toList = some (.data .null) ∧
    (∀ k ∈ listOptions, ∀ v, d k = some v → v = .data .null ∨ ∃ j, v = .data j ∧ IntLists j) ∧
    d "hashtable_file".toList = some (.data (.str "./h_v2.pkl".toList)) ∧
    cast .path "./h_v2.pkl".toList = .ok (.data (.str "./h_v2.pkl".toList)) ∧
    d "hashtable_file_operation".toList = some (.data (.str "use".toList)) ∧
    genFilename twoVersions (.str "use".toList) (.str "./h_v2.pkl".toList) = .ok (.str "./h_v2.pkl".toList) := by
  obtain ⟨d, hd, hfile⟩ := of_textOf (x := load twoVersions useItems) (k := "hashtable_file".toList) (s := "./h_v2.pkl".toList)
    (by decide +kernel)
  refine ⟨d, hd, C73_missing_partial hd (by decide +kernel) (by decide +kernel), ?_, ?_, ?_, ?_, of_strResult (by decide +kernel)⟩
  · intro k hk v hv
    simp only [listOptions, List.mem_cons, List.not_mem_nil, or_false] at hk
    rcases hk with rfl | rfl | rfl | rfl
    · rw [C73_missing_partial hd (by decide +kernel) (by decide +kernel)] at hv
      injection hv with hv
      exact .inl hv.symm
    · obtain ⟨d0, f, is, h0, -, -, hfin⟩ := load_ok hd
      obtain ⟨w, hw, e⟩ := readItems_written (k := "a_coeffs_range".toList) (kind := .json) (t := "[[0, 5], [-3, 4]]".toList)
        (by decide) h0 (by decide +kernel)
      rw [finish_other hfin (by decide), Dict.set, if_neg (by decide), Dict.set, if_neg (by decide), fillMissing, e] at hv
      injection hv with hv
      subst hv
      have hI : IntLists (.arr [.arr [.int 0, .int 5], .arr [.int (-3), .int 4]]) := by
        refine .arr fun v hv => ?_
        simp only [List.mem_cons, List.not_mem_nil, or_false] at hv
        rcases hv with rfl | rfl <;> refine .arr fun v hv => ?_ <;> simp only [List.mem_cons, List.not_mem_nil, or_false] at hv <;>
          rcases hv with rfl | rfl <;> exact .int _
      have e' : "[[0, 5], [-3, 4]]".toList = (Val.arr [.arr [.int 0, .int 5], .arr [.int (-3), .int 4]]).repr := by decide +kernel
      have hc : cast .json "[[0, 5], [-3, 4]]".toList = .ok (.data (Val.arr [.arr [.int 0, .int 5], .arr [.int (-3), .int 4]])) := by
        rw [e', cast, if_neg (not_none_repr hI), parse, loads_repr hI]
        rfl

      exact .inr ⟨_, Except.ok.inj (hw.symm.trans hc), hI⟩
    · rw [C73_missing_partial hd (by decide +kernel) (by decide +kernel)] at hv
      injection hv with hv
      exact .inl hv.symm
    · rw [C73_missing_partial hd (by decide +kernel) (by decide +kernel)] at hv
      injection hv with hv
      exact .inl hv.symm
  · exact hfile
  · exact of_pathResult (by decide +kernel)
  · have := load_string hd (k := "hashtable_file_operation".toList) (t := "use".toList) (by decide) (by decide +kernel) (by decide)
    rw [this, show stringParser "use".toList = .str "use".toList by rfl]

/-- **C72 (violated, lhs_type).** For every accepted configuration in which lhs_type is given: the saved file is rejected, whatever
the directory holds.  The dictionary of classes is written for lhs_type. -/
theorem C72_lhs_type_violated {listdir : Str → Except PyErr (List Str)} {d : Dict} {saved : List (Str × Str)}
    {l : LhsType} (hl : d "lhs_type".toList = some (.lhs l)) (hs : save d = .ok saved) : ∃ e, load listdir saved = .error e := by
  cases h' : load listdir saved with
  | error e => exact ⟨e, rfl⟩
  | ok d' =>
    exfalso
    obtain ⟨d0, f, is, h0, -⟩ := load_ok h'
    have hk : kindOf "lhs_type".toList = some .lhs := by decide
    obtain ⟨v, t, hv, ht, hw⟩ := saved_written hs hk
    rw [hl] at hv
    injection hv with hv
    subst hv
    rw [setText_other (by decide)] at ht
    injection ht with ht
    subst ht
    obtain ⟨v, hv, -⟩ := readItems_written hk h0 hw
    have : (cast .lhs (Value.lhs l).str).toOption.isNone = true := by cases l <;> decide +kernel
    rw [hv] at this
    cases this

/-- A configuration with lhs_type. -/
def lhsItems : List (Str × Str) := ("lhs_type".toList, "ULCD".toList) :: smallItems

example : ∃ d saved, load emptyDir lhsItems = .ok d ∧ d "lhs_type".toList = some (.lhs .ulcd) ∧ save d = .ok saved := by
  have h1 : (match load emptyDir lhsItems with
    | .error _ => false
    | .ok d => (match d "lhs_type".toList with | some (.lhs .ulcd) => true | _ => false) && (save d).toOption.isSome) = true := by
    decide +kernel
  split at h1
  · cases h1
  · rename_i d hd
    obtain ⟨h1, h2⟩ := Bool.and_eq_true_iff.1 h1
    cases hs : save d with
    | error e => rw [hs] at h2; cases h2
    | ok saved =>
      refine ⟨d, saved, hd, ?_, hs⟩
      split at h1
      · assumption
      · cases h1

/-- A configuration that allows the denominator of the left side to be 1. -/
def trueItems : List (Str × Str) := ("lhs_params".toList, "[3, true]".toList) :: smallItems

/-- **C72 (violated, booleans in lists).** A list with true is accepted, but the saved text has the python word True, and the
saved file is rejected. -/
theorem C72_true_violated : ∃ d saved, load emptyDir trueItems = .ok d ∧ save d = .ok saved ∧
    written saved "lhs_params".toList = some "[3, True]".toList ∧ ∀ listdir, ∃ e, load listdir saved = .error e := by
  have h1 : (match load emptyDir trueItems with
    | .error _ => none
    | .ok d =>
      match save d with
      | .error _ => none
      | .ok saved => written saved "lhs_params".toList) = some "[3, True]".toList := by
    decide +kernel
  split at h1
  · cases h1
  · rename_i d hd
    split at h1
    · cases h1
    · rename_i saved hs
      refine ⟨d, saved, hd, hs, h1, fun listdir => ?_⟩
      cases h' : load listdir saved with
      | error e => exact ⟨e, rfl⟩
      | ok d' =>
        exfalso
        obtain ⟨d0, f, is, h0, -⟩ := load_ok h'
        obtain ⟨v, hv, -⟩ := readItems_written (k := "lhs_params".toList) (kind := .json) (by decide) h0 h1
        have : (cast .json "[3, True]".toList).toOption.isNone = true := by decide +kernel
        rw [hv] at this
        cases this

/-- A configuration that generates a hashtable. -/
def generateItems : List (Str × Str) :=
  [("hashtable_file_operation".toList, "generate".toList), ("hashtable_file".toList, "h.pkl".toList),
   ("postproc_funcs_filter".toList, "[]".toList)]

/-- **C72 (violated, generate).** The run generates version 1 of the hashtable and writes this name to the saved file; with the
generated file in the directory, the saved configuration is read as version 2. -/
theorem C72_generate_violated : ∃ d saved d' v v', load emptyDir generateItems = .ok d ∧ save d = .ok saved ∧
    load (fun _ => .ok ["h_v1.pkl".toList]) saved = .ok d' ∧ d "hashtable_file".toList = some v ∧ d' "hashtable_file".toList = some v' ∧
      v.str = "./h_v1.pkl".toList ∧ v'.str = "./h_v2.pkl".toList :=
  of_reloaded (by decide +kernel)

end PiCF.Config
