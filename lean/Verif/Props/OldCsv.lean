import Verif.Model.OldCsv
import Verif.Props.Process
import Verif.Props.ConfigSave
import Verif.Props.LatexEqns
import Verif.Props.Main

/-!
# C105: converting a results file to a PDF
-/

namespace PiCF.Process
open PiCF.Hashtable PiCF.EnumPoly PiCF.Mitm PiCF.Lhs PiCF.Main PiCF.PyStr PiCF.Spec PiCF.Json PiCF.Latex PiCF.Postproc

/-! ### Specification: files in the old format -/

/-- A result in the file: two interlaces of polynomials, the index of the function, and `u, l, c, d`. -/
structure OldResult where
  a : Polys
  b : Polys
  post : ℕ
  params : ℤ × ℤ × ℤ × ℤ

/-- A tuple of tuples of ints. -/
def tuples (ps : Polys) : Nest := .tuple (ps.map fun p => .tuple (p.map .int))

/-- The cells python writes for a result; more cells may follow. -/
def OldResult.cells (r : OldResult) (more : List Str) : List Str :=
  (tuples r.a).str :: (tuples r.b).str :: strInt r.post :: strInt r.params.1 :: strInt r.params.2.1 :: strInt r.params.2.2.1 ::
    strInt r.params.2.2.2 :: more

/-- The rest of the text of a list of strings, after the first. -/
def namesTail : List Str → Str
  | [] => "]".toList
  | n :: ns => ", '".toList ++ n ++ '\'' :: namesTail ns

/-- The text of a list of strings without quotes. -/
def namesText : List Str → Str
  | [] => "[]".toList
  | n :: ns => "['".toList ++ n ++ '\'' :: namesTail ns

/-- A file: the header with the functions and the constant, the titles, the results. -/
def oldFile (names : List Str) (const : Str) (titles : List Str) (rows : List (OldResult × List Str)) : List (List Str) :=
  ["postproc_funcs".toList, namesText names, "target_name".toList, const] :: titles :: rows.map fun r => r.1.cells r.2

/-- The entry of the list of results that a result of the file stands for. -/
def OldResult.click (x : ℚ) (r : OldResult) : Click Ulcd := ⟨r.a, r.b, ⟨r.params, x, ulcdExpr r.params x⟩, r.post, none⟩

/-- One of the first 400 `b_i` is zero. -/
def OldResult.Truncated (r : OldResult) : Prop := ∃ j < 400, seqAt r.b (j + 1) = 0

instance (r : OldResult) : Decidable r.Truncated := by unfold OldResult.Truncated; infer_instance

/-! ### Reading the header -/

theorem replace_nil (c : Char) (s : Str) : replaceAll [c] [] 0 s = s.filter (· ≠ c) := by
  induction s with
  | nil => rfl
  | cons x s ih =>
    rw [replaceAll]
    by_cases h : x = c
    · subst h
      simp [ih]
    · have : ([c].isPrefixOf (x :: s)) = false := by
        show (c == x && _) = false
        rw [beq_eq_false_iff_ne.2 (Ne.symm h)]
        rfl
      rw [this, List.filter_cons_of_pos (by simpa using h)]
      simp [ih]

theorem split_piece {n : Str} (h : ∀ c ∈ n, c ≠ ',') (cur r : Str) :
    splitGo ", ".toList 0 cur (n ++ r) = splitGo ", ".toList 0 (n.reverse ++ cur) r := by
  induction n generalizing cur with
  | nil => rfl
  | cons c n ih =>
    have : (", ".toList.isPrefixOf (c :: (n ++ r))) = false := by
      show (',' == c && _) = false
      simp [Ne.symm (h c List.mem_cons_self)]
    rw [List.cons_append, splitGo, this]
    simp only [Bool.false_eq_true, if_false]
    rw [ih fun d hd => h d (List.mem_cons_of_mem _ hd)]
    simp

/-- The names after the first, without quotes and bracket. -/
def plainTail : List Str → Str
  | [] => []
  | n :: ns => ", ".toList ++ n ++ plainTail ns

theorem split_tail : ∀ (ns : List Str) (cur : Str), (∀ n ∈ ns, ∀ c ∈ n, c ≠ ',') →
    splitGo ", ".toList 0 cur (plainTail ns) = cur.reverse :: ns
  | [], _, _ => by rw [plainTail, splitGo]
  | n :: ns, cur, h => by
    rw [plainTail, show ", ".toList ++ n ++ plainTail ns = ',' :: ' ' :: (n ++ plainTail ns) by simp, splitGo]
    have : (", ".toList.isPrefixOf (',' :: ' ' :: (n ++ plainTail ns))) = true := by
      show (',' == ',' && (' ' == ' ' && _)) = true
      simp
    rw [this, if_pos rfl, show ", ".toList.length - 1 = 0 + 1 from rfl, splitGo, split_piece (h n List.mem_cons_self),
      split_tail ns _ fun m hm => h m (List.mem_cons_of_mem _ hm)]
    simp

theorem namesTail_eq (ns : List Str) : ∃ t, namesTail ns = t ++ "]".toList ∧ (∀ c ∈ t.getLast?, c = '\'') ∧
    ((∀ n ∈ ns, ∀ c ∈ n, c ≠ '\'') → t.filter (· ≠ '\'') = plainTail ns) := by
  induction ns with
  | nil => exact ⟨[], rfl, by simp, fun _ => rfl⟩
  | cons n ns ih =>
    obtain ⟨t, e, hl, hf⟩ := ih
    refine ⟨", '".toList ++ n ++ '\'' :: t, by rw [namesTail, e]; simp, ?_, ?_⟩
    · intro c hc
      rw [List.getLast?_append_of_ne_nil _ (by simp)] at hc
      cases t with
      | nil => simpa using hc.symm
      | cons x t => exact hl c (by simpa [List.getLast?_cons_cons] using hc)
    · intro h
      rw [plainTail, List.filter_append, List.filter_append, List.filter_cons_of_neg (by simp),
        hf fun m hm => h m (List.mem_cons_of_mem _ hm), (List.filter_eq_self (l := n)).2 fun c hc => by simpa using h n List.mem_cons_self c hc]
      rfl

/-- The functions named in the header are read back. -/
theorem readNames_text {names : List Str} (hne : names ≠ []) (h : ∀ n ∈ names, ∀ c ∈ n, c ≠ ',' ∧ c ≠ '\'') :
    readNames (namesText names) = names := by
  obtain ⟨n, ns, rfl⟩ := List.exists_cons_of_ne_nil hne
  obtain ⟨t, e, hl, hf⟩ := namesTail_eq ns
  have e1 : stripChar '[' (namesText (n :: ns)) = '\'' :: n ++ '\'' :: t ++ "]".toList := by
    rw [namesText, e, stripChar, show "['".toList ++ n ++ '\'' :: (t ++ "]".toList) = '[' :: '\'' :: (n ++ '\'' :: t ++ "]".toList) by simp]
    rw [List.dropWhile_cons_of_pos (by simp), List.dropWhile_cons_of_neg (by simp)]
    simp
  have e2 : stripChar ']' ('\'' :: n ++ '\'' :: t ++ "]".toList) = '\'' :: n ++ '\'' :: t := by
    rw [stripChar, show '\'' :: n ++ '\'' :: t ++ "]".toList = '\'' :: (n ++ '\'' :: t ++ "]".toList) by simp,
      List.dropWhile_cons_of_neg (by simp)]
    have : ('\'' :: (n ++ '\'' :: t ++ "]".toList)).reverse = ']' :: ('\'' :: n ++ '\'' :: t).reverse := by simp
    rw [this, List.dropWhile_cons_of_pos (by simp)]
    have hlast : ('\'' :: n ++ '\'' :: t).getLast? = some '\'' := by
      rw [List.getLast?_append_of_ne_nil _ (by simp)]
      cases t with
      | nil => rfl
      | cons x t =>
        rw [List.getLast?_cons_cons]
        cases hq : (x :: t).getLast? with
        | none => simp at hq
        | some c => rw [hl c hq]
    rw [← List.head?_reverse] at hlast
    obtain ⟨r, hr⟩ : ∃ r, ('\'' :: n ++ '\'' :: t).reverse = '\'' :: r := by
      cases hq : ('\'' :: n ++ '\'' :: t).reverse with
      | nil => rw [hq] at hlast; cases hlast
      | cons c r => rw [hq] at hlast; injection hlast with hlast; exact ⟨r, by rw [hlast]⟩
    rw [hr, List.dropWhile_cons_of_neg (by simp), ← hr, List.reverse_reverse]
  rw [readNames, e1, e2, show "'".toList = ['\''] from rfl, replace_nil, split]
  rw [show '\'' :: n ++ '\'' :: t = '\'' :: (n ++ '\'' :: t) by simp, List.filter_cons_of_neg (by simp), List.filter_append,
    List.filter_cons_of_neg (by simp), hf fun m hm c hc => (h m (List.mem_cons_of_mem _ hm) c hc).2,
    List.filter_eq_self.2 fun c hc => by simpa using (h n List.mem_cons_self c hc).2,
    split_piece fun c hc => (h n List.mem_cons_self c hc).1, split_tail ns _ fun m hm c hc => (h m (List.mem_cons_of_mem _ hm) c hc).1]
  simp

theorem funcs_chars : ∀ n ∈ postprocFuncs, ∀ c ∈ n, c ≠ ',' ∧ c ≠ '\'' := by decide +kernel

theorem index_mem {l : List Str} {x : Str} (h : x ∈ l) : ∃ i, index l x = .ok i ∧ l[i]? = some x := by
  induction l with
  | nil => cases h
  | cons y l ih =>
    rw [index]
    by_cases hy : y = x
    · exact ⟨0, by rw [if_pos hy], by simp [hy]⟩
    · obtain ⟨i, e, hi⟩ := ih ((List.mem_cons.1 h).resolve_left fun h => hy h.symm)
      exact ⟨i + 1, by rw [if_neg hy, e], by simpa using hi⟩

theorem index_not_mem {l : List Str} {x : Str} (h : x ∉ l) : index l x = .error .valueError := by
  induction l with
  | nil => rfl
  | cons y l ih =>
    rw [index, if_neg fun e => h (by simp [e]), ih fun hm => h (List.mem_cons_of_mem _ hm)]

/-- The functions chosen for the names: each is the one at the place of its name in `POSTPROC_FUNCS`. -/
def Chosen (funcs : List (Num → Except PyErr Num)) (names : List Str) (fs : List (Num → Except PyErr Num)) : Prop :=
  List.Forall₂ (fun n f => ∃ i : ℕ, postprocFuncs[i]? = some n ∧ funcs[i]? = some f) names fs

theorem readFuncs_ok {funcs : List (Num → Except PyErr Num)} (hl : funcs.length = postprocFuncs.length) :
    ∀ {names : List Str}, (∀ n ∈ names, n ∈ postprocFuncs) → ∃ fs, readFuncs funcs names = .ok fs ∧ Chosen funcs names fs
  | [], _ => ⟨[], rfl, .nil⟩
  | n :: ns, h => by
    obtain ⟨i, e, hi⟩ := index_mem (h n List.mem_cons_self)
    obtain ⟨fs, e2, h2⟩ := readFuncs_ok hl (names := ns) fun m hm => h m (List.mem_cons_of_mem _ hm)
    have hlt : i < funcs.length := by
      rw [hl]
      exact (List.getElem?_eq_some_iff.1 hi).1
    have ef : funcs[i]? = some funcs[i] := List.getElem?_eq_getElem hlt
    refine ⟨funcs[i] :: fs, ?_, .cons ⟨i, hi, ef⟩ h2⟩
    rw [readFuncs, e, e2]
    simp only [ef, bind, Except.bind, pure, Except.pure]

theorem chosen_all {funcs fs : List (Num → Except PyErr Num)} (hl : funcs.length = postprocFuncs.length)
    (h : Chosen funcs postprocFuncs fs) : fs = funcs := by
  have hnd : postprocFuncs.Nodup := by decide +kernel
  have hlen := h.length_eq
  refine List.ext_getElem (by omega) fun k h1 h2 => ?_
  have hk : k < postprocFuncs.length := by omega
  obtain ⟨i, hi, hf⟩ := (List.forall₂_iff_get.1 h).2 k hk h1
  obtain ⟨hi', e⟩ := List.getElem?_eq_some_iff.1 hi
  have : i = k := (hnd.getElem_inj_iff).1 e
  subst this
  rw [List.getElem?_eq_getElem h2] at hf
  injection hf with hf
  exact hf.symm

/-! ### Reading the results -/

theorem mapM_ints (ns : List ℤ) : (listsOfAll (ns.map .int)).mapM intOf = .ok ns := by
  induction ns with
  | nil => rfl
  | cons n ns ih => rw [List.map_cons, listsOfAll, List.mapM_cons, ih, listsOf]; rfl

theorem polysOf_tuples (ps : Polys) : polysOf (listsOf (tuples ps)) = .ok ps := by
  rw [tuples, listsOf, polysOf]
  induction ps with
  | nil => rfl
  | cons p ps ih =>
    rw [List.map_cons, listsOfAll, List.mapM_cons, ih, listsOf, polyOf, mapM_ints]
    rfl

theorem readPoly_tuples {ps : Polys} (h : ps ≠ []) : readPoly (tuples ps).str = .ok (listsOf (tuples ps)) := by
  obtain ⟨p, ps, rfl⟩ := List.exists_cons_of_ne_nil h
  exact C81_poly.1 _ _ _ (.inl rfl) ⟨_, .inl rfl⟩

theorem oldRow_ok {x : ℚ} (hx : x ≠ 0) {r : OldResult} (ha : r.a ≠ []) (hb : r.b ≠ []) (hp : UlcdLegal r.params) (count : ℕ)
    (more : List Str) : oldRow (.ok x) count (r.cells more) = .ok (r.click x) := by
  have e4 : ((r.cells more).drop 3).take 4 = [strInt r.params.1, strInt r.params.2.1, strInt r.params.2.2.1, strInt r.params.2.2.2] := rfl
  have ei : Ulcd.init r.params x = .ok ⟨r.params, x, ulcdExpr r.params x⟩ := by rw [Ulcd.init, ulcdVal_eq hx hp]
  have hi : (0 : ℤ) ≤ (r.post : ℤ) := by omega
  rw [oldRow, e4]
  simp only [List.mapM_cons, List.mapM_nil, Config.intParser_strInt]
  simp only [OldResult.cells, cell, List.getElem?_cons_zero, List.getElem?_cons_succ, C81_nested, readPoly_tuples ha, readPoly_tuples hb,
    Config.intParser_strInt, polysOf_tuples, bind, Except.bind, pure, Except.pure, ei, if_pos hi]
  rfl

theorem rows_ok {x : ℚ} (hx : x ≠ 0) (count : ℕ) : ∀ {rows : List (OldResult × List Str)},
    (∀ r ∈ rows, r.1.a ≠ [] ∧ r.1.b ≠ [] ∧ UlcdLegal r.1.params) →
    (rows.map fun r => r.1.cells r.2).mapM (oldRow (.ok x) count) = .ok (rows.map fun r => r.1.click x)
  | [], _ => rfl
  | r :: rows, h => by
    obtain ⟨ha, hb, hp⟩ := h r List.mem_cons_self
    rw [List.map_cons, List.mapM_cons, oldRow_ok hx ha hb hp, rows_ok hx count fun q hq => h q (List.mem_cons_of_mem _ hq)]
    rfl

/-- The constants that can be read from a file, with their generators. -/
def oldPlain : List (Str × ConstFun) := [("e".toList, .e), ("pi".toList, .pi), ("euler_masch".toList, .eulerMasch)]

theorem oldGen_plain {c : Str × ConstFun} (hc : c ∈ oldPlain) : oldGen c.1 = .ok (some ⟨c.2, []⟩) ∧ c.1 ≠ [] := by
  simp only [oldPlain, List.mem_cons, List.not_mem_nil, or_false] at hc
  rcases hc with rfl | rfl | rfl <;> exact ⟨rfl, by decide⟩

/-- **C105 (partial): what is read.** For every file in the old format whose header lists functions of `POSTPROC_FUNCS` (at least one)
and names `e`, `pi` or `euler_masch`, or with one of these as argument: the results of the file, all and in the same order, are
the ones handed to `get_results_as_eqns`, with the value of this constant and the functions named in the header. -/
theorem C105_read_partial {funcs : List (Num → Except PyErr Num)} (hl : funcs.length = postprocFuncs.length)
    {call : Gen → Except PyErr ℚ} {names : List Str} (hne : names ≠ []) (hn : ∀ n ∈ names, n ∈ postprocFuncs)
    {c : Str × ConstFun} (hc : c ∈ oldPlain) {x : ℚ} (hcall : call ⟨c.2, []⟩ = .ok x) (hx : x ≠ 0) {header : Str} {arg : Option Str}
    (harg : arg = none ∧ header = c.1 ∨ arg = some c.1) (path : Str) (titles : List Str) {rows : List (OldResult × List Str)}
    (hrows : ∀ r ∈ rows, r.1.a ≠ [] ∧ r.1.b ≠ [] ∧ UlcdLegal r.1.params) :
    ∃ fs, Chosen funcs names fs ∧ oldCsvToPdf funcs call path arg (oldFile names header titles rows) =
      (getResultsAsEqns (fun name s => (s, ulcdLatex name s)) fs names postprocFuncsLatex c.1 true 5
        (rows.map fun r => r.1.click x)).2.map fun eqns => (pdfPath path, eqns) := by
  obtain ⟨fs, e, hfs⟩ := readFuncs_ok hl hn
  obtain ⟨eg, hc0⟩ := oldGen_plain hc
  have en : readNames (namesText names) = names := readNames_text hne fun n hm => funcs_chars n (hn n hm)
  have er := rows_ok hx names.length hrows
  have eh : headerConst ["postproc_funcs".toList, namesText names, "target_name".toList, c.1] = .ok (c.1, some ⟨c.2, []⟩) := by
    obtain ⟨y, ys, hy⟩ := List.exists_cons_of_ne_nil hc0
    rw [headerConst, if_pos (by simp)]
    simp only [List.getElem?_cons_zero, List.getElem?_cons_succ]
    rw [hy] at eg ⊢
    simp only [eg]
    rfl
  refine ⟨fs, hfs, ?_⟩
  rcases harg with ⟨rfl, rfl⟩ | rfl
  · simp only [oldCsvToPdf, oldFile, Option.filter_none, cell, List.getElem?_cons_zero, List.getElem?_cons_succ, bind, Except.bind,
      pure, Except.pure, en, e, eh, hcall, er]
    rfl
  · have ef : (some c.1).filter (fun s : Str => decide (s ≠ [])) = some c.1 := by simp [Option.filter, hc0]
    simp only [oldCsvToPdf, oldFile, ef, eg, cell, List.getElem?_cons_zero, List.getElem?_cons_succ, bind, Except.bind,
      pure, Except.pure, Except.map, en, e, hcall, er]

/-- **C105 (partial): what is shown.** For every file in the old format for `pi` that lists all functions of `POSTPROC_FUNCS`: if each result
can be evaluated and its function has a correct LaTeX form (C66), the PDF gets one equation for each result none of whose first
400 `b_i` is zero, in the order of the file; each equates the LHS with the function of the continued fraction.
Missing: files for the other constants, and those written by the present program (`C105_export_violated`, `C105_indexed_violated`). -/
theorem C105_equations_partial {env : TexEnv ℚ} {x t : ℚ} (hname : IsTexName env "\\pi".toList x) (ht : DotsIs env t)
    {funcs : List (Num → Except PyErr Num)} (hl : funcs.length = postprocFuncs.length) {call : Gen → Except PyErr ℚ}
    (hcall : call ⟨.pi, []⟩ = .ok x) (hx : x ≠ 0) (path : Str) (titles : List Str) {rows : List (OldResult × List Str)}
    (hrows : ∀ r ∈ rows, r.1.a ≠ [] ∧ r.1.b ≠ [] ∧ UlcdLegal r.1.params) (hev : ∀ r ∈ rows, ExportEvaluable funcs (r.1.click x))
    (hgood : ∀ r ∈ rows, r.1.post ∈ goodPostLatex) :
    ∃ eqns, oldCsvToPdf funcs call path none (oldFile postprocFuncs "pi".toList titles rows) = .ok (pdfPath path, eqns) ∧
      List.Forall₂ (fun (r : OldResult × List Str) s => ∀ v w,
          nestedWith (fun i => (seqAt r.1.a i : ℚ)) (fun i => (seqAt r.1.b i : ℚ)) t 0 4 = some v →
          postFn env r.1.post v = some w → EqnDenotes env s (ulcdExpr r.1.params x) w)
        (rows.filter fun r => ¬ r.1.Truncated) eqns := by
  obtain ⟨fs, hfs, e⟩ := C105_read_partial hl (names := postprocFuncs) (by decide) (fun _ h => h) (c := ("pi".toList, .pi))
    (by simp [oldPlain]) hcall hx (.inl ⟨rfl, rfl⟩) path titles hrows
  rw [chosen_all hl hfs] at e
  obtain ⟨eqns, e2, h⟩ := C64_ulcd_partial (env := env) (x := x) (t := t) (post := funcs) (depth := 5) (by decide) hname ht
    (clicks := rows.map fun r => r.1.click x)
    (by intro c hc; obtain ⟨r, hr, rfl⟩ := List.mem_map.1 hc; exact hev r hr)
    (by intro c hc; obtain ⟨r, hr, rfl⟩ := List.mem_map.1 hc; exact hgood r hr)
    (by intro c hc; obtain ⟨r, hr, rfl⟩ := List.mem_map.1 hc; exact ⟨rfl, hx, (hrows r hr).2.2, rfl⟩)
  refine ⟨eqns, ?_, ?_⟩
  · rw [e, e2]
    rfl
  · rw [List.filter_map, List.forall₂_map_left_iff] at h
    have hiff : ∀ r : OldResult × List Str, r.1.Truncated ↔ PiCF.Truncated (r.1.click x) := fun r => Iff.rfl
    have hf : (rows.filter fun r => decide ¬ r.1.Truncated) = rows.filter ((fun c => decide ¬ PiCF.Truncated c) ∘ fun r => r.1.click x) :=
      List.filter_congr fun r _ => by simp only [hiff r, Function.comp_apply]
    rw [hf]
    exact h

/-! ### Violations -/

/-- The names of the constants the program knows (main.py:54-69). -/
def targetNames : List Str :=
  ["e".toList, "pi".toList, "feig".toList, "euler_masch".toList, "percolation".toList, "zeta".toList, "phi".toList, "apery".toList]

/-- **C105 is false for the files the program writes**: the header of `export_to_csv` has the name of the constant where the functions
are expected.  For every constant and all results, ValueError is raised, without an argument and with the name of a constant as argument. -/
theorem C105_export_violated (funcs : List (Num → Except PyErr Num)) (call : Gen → Except PyErr ℚ) (path : Str) {name : Str}
    (hn : name ∈ targetNames) {arg : Option Str} (harg : arg = none ∨ ∃ c ∈ targetNames, arg = some c) (rows : List (List Str)) :
    oldCsvToPdf funcs call path arg (["target_name".toList, name] :: rows) = .error .valueError := by
  have e : readFuncs funcs (readNames name) = .error .valueError := by
    have h1 : ∀ n ∈ targetNames, readNames n = [n] ∧ n ∉ postprocFuncs := by decide +kernel
    rw [(h1 name hn).1, readFuncs, index_not_mem (h1 name hn).2]
    rfl
  have hg : ∀ c ∈ targetNames, c ≠ [] ∧ ∃ g, oldGen c = .ok g := by
    intro c hc
    simp only [targetNames, List.mem_cons, List.not_mem_nil, or_false] at hc
    rcases hc with rfl | rfl | rfl | rfl | rfl | rfl | rfl | rfl <;> exact ⟨by decide, _, rfl⟩
  rcases harg with rfl | ⟨c, hc, rfl⟩
  · simp only [oldCsvToPdf, Option.filter_none, cell, List.getElem?_cons_zero, List.getElem?_cons_succ, bind, Except.bind, e]
  · obtain ⟨h0, g, eg⟩ := hg c hc
    have ef : (some c).filter (fun s : Str => decide (s ≠ [])) = some c := by simp [Option.filter, h0]
    simp only [oldCsvToPdf, ef, eg, cell, List.getElem?_cons_zero, List.getElem?_cons_succ, bind, Except.bind, Except.map, e]

theorem split_comma {s : Str} (h : ∀ c ∈ s, c ≠ ',') (cur : Str) : splitGo [','] 0 cur s = [cur.reverse ++ s] := by
  induction s generalizing cur with
  | nil => simp [splitGo]
  | cons c s ih =>
    have : ([','].isPrefixOf (c :: s)) = false := by
      show (',' == c && _) = false
      simp [Ne.symm (h c List.mem_cons_self)]
    rw [splitGo, this]
    simp only [Bool.false_eq_true, if_false]
    rw [ih fun d hd => h d (List.mem_cons_of_mem _ hd)]
    simp

theorem oldRow_error (count : ℕ) {r : OldResult} (ha : r.a ≠ []) (hb : r.b ≠ []) (err : PyErr) (more : List Str) :
    oldRow (.error err) count (r.cells more) = .error err := by
  have e4 : ((r.cells more).drop 3).take 4 = [strInt r.params.1, strInt r.params.2.1, strInt r.params.2.2.1, strInt r.params.2.2.2] := rfl
  rw [oldRow, e4]
  simp only [List.mapM_cons, List.mapM_nil, Config.intParser_strInt]
  simp only [OldResult.cells, cell, List.getElem?_cons_zero, List.getElem?_cons_succ, C81_nested, readPoly_tuples ha, readPoly_tuples hb,
    bind, Except.bind, pure, Except.pure]

/-- The ways a file can name one of the constants with an index: by its name alone, or with the index after a comma. -/
def IndexedName (s : Str) : Prop :=
  s = "feig".toList ∨ s = "percolation".toList ∨ ∃ i : ℤ, s = "feig,".toList ++ strInt i ∨ s = "percolation,".toList ++ strInt i

theorem oldGen_indexed {s : Str} (h : IndexedName s) : s ≠ [] ∧ ∃ g : Gen, oldGen s = .ok (some g) ∧
    ∀ (K : Consts) (rnd : ℤ → ℚ → ℚ) (dps : ℤ), (g.call K rnd dps).2 = .error .typeError := by
  rcases h with rfl | rfl | ⟨i, rfl | rfl⟩
  · exact ⟨by decide, _, rfl, fun _ _ _ => rfl⟩
  · exact ⟨by decide, _, rfl, fun _ _ _ => rfl⟩
  · refine ⟨by simp, ⟨.feig, [some i]⟩, ?_, fun _ _ _ => rfl⟩
    have e : constIndex ("feig,".toList ++ strInt i) = .ok i := by
      rw [constIndex, show split ",".toList ("feig,".toList ++ strInt i) = "feig".toList :: splitGo [','] 0 [] (strInt i) from rfl,
        split_comma fun c hc => (strInt_chars i c hc).1]
      exact Config.intParser_strInt i
    have e : constIndex ('f' :: 'e' :: 'i' :: 'g' :: ',' :: strInt i) = .ok i := e
    simp [oldGen, e, Except.map]
  · refine ⟨by simp, ⟨.percolation, [some i]⟩, ?_, fun _ _ _ => rfl⟩
    have e : constIndex ("percolation,".toList ++ strInt i) = .ok i := by
      rw [constIndex, show split ",".toList ("percolation,".toList ++ strInt i) = "percolation".toList :: splitGo [','] 0 [] (strInt i) from rfl,
        split_comma fun c hc => (strInt_chars i c hc).1]
      exact Config.intParser_strInt i
    have e : constIndex ('p' :: 'e' :: 'r' :: 'c' :: 'o' :: 'l' :: 'a' :: 't' :: 'i' :: 'o' :: 'n' :: ',' :: strInt i) = .ok i := e
    simp [oldGen, e, Except.map]

/-- **C105 is false for the constants with an index**: every file in the old format for `feig` or `percolation` that has a result leads
to TypeError, as the index is taken for the precision (C86). -/
theorem C105_indexed_violated (funcs : List (Num → Except PyErr Num)) (hl : funcs.length = postprocFuncs.length) (K : Consts)
    (rnd : ℤ → ℚ → ℚ) (dps : ℤ) {names : List Str} (hne : names ≠ []) (hn : ∀ n ∈ names, n ∈ postprocFuncs) {const : Str}
    (hc : IndexedName const) (path : Str) (titles : List Str) {r : OldResult} (ha : r.a ≠ []) (hb : r.b ≠ []) (more : List Str)
    (rows : List (OldResult × List Str)) :
    oldCsvToPdf funcs (fun g => (g.call K rnd dps).2) path none (oldFile names const titles ((r, more) :: rows)) = .error .typeError := by
  obtain ⟨fs, e, -⟩ := readFuncs_ok hl hn
  obtain ⟨h0, g, eg, hg⟩ := oldGen_indexed hc
  have en : readNames (namesText names) = names := readNames_text hne fun n hm => funcs_chars n (hn n hm)
  have eh : headerConst ["postproc_funcs".toList, namesText names, "target_name".toList, const] = .ok (const, some g) := by
    obtain ⟨y, ys, hy⟩ := List.exists_cons_of_ne_nil h0
    rw [headerConst, if_pos (by simp)]
    simp only [List.getElem?_cons_zero, List.getElem?_cons_succ]
    rw [hy] at eg ⊢
    simp only [eg]
    rfl
  simp only [oldCsvToPdf, oldFile, Option.filter_none, cell, List.getElem?_cons_zero, List.getElem?_cons_succ, bind, Except.bind,
    en, e, eh, hg, List.map_cons]
  rw [List.mapM_cons, oldRow_error _ ha hb]
  rfl

/-- A file with two results, the second one truncated. -/
def exOldRows : List (OldResult × List Str) := [(⟨[[1, 1]], [[2]], 1, (0, 1, 0, 1)⟩, []), (⟨[[1]], [[1, -1]], 0, (0, 1, 0, 1)⟩, ["3.1".toList])]

/-- Functions for the example. -/
def exOldFuncs : List (Num → Except PyErr Num) := List.replicate postprocFuncs.length fun v => .ok v

example : exOldFuncs.length = postprocFuncs.length ∧ (∀ r ∈ exOldRows, r.1.a ≠ [] ∧ r.1.b ≠ [] ∧ UlcdLegal r.1.params) ∧
    (∀ r ∈ exOldRows, ExportEvaluable exOldFuncs (r.1.click (22 / 7))) ∧ (∀ r ∈ exOldRows, r.1.post ∈ goodPostLatex) ∧
    IsTexName exTexEnv "\\pi".toList (22 / 7) ∧ DotsIs exTexEnv 0 ∧ (22 / 7 : ℚ) ≠ 0 ∧
    (exOldRows.filter fun r => ¬ r.1.Truncated).length = 1 := by
  refine ⟨List.length_replicate, ?_, ?_, by decide, exTexName, ⟨rfl, rfl⟩, by norm_num, by decide +kernel⟩
  · intro r hr
    simp only [exOldRows, List.mem_cons, List.not_mem_nil, or_false] at hr
    rcases hr with rfl | rfl <;> exact ⟨by decide, by decide, by decide, by decide⟩
  · intro r hr
    simp only [exOldRows, List.mem_cons, List.not_mem_nil, or_false] at hr
    rcases hr with rfl | rfl <;>
      exact ⟨(ContFrac.init_ok_iff _ _ _ _).2 ⟨⟨_, _, _, rfl⟩, by decide⟩, fun v => .ok v, rfl, fun v => ⟨v, rfl⟩⟩

example : oldFile ["lambda x: x".toList, "safe_inverse".toList] "feig,1".toList [] exOldRows =
    [["postproc_funcs".toList, "['lambda x: x', 'safe_inverse']".toList, "target_name".toList, "feig,1".toList], [],
      ["((1, 1),)".toList, "((2,),)".toList, "1".toList, "0".toList, "1".toList, "0".toList, "1".toList],
      ["((1,),)".toList, "((1, -1),)".toList, "0".toList, "0".toList, "1".toList, "0".toList, "1".toList, "3.1".toList]] ∧
    IndexedName "feig,1".toList := ⟨by decide +kernel, .inr (.inr ⟨1, .inl (by decide +kernel)⟩)⟩

end PiCF.Process
