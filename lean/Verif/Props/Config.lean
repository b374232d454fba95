import Mathlib.Data.List.Forall2
import Mathlib.Tactic.IntervalCases
import Verif.Model.Config
import Verif.Spec.Config

/-!
# Options of the configuration file (C70, C71, C73, C74)
-/

namespace PiCF.Config
open PiCF.Hashtable PiCF.PyStr PiCF.Json PiCF.Spec

/-! ### Texts -/

theorem isSpace_iff (c : Char) : isSpace c = true ↔ Space c := by
  simp only [isSpace, Space, spaceCodes, Bool.or_eq_true, Bool.and_eq_true, decide_eq_true_eq, List.mem_cons, List.not_mem_nil,
    or_false]
  omega

theorem strip_trimmed (s : Str) : Trimmed s (strip s) := by
  unfold strip
  refine ⟨⟨s.takeWhile isSpace, ((s.dropWhile isSpace).reverse.takeWhile isSpace).reverse, ?_, ?_, ?_⟩, ?_, ?_⟩
  · rw [List.append_assoc, ← List.reverse_append, List.takeWhile_append_dropWhile, List.reverse_reverse,
      List.takeWhile_append_dropWhile]
  · intro c hc
    exact (isSpace_iff c).1 (List.all_eq_true.1 (List.all_takeWhile (p := isSpace)) c hc)
  · intro c hc
    exact (isSpace_iff c).1 (List.all_eq_true.1 (List.all_takeWhile (p := isSpace)) c (List.mem_reverse.1 hc))
  · intro c hc hsp
    -- the first character of what is left is the first one of `s.dropWhile isSpace`
    have h1 : ((s.dropWhile isSpace).reverse.dropWhile isSpace).reverse <+: s.dropWhile isSpace := by
      rw [← List.reverse_suffix, List.reverse_reverse]
      exact List.dropWhile_suffix _
    obtain ⟨r, hr⟩ := h1
    have h2 : (s.dropWhile isSpace).head? = some c := by
      rw [← hr, List.head?_append, hc]
      rfl
    have h3 := List.head?_dropWhile_not isSpace s
    rw [h2] at h3
    exact absurd ((isSpace_iff c).2 hsp) (by simpa using h3)
  · intro c hc hsp
    rw [List.getLast?_reverse] at hc
    have h3 := List.head?_dropWhile_not isSpace (s.dropWhile isSpace).reverse
    rw [hc] at h3
    exact absurd ((isSpace_iff c).2 hsp) (by simpa using h3)

theorem strip_eq_self {s : Str} (h1 : ∀ c ∈ s.head?, ¬ Space c) (h2 : ∀ c ∈ s.getLast?, ¬ Space c) : strip s = s := by
  have key : ∀ t : Str, (∀ c ∈ t.head?, ¬ Space c) → t.dropWhile isSpace = t := by
    intro t ht
    cases t with
    | nil => rfl
    | cons c t =>
      have : isSpace c = false := by
        have := ht c rfl
        rw [← isSpace_iff] at this
        simpa using this
      rw [List.dropWhile_cons, this]
      rfl
  rw [strip, key s h1, key _ (by rw [List.head?_reverse]; exact h2), List.reverse_reverse]

theorem toLower_spec (a : Char) : if 65 ≤ a.toNat ∧ a.toNat ≤ 90 then a.toLower.toNat = a.toNat + 32 else a.toLower = a := by
  split
  · rename_i h
    have e : a = Char.ofNat a.toNat := by simp
    generalize a.toNat = n at h e ⊢
    subst e
    obtain ⟨h1, h2⟩ := h
    interval_cases n <;> decide
  · rename_i h
    rw [Char.toLower, dif_neg]
    simp only [ge_iff_le, UInt32.le_iff_toNat_le]
    exact h

theorem lower_lowered (s : Str) : Lowered s (lower s) := by
  unfold Lowered lower
  rw [List.forall₂_map_right_iff]
  exact List.forall₂_same.2 fun a _ => toLower_spec a

theorem lowered_unique {s t : Str} (h : Lowered s t) : t = lower s := by
  unfold Lowered at h
  induction h with
  | nil => rfl
  | @cons a b s t hab _ ih =>
    rw [ih]
    show b :: _ = a.toLower :: _
    congr 1
    have := toLower_spec a
    split at this
    · rename_i hc
      rw [if_pos hc] at hab
      exact Char.toNat_inj.1 (hab.trans this.symm)
    · rename_i hc
      rw [if_neg hc] at hab
      rw [hab, this]

theorem dropWhile_space {a t : Str} (ha : ∀ c ∈ a, Space c) : (a ++ t).dropWhile isSpace = t.dropWhile isSpace := by
  induction a with
  | nil => rfl
  | cons c a ih =>
    have hc := (isSpace_iff c).2 (ha c List.mem_cons_self)
    rw [List.cons_append, List.dropWhile_cons, if_pos hc, ih fun x hx => ha x (List.mem_cons_of_mem _ hx)]

theorem strip_of_trimmed {s t : Str} (h : Trimmed s t) : t = strip s := by
  obtain ⟨⟨a, b, e, ha, hb⟩, h1, h2⟩ := h
  cases t with
  | nil =>
    have : s.dropWhile isSpace = [] := by
      rw [e, List.append_assoc, dropWhile_space ha, List.nil_append, ← List.append_nil b, dropWhile_space hb]
      rfl
    rw [strip, this]
    rfl
  | cons c t =>
    have hc : isSpace c = false := by
      have := h1 c rfl
      rw [← isSpace_iff] at this
      simpa using this
    have e1 : s.dropWhile isSpace = (c :: t) ++ b := by
      rw [e, List.append_assoc, dropWhile_space ha, List.cons_append, List.dropWhile_cons, hc]
      rfl
    have e2 := strip_eq_self h1 h2
    have e3 : (c :: t).dropWhile isSpace = c :: t := by rw [List.dropWhile_cons, hc]; rfl
    rw [strip, e3] at e2
    rw [strip, e1, List.reverse_append, dropWhile_space (by simpa using hb), e2]

theorem lower_lower (s : Str) : lower (lower s) = lower s := by
  unfold lower
  rw [List.map_map]
  refine List.map_congr_left fun a _ => ?_
  have h1 := toLower_spec a
  have h2 := toLower_spec a.toLower
  show a.toLower.toLower = a.toLower
  split at h1
  · rw [if_neg (by omega)] at h2
    exact h2
  · rw [h1, h1]

theorem isSpace_toLower (a : Char) : isSpace a.toLower = isSpace a := by
  have h1 := toLower_spec a
  split at h1
  · have n1 : ¬ isSpace a.toLower = true := by
      rw [isSpace_iff]; simp only [Space, spaceCodes, List.mem_cons, List.not_mem_nil, or_false]; omega
    have n2 : ¬ isSpace a = true := by
      rw [isSpace_iff]; simp only [Space, spaceCodes, List.mem_cons, List.not_mem_nil, or_false]; omega
    simp only [Bool.not_eq_true] at n1 n2
    rw [n1, n2]
  · rw [h1]

theorem strip_lower (s : Str) : strip (lower s) = lower (strip s) := by
  have h : isSpace ∘ Char.toLower = isSpace := funext isSpace_toLower
  simp only [strip, lower, List.dropWhile_map, ← List.map_reverse, h]

theorem strip_strip (s : Str) : strip (strip s) = strip s :=
  strip_eq_self (strip_trimmed s).first (strip_trimmed s).last

/-! ### C70 -/

/-- **C70 (strings).** For every text: a string option is the text without the white space around it and with small letters;
none, true and false (in any case) are None, True and False. -/
theorem C70_string {s t u : Str} (ht : Trimmed s t) (hu : Lowered t u) : stringParser s =
    if u = "none".toList then .null else if u = "true".toList then .bool true else if u = "false".toList then .bool false
    else .str u := by
  rw [strip_of_trimmed ht] at hu
  rw [lowered_unique hu, stringParser]
  split
  · rfl
  · split
    · rename_i e
      rw [e]
      rfl
    · rfl

/-- Every text has the trimmed and lowered forms of `C70_string`. -/
theorem C70_forms (s : Str) : ∃ t u, Trimmed s t ∧ Lowered t u := ⟨_, _, strip_trimmed s, lower_lowered _⟩

example : ∃ t u, Trimmed " Pi\t".toList t ∧ Lowered t u ∧ u = "pi".toList ∧ stringParser " Pi\t".toList = .str u :=
  ⟨_, _, strip_trimmed _, lower_lowered _, by decide +kernel, rfl⟩

/-- **C70 (booleans).** For every text: a boolean option is accepted exactly if it is true or false up to the case of its
letters, with that value; everything else raises ValueError. -/
theorem C70_bool (s : Str) : (∀ b, boolParser s = .ok b ↔ Lowered s (if b then "true".toList else "false".toList)) ∧
    ∀ e, boolParser s = .error e → e = .valueError := by
  have key : ∀ t : Str, lower s = t ↔ Lowered s t :=
    fun t => ⟨fun h => h ▸ lower_lowered s, fun h => (lowered_unique h).symm⟩
  constructor
  · intro b
    rw [← key, boolParser]
    by_cases h1 : lower s = "false".toList
    · rw [if_pos h1, h1]
      cases b
      · simp
      · simp
    · rw [if_neg h1]
      by_cases h2 : lower s = "true".toList
      · rw [if_pos h2, h2]
        cases b
        · simp
        · simp
      · rw [if_neg h2]
        cases b
        · simpa using h1
        · simpa using h2
  · intro e h
    unfold boolParser at h
    split at h
    · cases h
    · split at h
      · cases h
      · injection h with h
        exact h.symm

example : boolParser "TrUe".toList = .ok true ∧ boolParser "yes".toList = .error .valueError ∧
    boolParser "true ".toList = .error .valueError := ⟨rfl, rfl, rfl⟩

/-- **C70 (idempotence).** For every text: parsing the text of the parsed value gives the same value. -/
theorem C70_idempotent (s : Str) : stringParser (Value.str (.data (stringParser s))) = stringParser s ∧
    ∀ b, boolParser s = .ok b → boolParser (Value.str (.data (.bool b))) = .ok b := by
  constructor
  · by_cases h1 : lower (strip s) = "none".toList
    · rw [show stringParser s = .null by rw [stringParser, if_pos h1]]; rfl
    by_cases h2 : lower (strip s) = "false".toList
    · rw [show stringParser s = .bool false by rw [stringParser, if_neg h1, if_pos h2]]; rfl
    by_cases h3 : lower (strip s) = "true".toList
    · rw [show stringParser s = .bool true by rw [stringParser, if_neg h1, if_neg h2, if_pos h3]]; rfl
    have h : stringParser s = .str (lower (strip s)) := by rw [stringParser, if_neg h1, if_neg h2, if_neg h3]
    have e : lower (strip (lower (strip s))) = lower (strip s) := by rw [strip_lower, strip_strip, lower_lower]
    rw [h]
    show stringParser (lower (strip s)) = _
    rw [stringParser]
    simp only [e, if_neg h1, if_neg h2, if_neg h3]
  · intro b _
    cases b <;> rfl

/-! ### C71 -/

/-- **C71 (partial).** For every path without capital letters and without white space around it, other than the words none,
true and false: the option is the path as written. Missing: paths with capital letters and the three words, see
`C71_case_violated`. -/
theorem C71_path_partial {p : Str} (h1 : ∀ c ∈ p, ¬ (65 ≤ c.toNat ∧ c.toNat ≤ 90)) (h2 : ∀ c ∈ p.head?, ¬ Space c)
    (h3 : ∀ c ∈ p.getLast?, ¬ Space c) (h4 : p ∉ ["none".toList, "true".toList, "false".toList]) :
    cast .path p = .ok (.data (.str p)) := by
  have e1 : lower p = p := by
    refine (lowered_unique (List.forall₂_same.2 fun a ha => ?_)).symm
    rw [if_neg (h1 a ha)]
  have e2 := strip_eq_self h2 h3
  simp only [List.mem_cons, List.not_mem_nil, or_false, not_or] at h4
  rw [cast, e1, e2, if_neg h4.1, parse, pathParser, stringParser]
  simp only [e1, e2, if_neg h4.1, if_neg h4.2.1, if_neg h4.2.2]
  rfl

example : cast .path "tables/h_v3.pkl".toList = .ok (.data (.str "tables/h_v3.pkl".toList)) :=
  C71_path_partial (by decide) (by intro c hc; simp at hc; subst hc; unfold Space; decide)
    (by intro c hc; simp at hc; subst hc; unfold Space; decide) (by decide)

/-- **C71 (violated).** For every path with a capital letter, the option never is that path: a different path is used, or an
exception is raised.  For example `Tables/H.pkl` is read as `tables/h.pkl`; a file named `true` cannot be named. -/
theorem C71_case_violated : (∀ p : Str, (∃ c ∈ p, 65 ≤ c.toNat ∧ c.toNat ≤ 90) → cast .path p ≠ .ok (.data (.str p))) ∧
    cast .path "Tables/H.pkl".toList = .ok (.data (.str "tables/h.pkl".toList)) ∧
    cast .path "true".toList = .error .attributeError := by
  refine ⟨?_, rfl, rfl⟩
  rintro p ⟨c, hc, hup⟩ h
  have key : p = lower (strip p) := by
    unfold cast at h
    split at h
    · injection h with h; injection h with h; cases h
    · simp only [parse, pathParser, stringParser] at h
      split at h
      · rename_i v e
        split at e
        · cases e
        · split at e
          · cases e
          · split at e
            · cases e
            · injection e with e
              injection h with h; injection h with h; injection h with h
              exact h.symm.trans e.symm
      · cases h
  rw [key] at hc
  obtain ⟨a, -, rfl⟩ := List.mem_map.1 hc
  have h1 := toLower_spec a
  split at h1
  · omega
  · rename_i hn
    rw [h1] at hup
    exact hn hup

/-! ### C73, C74 -/

theorem readItems_missing {k : Str} : ∀ {items : List (Str × Str)} {d d' : Dict}, (∀ x ∈ items, x.1 ≠ k) →
    readItems d items = .ok d' → d' k = d k
  | [], d, d', _, h => by rw [readItems] at h; injection h with h; rw [h]
  | (key, text) :: items, d, d', hk, h => by
    rw [readItems] at h
    have hk' := fun x hx => hk x (List.mem_cons_of_mem _ hx)
    have hne : k ≠ key := fun e => hk _ List.mem_cons_self e.symm
    split at h
    · rw [readItems_missing hk' h]
      simp [Dict.set, hne]
    · split at h
      · cases h
      · rw [readItems_missing hk' h]
        simp [Dict.set, hne]

theorem finish_other {d d' : Dict} (h : finish d = .ok d') {k : Str} (hk : k ≠ "gen_hashtable_only".toList) : d' k = d k := by
  unfold finish at h
  split at h
  · split at h
    · split at h
      · split at h
        · injection h with h; rw [← h, Dict.set, if_neg hk]
        · injection h with h; rw [h]
      · injection h with h; rw [h]
    · cases h
  · cases h

/-- The steps of a successful load. -/
theorem load_ok {listdir : Str → Except PyErr (List Str)} {items : List (Str × Str)} {d : Dict} (h : load listdir items = .ok d) :
    ∃ d0 f is, readItems (fun _ => none) items = .ok d0 ∧
      genFilename listdir (dataOf (fillMissing d0 "hashtable_file_operation".toList)) (dataOf (fillMissing d0 "hashtable_file".toList)) = .ok f ∧
      genFilter (dataOf (fillMissing d0 "postproc_funcs_filter".toList)) = .ok is ∧
      finish (((fillMissing d0).set "hashtable_file".toList (.data f)).set "postproc_funcs_filter".toList (.data is)) = .ok d := by
  unfold load at h
  split at h
  · cases h
  · rename_i d0 h0
    simp only at h
    split at h
    · cases h
    · rename_i f hf
      have e : ((fillMissing d0).set "hashtable_file".toList (.data f)) "postproc_funcs_filter".toList =
          fillMissing d0 "postproc_funcs_filter".toList := by
        rw [Dict.set, if_neg (by decide)]
      rw [e] at h
      split at h
      · cases h
      · rename_i is his
        exact ⟨d0, f, is, h0, hf, his, h⟩

/-- **C73 (partial).** For every configuration file that is accepted: a supported option that is not in the file is None.
Missing: the documented defaults of the optional ones, see `C73_defaults_violated`. -/
theorem C73_missing_partial {listdir : Str → Except PyErr (List Str)} {items : List (Str × Str)} {d : Dict}
    (h : load listdir items = .ok d) {k : Str} (hk : (kindOf k).isSome) (hm : ∀ x ∈ items, x.1 ≠ k) : d k = some (.data .null) := by
  obtain ⟨d0, f, is, h0, hf, his, hfin⟩ := load_ok h
  have e0 : fillMissing d0 k = some (.data .null) := by
    rw [fillMissing, readItems_missing hm h0]
    simp only [hk, if_true]
  have n1 : k ≠ "hashtable_file".toList := by
    rintro rfl
    rw [e0] at hf
    cases hf
  have n2 : k ≠ "postproc_funcs_filter".toList := by
    rintro rfl
    rw [e0] at his
    cases his
  have e1 : (((fillMissing d0).set "hashtable_file".toList (.data f)).set "postproc_funcs_filter".toList (.data is)) k = some (.data .null) := by
    rw [Dict.set, if_neg n2, Dict.set, if_neg n1, e0]
  by_cases hg : k = "gen_hashtable_only".toList
  · subst hg
    unfold finish at hfin
    rw [e1] at hfin
    split at hfin
    · split at hfin
      · simp only [dataOf] at hfin
        injection hfin with hfin
        rw [← hfin, e1]
      · cases hfin
    · cases hfin
  · rw [finish_other hfin hg, e1]

/-- A small accepted configuration. -/
def smallItems : List (Str × Str) :=
  [("hashtable_file_operation".toList, "use".toList), ("hashtable_file".toList, "h".toList),
   ("postproc_funcs_filter".toList, "[]".toList), ("gen_hashtable_only".toList, "auto".toList)]

/-- Its directory. -/
def emptyDir : Str → Except PyErr (List Str) := fun _ => .ok []

theorem smallItems_ok : ∃ d, load emptyDir smallItems = .ok d := by
  have : (load emptyDir smallItems).toOption.isSome = true := by decide +kernel
  cases h : load emptyDir smallItems with
  | ok d => exact ⟨d, rfl⟩
  | error e => rw [h] at this; cases this

example : ∃ d, load emptyDir smallItems = .ok d ∧ (kindOf "lhs_params".toList).isSome ∧ ∀ x ∈ smallItems, x.1 ≠ "lhs_params".toList :=
  let ⟨d, h⟩ := smallItems_ok
  ⟨d, h, by decide +kernel, by decide +kernel⟩

/-- **C73 (violated).** The documented defaults are never used: in every accepted configuration without these options they are
None instead of 0, False and True.  Such configurations exist. -/
theorem C73_defaults_violated : (∀ listdir items d, load listdir items = .ok d →
      ((∀ x ∈ items, x.1 ≠ "i".toList) → d "i".toList = some (.data .null)) ∧
      ((∀ x ∈ items, x.1 ≠ "is_test".toList) → d "is_test".toList = some (.data .null)) ∧
      ((∀ x ∈ items, x.1 ≠ "validate_hashtable_extend_no_replication".toList) →
        d "validate_hashtable_extend_no_replication".toList = some (.data .null))) ∧
    ∃ listdir items d, load listdir items = .ok d ∧ d "i".toList ≠ some (.data (.int 0)) ∧
      d "is_test".toList ≠ some (.data (.bool false)) ∧
      d "validate_hashtable_extend_no_replication".toList ≠ some (.data (.bool true)) := by
  refine ⟨fun listdir items d h => ⟨fun hm => C73_missing_partial h (by decide +kernel) hm, fun hm => C73_missing_partial h (by decide +kernel) hm,
    fun hm => C73_missing_partial h (by decide +kernel) hm⟩, ?_⟩
  obtain ⟨d, h⟩ := smallItems_ok
  refine ⟨emptyDir, smallItems, d, h, ?_, ?_, ?_⟩
  · rw [C73_missing_partial h (by decide +kernel) (by decide +kernel)]; simp
  · rw [C73_missing_partial h (by decide +kernel) (by decide +kernel)]; simp
  · rw [C73_missing_partial h (by decide +kernel) (by decide +kernel)]; simp

/-- The text of an option in the file: the last line with this option counts. -/
def written : List (Str × Str) → Str → Option Str
  | [], _ => none
  | (key, t) :: items, k =>
    match written items k with
    | some t' => some t'
    | none => if key = k then some t else none

theorem written_none {k : Str} : ∀ {l : List (Str × Str)}, written l k = none → ∀ x ∈ l, x.1 ≠ k
  | [], _, x, hx => by cases hx
  | y :: l, hl, x, hx => by
    rw [written] at hl
    split at hl
    · cases hl
    · split at hl
      · cases hl
      · rename_i h1 h2
        rcases List.mem_cons.1 hx with rfl | hx
        · exact h2
        · exact written_none h1 x hx

theorem readItems_written {k : Str} {kind : Kind} (hk : kindOf k = some kind) {t : Str} :
    ∀ {items : List (Str × Str)} {d d' : Dict}, readItems d items = .ok d' → written items k = some t →
    ∃ v, cast kind t = .ok v ∧ d' k = some v
  | [], d, d', _, hw => by cases hw
  | (key, text) :: items, d, d', h, hw => by
    rw [written] at hw
    rw [readItems] at h
    cases hw' : written items k with
    | some t' =>
      rw [hw'] at hw
      injection hw with hw
      subst hw
      split at h
      · exact readItems_written hk h hw'
      · split at h
        · cases h
        · exact readItems_written hk h hw'
    | none =>
      rw [hw'] at hw
      simp only at hw
      split at hw
      · rename_i e
        subst e
        injection hw with hw
        subst hw
        rw [hk] at h
        simp only at h
        split at h
        · cases h
        · rename_i v hv
          refine ⟨v, hv, ?_⟩
          rw [readItems_missing (written_none hw') h, Dict.set, if_pos rfl]
      · cases hw

theorem cast_string (t : Str) : cast .string t = .ok (.data (stringParser t)) := by
  rw [cast]
  split
  · rename_i h
    rw [strip_lower] at h
    rw [stringParser, if_pos h]
  · rfl

theorem load_string {listdir : Str → Except PyErr (List Str)} {items : List (Str × Str)} {d : Dict}
    (h : load listdir items = .ok d) {k t : Str} (hk : kindOf k = some .string) (ht : written items k = some t)
    (hg : k ≠ "gen_hashtable_only".toList) : d k = some (.data (stringParser t)) := by
  obtain ⟨d0, f, is, h0, -, -, hfin⟩ := load_ok h
  obtain ⟨v, hv, e⟩ := readItems_written hk h0 ht
  rw [cast_string] at hv
  injection hv with hv
  have n1 : k ≠ "hashtable_file".toList := by rintro rfl; exact absurd hk (by decide)
  have n2 : k ≠ "postproc_funcs_filter".toList := by rintro rfl; exact absurd hk (by decide)
  rw [finish_other hfin hg, Dict.set, if_neg n2, Dict.set, if_neg n1, fillMissing, e, hv]

/-- **C74 (auto).** For every accepted configuration file: the operation is generate, expand or use; if the text of
gen_hashtable_only is auto (in any case, with white space around it) the option is True for generate and expand, False for use;
any other text is taken as a string option. -/
theorem C74_auto {listdir : Str → Except PyErr (List Str)} {items : List (Str × Str)} {d : Dict}
    (h : load listdir items = .ok d) : ∃ op ∈ ["generate".toList, "expand".toList, "use".toList],
    d "hashtable_file_operation".toList = some (.data (.str op)) ∧
    ∀ t, written items "gen_hashtable_only".toList = some t →
      (stringParser t = .str "auto".toList → (op = "generate".toList ∨ op = "expand".toList →
          d "gen_hashtable_only".toList = some (.data (.bool true))) ∧
        (op = "use".toList → d "gen_hashtable_only".toList = some (.data (.bool false)))) ∧
      (stringParser t ≠ .str "auto".toList → d "gen_hashtable_only".toList = some (.data (stringParser t))) := by
  obtain ⟨d0, f, is, h0, -, -, hfin⟩ := load_ok h
  have hop := finish_other hfin (k := "hashtable_file_operation".toList) (by decide)
  have e1 : ∀ k, k ≠ "postproc_funcs_filter".toList → k ≠ "hashtable_file".toList →
      (((fillMissing d0).set "hashtable_file".toList (.data f)).set "postproc_funcs_filter".toList (.data is)) k = fillMissing d0 k := by
    intro k n2 n1
    rw [Dict.set, if_neg n2, Dict.set, if_neg n1]
  have eg : ∀ t, written items "gen_hashtable_only".toList = some t →
      fillMissing d0 "gen_hashtable_only".toList = some (.data (stringParser t)) := by
    intro t ht
    obtain ⟨v, hv, e⟩ := readItems_written (kind := .string) (by decide) h0 ht
    rw [cast_string] at hv
    injection hv with hv
    rw [fillMissing, e, hv]
  unfold finish at hfin
  rw [e1 _ (by decide) (by decide)] at hop hfin
  rw [e1 _ (by decide) (by decide)] at hfin
  split at hfin
  · rename_i op hd
    split at hfin
    · rename_i hlegal
      refine ⟨op, by simpa using hlegal, ?_, ?_⟩
      · rw [hop]
        revert hd
        cases fillMissing d0 "hashtable_file_operation".toList with
        | none => intro hd; cases hd
        | some v =>
          cases v with
          | data v => intro hd; rw [show v = .str op from hd]
          | poly c => intro hd; cases hd
          | lhs c => intro hd; cases hd
      · intro t ht
        rw [eg t ht] at hfin
        simp only [dataOf] at hfin
        have e2 := (e1 "gen_hashtable_only".toList (by decide) (by decide)).trans (eg t ht)
        constructor
        · intro ha
          rw [ha] at hfin
          simp only [if_true] at hfin
          injection hfin with hfin
          rw [← hfin]
          constructor
          · rintro (rfl | rfl) <;> rfl
          · rintro rfl; rfl
        · intro ha
          split at hfin
          · rename_i g hg
            rw [if_neg (by rintro rfl; exact ha hg)] at hfin
            injection hfin with hfin
            rw [← hfin, e2, hg]
          · injection hfin with hfin
            rw [← hfin, e2]
    · cases hfin
  · cases hfin

example : ∃ d, load emptyDir smallItems = .ok d ∧ written smallItems "gen_hashtable_only".toList = some "auto".toList ∧
    d "gen_hashtable_only".toList = some (.data (.bool false)) := by
  obtain ⟨d, h⟩ := smallItems_ok
  obtain ⟨op, -, h1, h2⟩ := C74_auto h
  have hw : written smallItems "gen_hashtable_only".toList = some "auto".toList := by decide +kernel
  refine ⟨d, h, hw, ((h2 _ hw).1 rfl).2 ?_⟩
  have h3 := load_string h (k := "hashtable_file_operation".toList) (t := "use".toList) (by decide) (by decide +kernel) (by decide)
  rw [h1] at h3
  injection h3 with h3; injection h3 with h3; injection h3 with h3

/-- **C74 (rejection).** For every configuration file whose hashtable_file_operation is missing, or is not generate, expand or
use (in any case, with white space around it): loading it raises an exception. -/
theorem C74_rejects (listdir : Str → Except PyErr (List Str)) (items : List (Str × Str))
    (hbad : ∀ t, written items "hashtable_file_operation".toList = some t →
      ∀ op ∈ ["generate".toList, "expand".toList, "use".toList], stringParser t ≠ .str op) :
    ∃ e, load listdir items = .error e := by
  cases h : load listdir items with
  | error e => exact ⟨e, rfl⟩
  | ok d =>
    exfalso
    obtain ⟨op, hmem, hop, -⟩ := C74_auto h
    cases hw : written items "hashtable_file_operation".toList with
    | some t =>
      have := load_string h (by decide) hw (by decide)
      rw [hop] at this
      injection this with this; injection this with this
      exact hbad t hw op hmem this.symm
    | none =>
      have := C73_missing_partial h (by decide +kernel) (written_none hw)
      rw [hop] at this
      injection this with this; injection this with this; cases this

example : ∀ t, written [("hashtable_file_operation".toList, "load".toList)] "hashtable_file_operation".toList = some t →
    ∀ op ∈ ["generate".toList, "expand".toList, "use".toList], stringParser t ≠ .str op := by
  intro t ht
  rw [show written [("hashtable_file_operation".toList, "load".toList)] "hashtable_file_operation".toList = some "load".toList from rfl] at ht
  injection ht with ht
  subst ht
  rw [show stringParser "load".toList = .str "load".toList from rfl]
  simp

end PiCF.Config
