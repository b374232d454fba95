import Verif.Spec.Tables
import Verif.Props.ConfigFile
import Mathlib.Tactic.IntervalCases

/-!
# The file chosen for a table belongs to this table, and to no other
-/

namespace PiCF.Config
open PiCF.Hashtable PiCF.PyStr PiCF.Json PiCF.Spec

theorem isDigit_mem {c : Char} : isDigit c = true ↔ c ∈ "0123456789".toList := by
  constructor
  · intro h
    have h1 : 48 ≤ c.toNat ∧ c.toNat ≤ 57 := by
      simp only [isDigit, Bool.and_eq_true, decide_eq_true_eq] at h
      exact ⟨h.1, h.2⟩
    rw [← Char.ofNat_toNat c]
    obtain ⟨h1, h2⟩ := h1
    generalize c.toNat = n at *
    interval_cases n <;> decide
  · intro h
    have : ∀ c ∈ "0123456789".toList, isDigit c = true := by decide
    exact this c h

theorem mem_takeWhile {p : Char → Bool} {c : Char} : ∀ {l : Str}, c ∈ l.takeWhile p → p c = true
  | [], h => by cases h
  | x :: l, h => by
    rw [List.takeWhile_cons] at h
    split at h
    · rcases List.mem_cons.1 h with rfl | h
      · assumption
      · exact mem_takeWhile h
    · cases h

theorem isDigitDot_mem {c : Char} (h : isDigitDot c = true) : c ∈ "0123456789.".toList := by
  unfold isDigitDot at h
  rcases Bool.or_eq_true_iff.1 h with h | h
  · have := isDigit_mem.1 h
    have hsub : ∀ c ∈ "0123456789".toList, c ∈ "0123456789.".toList := by decide
    exact hsub c this
  · have : c = '.' := by simpa using h
    subst this
    decide

theorem endsVersion_iff {s : Str} : EndsVersion s ↔ EndsInVersion s := by
  constructor <;> rintro ⟨t, ds, e, hne, hd⟩
  · exact ⟨t, ds, e, hne, fun c hc => isDigit_mem.1 (hd c hc)⟩
  · exact ⟨t, ds, e, hne, fun c hc => isDigit_mem.2 (hd c hc)⟩

/-- What the regular expression for the suffix accepts. -/
theorem suffix_text {r v : Str} (h : suffixMatch r = some v) :
    ∃ u rest, r = u ++ ".pkl".toList ++ rest ∧ VersionText u ∧ (u = [] ∧ v = [] ∨ u = "_v".toList ++ v) := by
  unfold suffixMatch at h
  split at h
  · rename_i ha
    injection h with h
    obtain ⟨rest, e⟩ := List.isPrefixOf_iff_prefix.1 ha
    exact ⟨[], rest, by simpa using e.symm, .inl rfl, .inl ⟨rfl, h.symm⟩⟩
  · split at h
    · rename_i r' _
      simp only at h
      split at h
      · rename_i hc
        injection h with h
        obtain ⟨hl, hlast, hp⟩ := hc
        obtain ⟨rest, e⟩ := List.isPrefixOf_iff_prefix.1 hp
        obtain ⟨ds, hds⟩ := List.getLast?_eq_some_iff.1 hlast
        have hv : v = ds := by rw [← h, hds]; simp
        subst hv
        refine ⟨"_v".toList ++ v, rest, ?_, .inr ⟨v, rfl, ?_, ?_⟩, .inr rfl⟩
        · have := List.takeWhile_append_dropWhile (p := isDigitDot) (l := r')
          rw [hds, ← e] at this
          rw [← this]
          simp
        · rintro rfl
          rw [hds] at hl
          simp at hl
        · intro c hc
          refine isDigitDot_mem ?_
          have : c ∈ r'.takeWhile isDigitDot := by rw [hds]; simp [hc]
          exact mem_takeWhile this
      · cases h
    · cases h

theorem isVersion_table {s f : Str} (hs : '.' ∉ s) (h : isVersion s f = true) : TableName s f := by
  unfold isVersion at h
  split at h
  · rename_i r hr
    obtain ⟨v, hv⟩ := Option.isSome_iff_exists.1 h
    obtain ⟨u, rest, e, hu, -⟩ := suffix_text hv
    exact ⟨u, rest, by rw [stemMatch_some hs hr, e]; simp, hu⟩
  · cases h

theorem versionFile_table (s : Str) (n : ℕ) : TableName s (versionFile s n) :=
  ⟨"_v".toList ++ strNat n, [], by simp [versionFile], .inr ⟨_, rfl, strNat_ne_nil n, fun c hc =>
    isDigitDot_mem (by rw [isDigitDot, strNat_digits n c hc]; rfl)⟩⟩

/-- Characters of a version. -/
theorem version_char {c : Char} (h : c ∈ "0123456789.".toList) : c ≠ '_' ∧ c ≠ 'p' ∧ c ≠ '/' ∧ (c ≠ '.' → c ∈ "0123456789".toList) := by
  have : ∀ c ∈ "0123456789.".toList, c ≠ '_' ∧ c ≠ 'p' ∧ c ≠ '/' ∧ (c ≠ '.' → c ∈ "0123456789".toList) := by decide
  exact this c h

/-- If a longer name fits as well, it ends with a version. -/
theorem table_longer {v v' x r r' : Str} (hv : VersionText v) (hv' : VersionText v') (hx : '.' ∉ x)
    (e : v ++ ".pkl".toList ++ r = x ++ v' ++ ".pkl".toList ++ r') :
    x = [] ∨ ∃ ds, x = "_v".toList ++ ds ∧ ds ≠ [] ∧ ∀ c ∈ ds, c ∈ "0123456789".toList := by
  cases x with
  | nil => exact .inl rfl
  | cons c x =>
    right
    simp only [List.mem_cons, not_or] at hx
    rcases hv with rfl | ⟨ds, rfl, hne, hds⟩
    · simp only [List.nil_append, List.cons_append] at e
      exact absurd (List.cons.inj e).1 (hx.1)
    · have e' : '_' :: 'v' :: (ds ++ ".pkl".toList ++ r) = c :: (x ++ (v' ++ ".pkl".toList ++ r')) := by simpa using e
      obtain ⟨rfl, e1⟩ := List.cons.inj e'
      cases x with
      | nil =>
        rcases hv' with rfl | ⟨ds', rfl, -, -⟩
        · exact absurd (List.cons.inj e1).1 (by decide)
        · exact absurd (List.cons.inj e1).1 (by decide)
      | cons c x =>
        rw [List.cons_append] at e1
        obtain ⟨rfl, e2⟩ := List.cons.inj e1
        have hx2 : '.' ∉ x := fun h => hx.2 (List.mem_cons_of_mem _ h)
        have hpre : x <+: ds := by
          have h1 : x <+: ds ++ ".pkl".toList ++ r := ⟨_, e2.symm⟩
          have h2 : ds ++ ['.'] <+: ds ++ ".pkl".toList ++ r := ⟨"pkl".toList ++ r, by simp⟩
          rcases List.prefix_or_prefix_of_prefix h1 h2 with h | h
          · rcases List.prefix_concat_iff.1 h with h | h
            · exact absurd (h ▸ List.mem_append_right _ List.mem_cons_self) hx2
            · exact h
          · exact absurd (h.subset (List.mem_append_right _ List.mem_cons_self)) hx2
        refine ⟨x, rfl, ?_, fun c hc => (version_char (hds c (hpre.subset hc))).2.2.2 fun h => hx2 (h ▸ hc)⟩
        rintro rfl
        rw [List.nil_append] at e2
        obtain ⟨a, ds, rfl⟩ := List.exists_cons_of_ne_nil hne
        have ha := version_char (hds a List.mem_cons_self)
        rcases hv' with rfl | ⟨ds', rfl, -, -⟩
        · have e3 : a :: (ds ++ '.' :: ("pkl".toList ++ r)) = '.' :: 'p' :: ("kl".toList ++ r') := by simpa using e2
          obtain ⟨-, e4⟩ := List.cons.inj e3
          cases ds with
          | nil => exact absurd (List.cons.inj e4).1 (by decide)
          | cons b ds =>
            exact (version_char (hds b (by simp))).2.1 (List.cons.inj e4).1
        · have e3 : a :: (ds ++ ".pkl".toList ++ r) = '_' :: ('v' :: (ds' ++ ".pkl".toList ++ r')) := by simpa using e2
          exact ha.1 (List.cons.inj e3).1

/-- A file belongs to at most one table. -/
theorem table_unique {s s' f : Str} (hs : PlainTable s) (hs' : PlainTable s') (h : TableName s f) (h' : TableName s' f) : s = s' := by
  obtain ⟨v, r, e, hv⟩ := h
  obtain ⟨v', r', e', hv'⟩ := h'
  have h1 : s <+: f := ⟨v ++ ".pkl".toList ++ r, by rw [e]; simp⟩
  have h2 : s' <+: f := ⟨v' ++ ".pkl".toList ++ r', by rw [e']; simp⟩
  have key : ∀ {s s' v v' r r' : Str}, PlainTable s' → VersionText v → VersionText v' → s <+: s' →
      s ++ v ++ ".pkl".toList ++ r = s' ++ v' ++ ".pkl".toList ++ r' → s = s' := by
    rintro s s' v v' r r' hs' hv hv' ⟨x, rfl⟩ e
    have e1 : v ++ ".pkl".toList ++ r = x ++ v' ++ ".pkl".toList ++ r' := by
      have : s ++ (v ++ ".pkl".toList ++ r) = s ++ (x ++ v' ++ ".pkl".toList ++ r') := by simpa using e
      exact List.append_cancel_left this
    rcases table_longer hv hv' (fun h => hs'.noDot (List.mem_append_right _ h)) e1 with rfl | ⟨ds, rfl, hne, hd⟩
    · simp
    · exact absurd ⟨s, ds, by simp, hne, hd⟩ hs'.noVersion
  rcases List.prefix_or_prefix_of_prefix h1 h2 with h | h
  · exact key hs' hv hv' h (e ▸ e')
  · exact (key hs hv' hv h (e' ▸ e)).symm

/-- No part of a plain name is taken for the beginning of the version. -/
theorem suffix_none {c : Char} {x r : Str} (hx : '.' ∉ c :: x) (hv : ¬ EndsInVersion (c :: x)) {v : Str} (h : suffixMatch r = some v) :
    suffixMatch (c :: x ++ r) = none := by
  cases h' : suffixMatch (c :: x ++ r) with
  | none => rfl
  | some w =>
    exfalso
    obtain ⟨u, rest, e, hu, -⟩ := suffix_text h
    obtain ⟨u', rest', e', hu', -⟩ := suffix_text h'
    rw [e] at e'
    rcases table_longer hu' hu hx (r := rest') (r' := rest) (by rw [← e']; simp) with e1 | ⟨ds, e1, hne, hd⟩
    · cases e1
    · exact hv ⟨[], ds, by simpa using e1, hne, hd⟩

theorem endsInVersion_cons {c : Char} {s : Str} (h : EndsInVersion s) : EndsInVersion (c :: s) := by
  obtain ⟨t, ds, e, hne, hd⟩ := h
  exact ⟨c :: t, ds, by simp [e], hne, hd⟩

theorem findVersion_table {s r v : Str} (hs : PlainTable s) (h : suffixMatch r = some v) : findVersion (s ++ r) = .ok (s, v) := by
  induction s with
  | nil =>
    rw [List.nil_append]
    cases r with
    | nil => rw [findVersion, h]
    | cons c r => rw [findVersion, h]
  | cons c s ih =>
    have hs1 : PlainTable s := ⟨fun h => hs.noDot (List.mem_cons_of_mem _ h), fun h => hs.noVersion (endsInVersion_cons h)⟩
    rw [List.cons_append, findVersion, ← List.cons_append, suffix_none hs.noDot hs.noVersion h, ih hs1]
    rfl

theorem map_ok {α β : Type} {x : Except PyErr α} {f : α → β} {b : β} (h : x.map f = .ok b) : ∃ a, x = .ok a ∧ b = f a := by
  cases x with
  | error e => cases h
  | ok a =>
    injection h with h
    exact ⟨a, rfl, h.symm⟩

theorem strip_subset {s : Str} {c : Char} (h : c ∈ strip s) : c ∈ s := by
  rw [strip] at h
  have h1 := (List.dropWhile_suffix _).subset (List.mem_reverse.1 h)
  exact (List.dropWhile_suffix _).subset (List.mem_reverse.1 h1)

theorem intParser_nonneg {v : Str} {n : ℤ} (hv : '-' ∉ v) (h : intParser v = .ok n) : 0 ≤ n := by
  unfold intParser at h
  split at h
  · rename_i r e
    exact absurd (strip_subset (e ▸ List.mem_cons_self)) hv
  all_goals
    unfold natParser at h
    split at h
    · injection h with h
      rw [← h]
      exact Int.natCast_nonneg _
    · cases h

/-- The file chosen for a table belongs to this table. -/
theorem chosen_table {files : List Str} {op : Val} {s f : Str} {k : ℕ} (hs : PlainTable s)
    (h : chooseName files op (versionFile s k) = .ok f) : TableName s f ∧ (f ∈ files ∨ ∃ n, f = versionFile s n) := by
  unfold chooseName at h
  simp only [stripVersion_version k hs.noDot] at h
  split at h
  · injection h with h
    subst h
    exact ⟨versionFile_table s k, .inr ⟨k, rfl⟩⟩
  · rename_i last hl
    obtain ⟨hm, -⟩ := sort_last hl
    obtain ⟨hm, hver⟩ := List.mem_filter.1 hm
    split at h
    · obtain ⟨r, hr, v, hv⟩ : ∃ r, last = s ++ r ∧ ∃ v, suffixMatch r = some v := by
        unfold isVersion at hver
        split at hver
        · rename_i r hr
          exact ⟨r, stemMatch_some hs.noDot hr, Option.isSome_iff_exists.1 hver⟩
        · cases hver
      rw [hr, findVersion_table hs hv] at h
      simp only at h
      obtain ⟨n, hn, rfl⟩ := map_ok h
      have hpos : 0 ≤ n := by
        unfold nextVersion at hn
        split at hn
        · injection hn with hn
          omega
        · obtain ⟨m, hm, rfl⟩ := map_ok hn
          have : 0 ≤ m := by
            refine intParser_nonneg (fun hc => ?_) hm
            obtain ⟨u, rest, -, hu, hu'⟩ := suffix_text hv
            rcases hu' with ⟨-, rfl⟩ | rfl
            · cases hc
            · rcases hu with hu | ⟨ds, e, -, hd⟩
              · cases hu
              · have := List.append_cancel_left e
                subst this
                exact absurd (hd _ hc) (by decide)
          omega
      have : s ++ "_v".toList ++ strInt n ++ ".pkl".toList = versionFile s n.natAbs := by
        rw [strInt, if_neg (by omega), versionFile]
      rw [this]
      exact ⟨versionFile_table s _, .inr ⟨_, rfl⟩⟩
    · injection h with h
      subst h
      exact ⟨isVersion_table hs.noDot hver, .inl hm⟩

theorem versionFile_slash {s : Str} (hs : '/' ∉ s) (n : ℕ) : '/' ∉ versionFile s n := by
  intro h
  simp only [versionFile, List.mem_append] at h
  rcases h with ((h | h) | h) | h
  · exact hs h
  · exact absurd h (by decide)
  · exact absurd (strNat_digits n _ h) (by decide)
  · exact absurd h (by decide)

theorem dirOf_ne (p : Str) : dirOf p ≠ [] := by
  unfold dirOf
  split
  · simp
  · assumption

theorem join_path {d f : Str} (hd : d ≠ []) (hf : '/' ∉ f) : ∃ d', Path.join d f = d' ++ '/' :: f := by
  have e : Path.join d f = if d = [] ∨ d.getLast? = some '/' then d ++ f else d ++ '/' :: f := by
    unfold Path.join
    split
    · exact absurd List.mem_cons_self hf
    · rfl
  rw [e]
  split
  · rename_i h
    obtain ⟨d', e⟩ := List.getLast?_eq_some_iff.1 (h.resolve_left hd)
    exact ⟨d', by rw [e]; simp⟩
  · exact ⟨d, rfl⟩

/-- The new value of the option `hashtable_file` is a file of the table to which the option refers. -/
theorem genFilename_table {listdir : Str → Except PyErr (List Str)} {op : Val} {p s : Str} {f : Val} (hs : PlainTable s) (hslash : '/' ∉ s)
    (hn : Names s (Path.split p).2) (hl : ∀ d l, listdir d = .ok l → ∀ g ∈ l, '/' ∉ g) (hne : s ≠ [])
    (h : genFilename listdir op (.str p) = .ok f) : ∃ q, f = .str q ∧ TablePath s q := by
  have hne' : (Path.split p).2 ≠ [] := by
    generalize (Path.split p).2 = x at hn
    cases hn with
    | bare _ => exact hne
    | pkl _ => simp
    | version n => simp [versionFile]
  obtain ⟨k, hk⟩ := normalName_names hs.noDot hn
  unfold genFilename at h
  simp only [if_neg hne'] at h
  split at h
  · cases h
  · rename_i files hf
    obtain ⟨g, hg, rfl⟩ := map_ok h
    rw [hk] at hg
    obtain ⟨ht, hmem⟩ := chosen_table hs hg
    have hslash : '/' ∉ g := by
      rcases hmem with hm | ⟨n, rfl⟩
      · exact hl _ _ hf g hm
      · exact versionFile_slash hslash n
    refine ⟨_, rfl, ?_⟩
    obtain ⟨d', e⟩ := join_path (dirOf_ne p) hslash
    exact ⟨d', g, e, hslash, ht⟩

end PiCF.Config
