import Mathlib.Tactic.Ring
import Mathlib.Tactic.Linarith
import Verif.Lemmas.Json
import Verif.Props.Config

/-!
# Versions of hashtable files (C69)
-/

namespace PiCF.Config
open PiCF.Hashtable PiCF.PyStr PiCF.Json PiCF.Spec

/-- The file with version `n` of the hashtable `s`. -/
def versionFile (s : Str) (n : ℕ) : Str := s ++ "_v".toList ++ strNat n ++ ".pkl".toList

/-- The name ends with a version number. -/
def EndsVersion (s : Str) : Prop := ∃ t ds, s = t ++ "_v".toList ++ ds ∧ ds ≠ [] ∧ ∀ c ∈ ds, isDigit c = true

/-- The names by which the configuration can refer to the hashtable `s`: without or with extension, or with a version. -/
inductive Names (s : Str) : Str → Prop where
  | bare : ¬ EndsVersion s → Names s s
  | pkl : ¬ EndsVersion s → Names s (s ++ ".pkl".toList)
  | version (n : ℕ) : Names s (versionFile s n)

theorem versionFile_eq (s : Str) (n : ℕ) : versionFile s n = s ++ ('_' :: 'v' :: (strNat n ++ ".pkl".toList)) := by
  simp [versionFile]

theorem strNat_digits (n : ℕ) : ∀ c ∈ strNat n, isDigit c = true := by
  obtain ⟨d, ds, h1, h2, -, e, -⟩ := exists_strNat n
  rw [e]
  intro c hc
  obtain ⟨x, hx, rfl⟩ := List.mem_map.1 hc
  refine (digitChar_facts ?_).1
  rcases List.mem_cons.1 hx with rfl | hx
  · exact h1
  · exact h2 x hx

theorem strNat_ne_nil (n : ℕ) : strNat n ≠ [] := by
  obtain ⟨c, s, e, -⟩ := exists_strNat_cons n
  rw [e]
  simp

theorem takeWhile_all {p : Char → Bool} {x r : Str} (h : ∀ c ∈ x, p c = true) (hr : ∀ c ∈ r.head?, p c = false) :
    (x ++ r).takeWhile p = x ∧ (x ++ r).dropWhile p = r := by
  induction x with
  | nil =>
    cases r with
    | nil => simp
    | cons c r => have := hr c (by simp); simp [this]
  | cons c x ih =>
    have hc := h c List.mem_cons_self
    have := ih fun x hx => h x (List.mem_cons_of_mem _ hx)
    simp [hc, this]

theorem atPkl_head {c : Char} {s : Str} (h : c ≠ '.') : atPkl (c :: s) = false := by
  show (".pkl".toList).isPrefixOf (c :: s) = false
  rw [show ".pkl".toList = ['.', 'p', 'k', 'l'] from rfl, List.isPrefixOf]
  simp [Ne.symm h]

/-- Skipping digits in a name without dots does not lead to the extension. -/
theorem drop_digits_not_pkl {p : Char → Bool} (x t : Str) (hx : '.' ∉ x) (hp : p '_' = false) :
    atPkl ((x ++ '_' :: t).dropWhile p) = false := by
  induction x with
  | nil => rw [List.nil_append, List.dropWhile_cons, hp]; exact atPkl_head (by decide)
  | cons c x ih =>
    rw [List.cons_append, List.dropWhile_cons]
    simp only [List.mem_cons, not_or] at hx
    split
    · exact ih hx.2
    · exact atPkl_head (Ne.symm hx.1)

theorem versionPkl_inside {c : Char} {x t : Str} (hx : '.' ∉ c :: x) : versionPkl ((c :: x) ++ '_' :: t) = none := by
  unfold versionPkl
  split
  · rename_i r e
    cases x with
    | nil =>
      simp only [List.cons_append, List.nil_append, List.cons.injEq] at e
      exact absurd e.2.1 (by decide)
    | cons d x =>
      simp only [List.cons_append, List.cons.injEq] at e
      simp only [List.mem_cons, not_or] at hx
      rw [← e.2.2, if_neg]
      rintro ⟨-, h⟩
      rw [drop_digits_not_pkl x t hx.2.2 (by decide)] at h
      cases h
  · rfl

theorem versionPkl_version (n : ℕ) : versionPkl ('_' :: 'v' :: (strNat n ++ ".pkl".toList)) = some [] := by
  have h := takeWhile_all (r := ".pkl".toList) (strNat_digits n) (by intro c hc; simp at hc; subst hc; decide)
  rw [versionPkl, h.1, h.2, if_pos ⟨strNat_ne_nil n, rfl⟩]
  rfl

theorem stripVersion_version {s : Str} (n : ℕ) (hs : '.' ∉ s) : stripVersion (versionFile s n) = s := by
  rw [versionFile_eq]
  induction s with
  | nil => rw [List.nil_append, stripVersion, versionPkl_version, if_pos rfl]
  | cons c s ih =>
    rw [List.cons_append, stripVersion, ← List.cons_append, versionPkl_inside hs, if_neg (by simp),
      ih fun h => hs (List.mem_cons_of_mem _ h)]

theorem suffixMatch_version (n : ℕ) : suffixMatch ('_' :: 'v' :: (strNat n ++ ".pkl".toList)) = some (strNat n) := by
  have h := takeWhile_all (p := isDigitDot) (x := strNat n ++ ['.']) (r := "pkl".toList)
    (by
      intro c hc
      rcases List.mem_append.1 hc with hc | hc
      · rw [isDigitDot, strNat_digits n c hc]; rfl
      · simp at hc; subst hc; decide)
    (by intro c hc; simp at hc; subst hc; decide)
  have e : strNat n ++ ".pkl".toList = (strNat n ++ ['.']) ++ "pkl".toList := by simp
  have hlen := List.length_pos_iff.2 (strNat_ne_nil n)
  rw [suffixMatch, atPkl_head (by decide)]
  simp only [e, h.1, h.2, Bool.false_eq_true, if_false]
  rw [if_pos]
  · simp
  · refine ⟨?_, by simp, rfl⟩
    rw [List.length_append, List.length_singleton]
    omega

theorem suffixMatch_inside {c : Char} {x t : Str} (hx : '.' ∉ c :: x) : suffixMatch ((c :: x) ++ '_' :: t) = none := by
  have hx' := hx
  simp only [List.mem_cons, not_or] at hx'
  unfold suffixMatch
  rw [List.cons_append, atPkl_head (Ne.symm hx'.1)]
  simp only [Bool.false_eq_true, if_false]
  split
  · rename_i r e
    cases x with
    | nil =>
      simp only [List.nil_append, List.cons.injEq] at e
      exact absurd e.2.1 (by decide)
    | cons d x =>
      simp only [List.cons_append, List.cons.injEq] at e
      simp only [List.mem_cons, not_or] at hx'
      rw [← e.2.2, if_neg]
      rintro ⟨-, h, -⟩
      have hmem : '.' ∈ (x ++ '_' :: t).takeWhile isDigitDot := List.mem_of_getLast? h
      have : ∀ y : Str, '.' ∉ y → '.' ∉ (y ++ '_' :: t).takeWhile isDigitDot := by
        intro y
        induction y with
        | nil => intro _; rw [List.nil_append, List.takeWhile_cons]; simp [isDigitDot, isDigit]
        | cons c y ih =>
          intro hy
          simp only [List.mem_cons, not_or] at hy
          rw [List.cons_append, List.takeWhile_cons]
          split
          · simp only [List.mem_cons, not_or]
            exact ⟨hy.1, ih hy.2⟩
          · simp
      exact this x hx'.2.2 hmem
  · rfl

theorem findVersion_version {s : Str} (n : ℕ) (hs : '.' ∉ s) : findVersion (versionFile s n) = .ok (s, strNat n) := by
  rw [versionFile_eq]
  induction s with
  | nil => rw [List.nil_append, findVersion, suffixMatch_version]
  | cons c s ih =>
    rw [List.cons_append, findVersion, ← List.cons_append, suffixMatch_inside hs, ih fun h => hs (List.mem_cons_of_mem _ h)]
    rfl

theorem stemMatch_append {s : Str} (t : Str) : stemMatch s (s ++ t) = some t := by
  induction s with
  | nil => rfl
  | cons c s ih => rw [List.cons_append, stemMatch, if_pos (.inr rfl), ih]

theorem stemMatch_some {s f r : Str} (hs : '.' ∉ s) (h : stemMatch s f = some r) : f = s ++ r := by
  induction s generalizing f with
  | nil => rw [stemMatch] at h; injection h with h
  | cons c s ih =>
    cases f with
    | nil => rw [stemMatch] at h; cases h
    | cons d f =>
      simp only [List.mem_cons, not_or] at hs
      rw [stemMatch] at h
      split at h
      · rename_i hc
        rcases hc with hc | rfl
        · exact absurd hc.symm hs.1
        · rw [ih hs.2 h]; rfl
      · cases h

theorem suffixMatch_prefix {r v : Str} (h : suffixMatch r = some v) : ".pkl".toList <+: r ∨ "_v".toList <+: r := by
  unfold suffixMatch at h
  split at h
  · rename_i ha
    exact .inl (List.isPrefixOf_iff_prefix.1 ha)
  · split at h
    · exact .inr ⟨_, rfl⟩
    · cases h

theorem isVersion_iff {s f : Str} (hs : '.' ∉ s) (h : isVersion s f = true) :
    s ++ ".pkl".toList <+: f ∨ s ++ "_v".toList <+: f := by
  unfold isVersion at h
  split at h
  · rename_i r hr
    obtain ⟨v, hv⟩ := Option.isSome_iff_exists.1 h
    rw [stemMatch_some hs hr, List.prefix_append_right_inj, List.prefix_append_right_inj]
    exact suffixMatch_prefix hv
  · cases h

theorem isVersion_version (s : Str) (n : ℕ) : isVersion s (versionFile s n) = true := by
  rw [versionFile_eq, isVersion, stemMatch_append]
  simp only [suffixMatch_version]
  rfl

/-! ### The order of file names -/

theorem strLe_refl (s : Str) : strLe s s = true := by
  induction s with
  | nil => rfl
  | cons c s ih => rw [strLe, if_pos rfl, ih]

theorem strLe_total (s t : Str) : (strLe s t || strLe t s) = true := by
  induction s generalizing t with
  | nil => rfl
  | cons a s ih =>
    cases t with
    | nil => rfl
    | cons b t =>
      rw [strLe, strLe]
      by_cases h : a = b
      · rw [if_pos h, if_pos h.symm, ih]
      · rw [if_neg h, if_neg (Ne.symm h)]
        have : a.toNat ≠ b.toNat := fun e => h (Char.toNat_inj.1 e)
        simp only [Bool.or_eq_true, decide_eq_true_eq]
        omega

theorem strLe_trans (s t u : Str) (h1 : strLe s t = true) (h2 : strLe t u = true) : strLe s u = true := by
  induction s generalizing t u with
  | nil => rfl
  | cons a s ih =>
    cases t with
    | nil => cases h1
    | cons b t =>
      cases u with
      | nil => cases h2
      | cons c u =>
        rw [strLe] at h1 h2 ⊢
        by_cases hab : a = b
        · subst hab
          rw [if_pos rfl] at h1
          by_cases hac : a = c
          · rw [if_pos hac] at h2 ⊢; exact ih _ _ h1 h2
          · rw [if_neg hac] at h2 ⊢; exact h2
        · rw [if_neg hab] at h1
          by_cases hbc : b = c
          · subst hbc
            rw [if_neg hab]; exact h1
          · rw [if_neg hbc] at h2
            simp only [decide_eq_true_eq] at h1 h2
            rw [if_neg (by rintro rfl; omega)]
            simp only [decide_eq_true_eq]
            omega

theorem strLe_append (s x y : Str) : strLe (s ++ x) (s ++ y) = strLe x y := by
  induction s with
  | nil => rfl
  | cons c s ih => rw [List.cons_append, List.cons_append, strLe, if_pos rfl, ih]

theorem foldl_digits_bounds {ds : List ℕ} (h : ∀ d ∈ ds, d < 10) (n : ℕ) :
    n * 10 ^ ds.length ≤ ds.foldl (fun n d => 10 * n + d) n ∧ ds.foldl (fun n d => 10 * n + d) n < (n + 1) * 10 ^ ds.length := by
  induction ds generalizing n with
  | nil => simp
  | cons d ds ih =>
    have hd := h d List.mem_cons_self
    have := ih (fun x hx => h x (List.mem_cons_of_mem _ hx)) (10 * n + d)
    rw [List.foldl_cons, List.length_cons, pow_succ]
    have hpos : 0 < 10 ^ ds.length := Nat.pos_of_ne_zero (by simp)
    constructor
    · refine le_trans ?_ this.1
      nlinarith
    · refine lt_of_lt_of_le this.2 ?_
      nlinarith

theorem digitChar_toNat {d : ℕ} (h : d < 10) : (digitChar d).toNat = 48 + d := by
  interval_cases d <;> decide

theorem strLe_digits {t t' : Str} : ∀ {ds es : List ℕ} (n : ℕ), ds.length = es.length → (∀ d ∈ ds, d < 10) → (∀ d ∈ es, d < 10) →
    strLe (ds.map digitChar ++ t) (es.map digitChar ++ t') = true →
    ds.foldl (fun n d => 10 * n + d) n ≤ es.foldl (fun n d => 10 * n + d) n
  | [], [], _, _, _, _, _ => le_refl _
  | [], _ :: _, _, hl, _, _, _ => by simp at hl
  | _ :: _, [], _, hl, _, _, _ => by simp at hl
  | d :: ds, e :: es, n, hl, h1, h2, h => by
    simp only [List.length_cons, Nat.add_right_cancel_iff] at hl
    simp only [List.forall_mem_cons] at h1 h2
    rw [List.map_cons, List.map_cons, List.cons_append, List.cons_append, strLe] at h
    rw [List.foldl_cons, List.foldl_cons]
    split at h
    · rename_i hde
      have : d = e := by
        have := congrArg Char.toNat hde
        rw [digitChar_toNat h1.1, digitChar_toNat h2.1] at this
        omega
      subst this
      exact strLe_digits _ hl h1.2 h2.2 h
    · rw [digitChar_toNat h1.1, digitChar_toNat h2.1] at h
      simp only [decide_eq_true_eq] at h
      have b1 := (foldl_digits_bounds h1.2 (10 * n + d)).2
      have b2 := (foldl_digits_bounds h2.2 (10 * n + e)).1
      rw [hl] at b1
      have : (10 * n + d + 1) * 10 ^ es.length ≤ (10 * n + e) * 10 ^ es.length := Nat.mul_le_mul_right _ (by omega)
      omega

theorem version_le {s : Str} {a b : ℕ} (hl : (strNat a).length = (strNat b).length)
    (h : strLe (versionFile s a) (versionFile s b) = true) : a ≤ b := by
  rw [versionFile_eq, versionFile_eq, strLe_append, strLe, if_pos rfl, strLe, if_pos rfl] at h
  obtain ⟨d, ds, h1, h2, -, e1, e2⟩ := exists_strNat a
  obtain ⟨d', ds', h1', h2', -, e1', e2'⟩ := exists_strNat b
  rw [e1, e1'] at h hl
  rw [List.length_map, List.length_map] at hl
  rw [← e2, ← e2']
  exact strLe_digits 0 hl (by simpa using ⟨h1, h2⟩) (by simpa using ⟨h1', h2'⟩) h

theorem mem_insertStr (x y : Str) (l : List Str) : y ∈ insertStr x l ↔ y = x ∨ y ∈ l := by
  induction l with
  | nil => simp [insertStr]
  | cons z l ih =>
    rw [insertStr]
    split
    · simp
    · rw [List.mem_cons, ih, List.mem_cons]
      exact or_left_comm

theorem mem_sortStr (y : Str) (l : List Str) : y ∈ sortStr l ↔ y ∈ l := by
  induction l with
  | nil => exact Iff.rfl
  | cons x l ih =>
    show y ∈ insertStr x (sortStr l) ↔ _
    rw [mem_insertStr, ih, List.mem_cons]

theorem pairwise_insertStr (x : Str) {l : List Str} (h : l.Pairwise fun a b => strLe a b = true) :
    (insertStr x l).Pairwise fun a b => strLe a b = true := by
  induction l with
  | nil => simp [insertStr]
  | cons z l ih =>
    obtain ⟨h1, h2⟩ := List.pairwise_cons.1 h
    rw [insertStr]
    split
    · rename_i hxz
      refine List.pairwise_cons.2 ⟨fun y hy => ?_, h⟩
      rcases List.mem_cons.1 hy with rfl | hy
      · exact hxz
      · exact strLe_trans _ _ _ hxz (h1 y hy)
    · rename_i hxz
      refine List.pairwise_cons.2 ⟨fun y hy => ?_, ih h2⟩
      rcases (mem_insertStr x y l).1 hy with rfl | hy
      · have := strLe_total y z
        rw [Bool.or_eq_true] at this
        exact this.resolve_left hxz
      · exact h1 y hy

theorem pairwise_sortStr (l : List Str) : (sortStr l).Pairwise fun a b => strLe a b = true := by
  induction l with
  | nil => exact List.Pairwise.nil
  | cons x l ih => exact pairwise_insertStr x ih

theorem sort_last {l : List Str} {x : Str} (h : (sortStr l).getLast? = some x) : x ∈ l ∧ ∀ y ∈ l, strLe y x = true := by
  have hp := pairwise_sortStr l
  have hm : ∀ y, y ∈ sortStr l ↔ y ∈ l := fun y => mem_sortStr y l
  generalize sortStr l = m at *
  refine ⟨(hm x).1 (List.mem_of_getLast? h), fun y hy => ?_⟩
  obtain ⟨i, e⟩ := List.getLast?_eq_some_iff.1 h
  rw [e] at hp hm
  rcases List.mem_append.1 ((hm y).2 hy) with hi | hi
  · exact (List.pairwise_append.1 hp).2.2 y hi x (by simp)
  · simp at hi
    subst hi
    exact strLe_refl _

/-! ### Numbers in names -/

theorem digitsOk_digits {s : Str} (h : ∀ c ∈ s, isDigit c = true) (b : Bool) (hb : b = true ∨ s ≠ []) : digitsOk b s = true := by
  induction s generalizing b with
  | nil => simpa [digitsOk] using hb
  | cons c s ih =>
    rw [digitsOk, if_pos (h c List.mem_cons_self)]
    exact ih (fun x hx => h x (List.mem_cons_of_mem _ hx)) true (.inl rfl)

theorem natParser_strNat (n : ℕ) : natParser (strNat n) = .ok n := by
  have h := strNat_digits n
  rw [natParser, if_pos (digitsOk_digits h false (.inr (strNat_ne_nil n))), List.filter_eq_self.2 h]
  obtain ⟨d, ds, h1, h2, -, e1, e2⟩ := exists_strNat n
  rw [e1, digitsVal, digitsVal_map (by simpa using ⟨h1, h2⟩), e2]

theorem digit_not_space {c : Char} (h : isDigit c = true) : ¬ Space c := by
  simp only [isDigit, Bool.and_eq_true, decide_eq_true_eq] at h
  have h1 : 48 ≤ c.toNat := h.1
  have h2 : c.toNat ≤ 57 := h.2
  simp only [Space, spaceCodes, List.mem_cons, List.not_mem_nil, or_false]
  omega

theorem intParser_digits {s : Str} {n : ℕ} (h : ∀ c ∈ s, isDigit c = true) (hs : natParser s = .ok n) : intParser s = .ok (n : ℤ) := by
  have e : strip s = s := strip_eq_self (fun c hc => digit_not_space (h c (List.mem_of_head? hc)))
    (fun c hc => digit_not_space (h c (List.mem_of_getLast? hc)))
  rw [intParser, e]
  split
  · exact absurd (h '-' List.mem_cons_self) (by decide)
  · exact absurd (h '+' List.mem_cons_self) (by decide)
  · rw [hs]; rfl

theorem nextVersion_strNat (n : ℕ) : nextVersion (strNat n) = .ok ((n : ℤ) + 1) := by
  rw [nextVersion, if_neg (strNat_ne_nil n), intParser_digits (strNat_digits n) (natParser_strNat n)]
  rfl

/-! ### The name with extension and version -/

theorem occurs_cons (p : Str → Bool) (c : Char) (s : Str) : occurs p (c :: s) = (p (c :: s) || occurs p s) := by
  simp [occurs]

theorem occurs_append {p : Str → Bool} {s t : Str} (h : p t = true) : occurs p (s ++ t) = true := by
  induction s with
  | nil =>
    cases t with
    | nil => simp [occurs, h]
    | cons c t => rw [List.nil_append, occurs_cons, h]; rfl
  | cons c s ih => rw [List.cons_append, occurs_cons, ih]; simp

theorem not_occurs_pkl {s : Str} (hs : '.' ∉ s) : occurs atPkl s = false := by
  induction s with
  | nil => rfl
  | cons c s ih =>
    simp only [List.mem_cons, not_or] at hs
    rw [occurs_cons, ih hs.2, atPkl_head (Ne.symm hs.1)]
    rfl

theorem not_occurs_version {s : Str} (hs : '.' ∉ s) (hv : ¬ EndsVersion s) :
    occurs (fun t => (versionPkl t).isSome) (s ++ ".pkl".toList) = false := by
  induction s with
  | nil => rfl
  | cons c s ih =>
    simp only [List.mem_cons, not_or] at hs
    rw [List.cons_append, occurs_cons, ih hs.2 fun ⟨t, ds, e, h⟩ => hv ⟨c :: t, ds, by rw [e]; rfl, h⟩]
    simp only [Bool.or_false]
    by_contra hc
    rw [Bool.not_eq_false, Option.isSome_iff_exists] at hc
    obtain ⟨r', hr'⟩ := hc
    unfold versionPkl at hr'
    split at hr'
    · rename_i r e
      split at hr'
      · rename_i hcond
        cases s with
        | nil =>
          simp only [List.nil_append, List.cons.injEq] at e
          exact absurd (congrArg List.head? e.2) (by simp)
        | cons d x =>
          simp only [List.cons_append, List.cons.injEq] at e
          obtain ⟨rfl, rfl, rfl⟩ := e
          simp only [List.mem_cons, not_or] at hs
          -- all of `x` are digits
          have key : ∀ y : Str, '.' ∉ y → atPkl ((y ++ ".pkl".toList).dropWhile isDigit) = true → ∀ c ∈ y, isDigit c = true := by
            intro y
            induction y with
            | nil => intro _ _ c hc; cases hc
            | cons b y ih =>
              intro hy hp c hc
              simp only [List.mem_cons, not_or] at hy
              rw [List.cons_append, List.dropWhile_cons] at hp
              split at hp
              · rename_i hb
                rcases List.mem_cons.1 hc with rfl | hc
                · exact hb
                · exact ih hy.2 hp c hc
              · rw [atPkl_head (Ne.symm hy.1)] at hp
                cases hp
          have hx := key x hs.2.2 hcond.2
          refine hv ⟨[], x, rfl, ?_, hx⟩
          rintro rfl
          exact hcond.1 rfl
      · cases hr'
    · cases hr'

theorem normalName_names {s f : Str} (hs : '.' ∉ s) (h : Names s f) : ∃ k, normalName f = versionFile s k := by
  have hpkl : ¬ EndsVersion s → (if occurs (fun t => (versionPkl t).isSome) (s ++ ".pkl".toList) then s ++ ".pkl".toList
      else (s ++ ".pkl".toList).take ((s ++ ".pkl".toList).length - 4) ++ "_v1.pkl".toList) = versionFile s 1 := by
    intro hv
    rw [not_occurs_version hs hv]
    have : (s ++ ".pkl".toList).length - 4 = s.length := by simp
    rw [if_neg (by simp), this, List.take_left, versionFile, List.append_assoc, List.append_assoc]
    rfl
  cases h with
  | bare hv =>
    refine ⟨1, ?_⟩
    unfold normalName
    simp only [not_occurs_pkl hs, Bool.false_eq_true, if_false]
    exact hpkl hv
  | pkl hv =>
    refine ⟨1, ?_⟩
    have h1 : occurs atPkl (s ++ ".pkl".toList) = true := occurs_append rfl
    unfold normalName
    simp only [h1, if_true]
    exact hpkl hv
  | version n =>
    refine ⟨n, ?_⟩
    have h1 : occurs atPkl (versionFile s n) = true := by rw [versionFile]; exact occurs_append rfl
    have h2 : occurs (fun t => (versionPkl t).isSome) (versionFile s n) = true := by
      rw [versionFile_eq]
      exact occurs_append (by rw [versionPkl_version]; rfl)
    unfold normalName
    simp only [h1, h2, if_true]

/-! ### C69 -/

/-- The files of the directory named like the hashtable are versions of it, with `w` digits. -/
def Versions (s : Str) (w : ℕ) (files : List Str) : Prop :=
  ∀ f ∈ files, (s ++ ".pkl".toList <+: f ∨ s ++ "_v".toList <+: f) → ∃ n, f = versionFile s n ∧ (strNat n).length = w

/-- The directory part of a path as used by the program. -/
def dirOf (p : Str) : Str := if (Path.split p).1 = [] then ['.'] else (Path.split p).1

theorem old_versions {s : Str} {w : ℕ} {files : List Str} (hs : '.' ∉ s) (hv : Versions s w files) :
    (sortStr (files.filter (isVersion s))).getLast? = none ∧ (∀ n, versionFile s n ∉ files) ∨
    ∃ m, (sortStr (files.filter (isVersion s))).getLast? = some (versionFile s m) ∧ versionFile s m ∈ files ∧
      ∀ n, versionFile s n ∈ files → n ≤ m := by
  cases h : (sortStr (files.filter (isVersion s))).getLast? with
  | none =>
    refine .inl ⟨rfl, fun n hn => ?_⟩
    have h1 := List.getLast?_eq_none_iff.1 h
    have h2 : versionFile s n ∈ sortStr (files.filter (isVersion s)) :=
      (mem_sortStr _ _).2 (List.mem_filter.2 ⟨hn, isVersion_version s n⟩)
    rw [h1] at h2
    cases h2
  | some f =>
    right
    obtain ⟨h1, h2⟩ := sort_last h
    obtain ⟨hf, hfv⟩ := List.mem_filter.1 h1
    obtain ⟨m, rfl, hm⟩ := hv f hf (isVersion_iff hs hfv)
    refine ⟨m, rfl, hf, fun n hn => ?_⟩
    have hpre : s ++ "_v".toList <+: versionFile s n := ⟨strNat n ++ ".pkl".toList, by simp [versionFile]⟩
    obtain ⟨n', e, hn'⟩ := hv _ hn (.inr hpre)
    have hle := h2 _ (List.mem_filter.2 ⟨hn, isVersion_version s n⟩)
    rw [e] at hle
    have := version_le (hn'.trans hm.symm) hle
    have hnn : strNat n = strNat n' := by
      rw [versionFile, versionFile] at e
      exact List.append_cancel_left (List.append_cancel_right (by simpa only [List.append_assoc] using e) : s ++ "_v".toList ++ strNat n = s ++ "_v".toList ++ strNat n')
    have : n = n' := by
      have h1 := natParser_strNat n
      rw [hnn, natParser_strNat] at h1
      injection h1 with h1
      exact h1.symm
    omega

/-- **C69 (generate, partial).** For every hashtable name without dots and every directory in which the files of this hashtable
are versions with numbers of the same length: generate chooses a version higher than all existing ones, so a file that does not
exist.  Missing: numbers of different lengths and other files starting like versions, see `C69_versions_violated`. -/
theorem C69_generate_partial {listdir : Str → Except PyErr (List Str)} {p s : Str} {w : ℕ} {files : List Str} (hs : '.' ∉ s)
    (hne : (Path.split p).2 ≠ []) (hp : Names s (Path.split p).2) (hd : listdir (dirOf p) = .ok files) (hv : Versions s w files) :
    ∃ m, genFilename listdir (.str "generate".toList) (.str p) = .ok (.str (Path.join (dirOf p) (versionFile s m))) ∧
      versionFile s m ∉ files ∧ ∀ n, versionFile s n ∈ files → n < m := by
  obtain ⟨k, hk⟩ := normalName_names hs hp
  have e : ∀ m, chooseName files (.str "generate".toList) (versionFile s k) = .ok (versionFile s m) →
      genFilename listdir (.str "generate".toList) (.str p) = .ok (.str (Path.join (dirOf p) (versionFile s m))) := by
    intro m hm
    rw [genFilename]
    simp only [if_neg hne]
    rw [show (if (Path.split p).1 = [] then ['.'] else (Path.split p).1) = dirOf p from rfl, hd]
    simp only [hk, hm]
    rfl
  rcases old_versions hs hv with ⟨h, hno⟩ | ⟨m, h, hm, hmax⟩
  · refine ⟨k, e k ?_, hno k, fun n hn => absurd hn (hno n)⟩
    rw [chooseName, stripVersion_version k hs]
    simp only [h]
  · refine ⟨m + 1, e (m + 1) ?_, fun hmem => ?_, fun n hn => Nat.lt_succ_of_le (hmax n hn)⟩
    · rw [chooseName, stripVersion_version k hs]
      simp only [h]
      show (match findVersion (versionFile s m) with
        | .error e => Except.error e
        | .ok (base, v) => (nextVersion v).map fun n => base ++ "_v".toList ++ strInt n ++ ".pkl".toList) = _
      rw [findVersion_version m hs]
      simp only [nextVersion_strNat]
      show Except.ok (s ++ "_v".toList ++ strInt ((m : ℤ) + 1) ++ ".pkl".toList) = _
      rw [versionFile, strInt, if_neg (by omega), show ((m : ℤ) + 1).natAbs = m + 1 by omega]
    · have := hmax _ hmem
      omega

/-- **C69 (use and expand, partial).** In the same situation, if a version exists: use and expand choose the highest version.
Missing: as for `C69_generate_partial`. -/
theorem C69_use_partial {listdir : Str → Except PyErr (List Str)} {p s op : Str} {w : ℕ} {files : List Str} (hs : '.' ∉ s)
    (hop : op = "use".toList ∨ op = "expand".toList) (hne : (Path.split p).2 ≠ []) (hp : Names s (Path.split p).2)
    (hd : listdir (dirOf p) = .ok files) (hv : Versions s w files) (hex : ∃ n, versionFile s n ∈ files) :
    ∃ m, genFilename listdir (.str op) (.str p) = .ok (.str (Path.join (dirOf p) (versionFile s m))) ∧
      versionFile s m ∈ files ∧ ∀ n, versionFile s n ∈ files → n ≤ m := by
  obtain ⟨k, hk⟩ := normalName_names hs hp
  rcases old_versions hs hv with ⟨h, hno⟩ | ⟨m, h, hm, hmax⟩
  · obtain ⟨n, hn⟩ := hex
    exact absurd hn (hno n)
  · refine ⟨m, ?_, hm, hmax⟩
    have hc : chooseName files (.str op) (versionFile s k) = .ok (versionFile s m) := by
      rw [chooseName, stripVersion_version k hs]
      simp only [h]
      rcases hop with rfl | rfl <;> rfl
    rw [genFilename]
    simp only [if_neg hne]
    rw [show (if (Path.split p).1 = [] then ['.'] else (Path.split p).1) = dirOf p from rfl, hd]
    simp only [hk, hc]
    rfl

/-- A directory with two versions and other files. -/
def someFiles : List Str := ["main.py".toList, "h_v2.pkl".toList, "h2_v11.pkl".toList, "h_v1.pkl".toList]

theorem someFiles_versions : Versions ['h'] 1 someFiles := by
  intro f hf h
  simp only [someFiles, List.mem_cons, List.not_mem_nil, or_false] at hf
  have no : ∀ {x : Str}, ¬ ("h.pkl".toList.isPrefixOf x || "h_v".toList.isPrefixOf x) = true →
      ¬ (['h'] ++ ".pkl".toList <+: x ∨ ['h'] ++ "_v".toList <+: x) := by
    intro x hx hc
    apply hx
    rw [Bool.or_eq_true]
    exact hc.imp List.isPrefixOf_iff_prefix.2 List.isPrefixOf_iff_prefix.2
  rcases hf with rfl | rfl | rfl | rfl
  · exact absurd h (no (by decide))
  · exact ⟨2, by decide +kernel, by decide +kernel⟩
  · exact absurd h (no (by decide))
  · exact ⟨1, by decide +kernel, by decide +kernel⟩

theorem h_not_version : ¬ EndsVersion ['h'] := by
  rintro ⟨t, ds, e, -, -⟩
  have := congrArg List.length e
  simp at this
  omega

example : ∃ m, genFilename (fun _ => .ok someFiles) (.str "generate".toList) (.str "tables/h.pkl".toList) =
    .ok (.str (Path.join "tables".toList (versionFile ['h'] m))) ∧ versionFile ['h'] m ∉ someFiles ∧
    ∀ n, versionFile ['h'] n ∈ someFiles → n < m :=
  C69_generate_partial (listdir := fun _ => .ok someFiles) (p := "tables/h.pkl".toList) (s := ['h']) (w := 1) (by decide) (by decide)
    (show Names ['h'] (['h'] ++ ".pkl".toList) from .pkl h_not_version) rfl someFiles_versions

/-- The text of a str result. -/
def strResult : Except PyErr Json.Val → Option Str
  | .ok (.str s) => some s
  | _ => none

theorem of_strResult {x : Except PyErr Json.Val} {s : Str} (h : strResult x = some s) : x = .ok (.str s) := by
  unfold strResult at h
  split at h
  · injection h with h; rw [h]
  · cases h

/-- **C69 (violated).** With versions 9 and 10 in the directory, generate chooses version 10, which exists, and use chooses
version 9.  A copy `h_v1.pkl.bak` is taken for a version. -/
theorem C69_versions_violated :
    (genFilename (fun _ => .ok ["h_v9.pkl".toList, "h_v10.pkl".toList]) (.str "generate".toList) (.str "h.pkl".toList) =
      .ok (.str "./h_v10.pkl".toList)) ∧
    (genFilename (fun _ => .ok ["h_v9.pkl".toList, "h_v10.pkl".toList]) (.str "use".toList) (.str "h.pkl".toList) =
      .ok (.str "./h_v9.pkl".toList)) ∧
    (genFilename (fun _ => .ok ["h_v1.pkl".toList, "h_v1.pkl.bak".toList]) (.str "use".toList) (.str "h.pkl".toList) =
      .ok (.str "./h_v1.pkl.bak".toList)) :=
  ⟨of_strResult (by decide +kernel), of_strResult (by decide +kernel), of_strResult (by decide +kernel)⟩

end PiCF.Config
