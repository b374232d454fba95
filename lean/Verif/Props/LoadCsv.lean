import Verif.Model.LoadCsv
import Verif.Props.Process
import Verif.Props.Config
import Verif.Lemmas.Estimator
import Verif.Lemmas.Path
import Verif.Props.MitmBuild

/-!
# C94-C98: reading continued fractions from a CSV file, analysing them, starting the programs of a directory
-/

namespace PiCF.Process
open PiCF.Hashtable PiCF.ContFrac PiCF.Mitm PiCF.Json PiCF.EnumPoly PiCF.PyStr PiCF.Config PiCF.Spec

/-! ### C94: the polynomials of a row -/

theorem numAt_strInt (n : ℤ) {r : Str} (hr : NoDigit r) : numAt (strInt n ++ r) = some (n, r) := by
  obtain ⟨d, ds, h1, h2, -, e1, e2⟩ := exists_strNat n.natAbs
  have hall : ∀ x ∈ d :: ds, x < 10 := by simpa using ⟨h1, h2⟩
  have ht := takeWhile_append_digits hall hr
  have hv : digitsVal ((d :: ds).map digitChar) = n.natAbs := by rw [digitsVal, digitsVal_map hall, e2]
  unfold strInt
  split
  · show numAt ('-' :: (strNat n.natAbs ++ r)) = _
    rw [e1, numAt]
    rw [ht.1, ht.2, if_neg (by simp), hv]
    rw [show -(n.natAbs : ℤ) = n by omega]
  · rw [e1]
    have hne : ∀ s, (d :: ds).map digitChar ++ r ≠ '-' :: s := by
      intro s hs
      simp only [List.map_cons, List.cons_append, List.cons.injEq] at hs
      have := (digitChar_facts h1).1
      rw [hs.1] at this
      exact absurd this (by decide)
    unfold numAt
    split
    · rename_i s hs
      exact absurd hs (hne s)
    · rw [ht.1, ht.2, if_neg (by simp), hv]
      rw [show (n.natAbs : ℤ) = n by omega]

/-- The text after the first coefficient. -/
def tailText : List ℤ → Str
  | [] => [']']
  | n :: p => ',' :: ' ' :: strInt n ++ tailText p

/-- The text of a list of coefficients. -/
def polyText : List ℤ → Str
  | [] => "[]".toList
  | n :: p => '[' :: strInt n ++ tailText p

/-- The text after the first polynomial. -/
def polysTail : Polys → Str
  | [] => [']']
  | p :: ps => ',' :: ' ' :: polyText p ++ polysTail ps

/-- The text of a list of lists. -/
def polysText : Polys → Str
  | [] => "[]".toList
  | p :: ps => '[' :: polyText p ++ polysTail ps

theorem strTail_ints (p : List ℤ) : strTail ']' (p.map Nest.int) = tailText p := by
  induction p with
  | nil => rfl
  | cons n p ih => rw [List.map_cons, strTail, ih, tailText]; rfl

theorem str_poly (p : List ℤ) : (Nest.list (p.map .int)).str = polyText p := by
  cases p with
  | nil => rfl
  | cons n p => rw [List.map_cons, Nest.str, strTail_ints, polyText]; rfl

theorem strTail_polys (ps : Polys) : strTail ']' (ps.map fun p => Nest.list (p.map .int)) = polysTail ps := by
  induction ps with
  | nil => rfl
  | cons p ps ih => rw [List.map_cons, strTail, ih, str_poly, polysTail]

theorem str_polys (ps : Polys) : (Nest.list (ps.map fun p => .list (p.map .int))).str = polysText ps := by
  cases ps with
  | nil => rfl
  | cons p ps => rw [List.map_cons, Nest.str, strTail_polys, str_poly, polysText]

theorem strInt_head (n : ℤ) (r : Str) : optSpace (' ' :: (strInt n ++ r)) = strInt n ++ r := rfl

theorem tailText_noDigit (p : List ℤ) (r : Str) : NoDigit (tailText p ++ r) := by
  cases p <;> · intro c hc; cases hc; decide

theorem tripleAt_poly (x y z : ℤ) (r : Str) : tripleAt (polyText [x, y, z] ++ r) = some ([x, y, z], r) := by
  have h0 : polyText [x, y, z] ++ r = '[' :: (strInt x ++ (tailText [y, z] ++ r)) := by simp [polyText]
  have h1 : tailText [y, z] ++ r = ',' :: ' ' :: (strInt y ++ (tailText [z] ++ r)) := by simp [tailText]
  have h2 : tailText [z] ++ r = ',' :: ' ' :: (strInt z ++ (']' :: r)) := by simp [tailText]
  rw [h0, tripleAt]
  rw [numAt_strInt x (tailText_noDigit _ _), h1]
  simp only
  rw [strInt_head, numAt_strInt y (tailText_noDigit _ _), h2]
  simp only
  rw [strInt_head, numAt_strInt z (show NoDigit (']' :: r) from tailText_noDigit [] r)]
  rfl

theorem tripleAt_other {p : List ℤ} (hp : p.length ≠ 3) (r : Str) : tripleAt (polyText p ++ r) = none := by
  match p with
  | [] => rfl
  | x :: p =>
    have h0 : polyText (x :: p) ++ r = '[' :: (strInt x ++ (tailText p ++ r)) := by simp [polyText]
    rw [h0, tripleAt]
    rw [numAt_strInt x (tailText_noDigit _ _)]
    match p with
    | [] => rfl
    | y :: p =>
      have h1 : tailText (y :: p) ++ r = ',' :: ' ' :: (strInt y ++ (tailText p ++ r)) := by simp [tailText]
      rw [h1]
      simp only
      rw [strInt_head, numAt_strInt y (tailText_noDigit _ _)]
      match p with
      | [] => rfl
      | z :: p =>
        have h2 : tailText (z :: p) ++ r = ',' :: ' ' :: (strInt z ++ (tailText p ++ r)) := by simp [tailText]
        rw [h2]
        simp only
        rw [strInt_head, numAt_strInt z (tailText_noDigit _ _)]
        match p with
        | [] => exact absurd rfl hp
        | w :: p => rfl

theorem tripleAt_not {c : Char} (h : c ≠ '[') (s : Str) : tripleAt (c :: s) = none := by
  unfold tripleAt
  split
  · rename_i e
    simp only [List.cons.injEq] at e
    exact absurd e.1 h
  · rfl

theorem findTriples_not {x : Str} (h : '[' ∉ x) (s : Str) : findTriples 0 (x ++ s) = findTriples 0 s := by
  induction x with
  | nil => rfl
  | cons c x ih =>
    rw [List.mem_cons, not_or] at h
    rw [List.cons_append, findTriples, tripleAt_not fun e => h.1 e.symm]
    exact ih h.2

theorem findTriples_skip (x s : Str) : findTriples x.length (x ++ s) = findTriples 0 s := by
  induction x with
  | nil => rfl
  | cons c x ih => rw [List.length_cons, List.cons_append, findTriples, ih]

theorem strInt_noBracket (n : ℤ) : '[' ∉ strInt n := by
  have hd : ∀ m : ℕ, '[' ∉ strNat m := by
    intro m hc
    obtain ⟨d, ds, h1, h2, -, e, -⟩ := exists_strNat m
    rw [e] at hc
    obtain ⟨x, hx, e⟩ := List.mem_map.1 hc
    have hx : x < 10 := by
      rcases List.mem_cons.1 hx with rfl | hx
      · exact h1
      · exact h2 x hx
    interval_cases x <;> exact absurd e (by decide)
  unfold strInt
  split
  · simp [hd]
  · exact hd _

theorem tailText_noBracket (p : List ℤ) : '[' ∉ tailText p := by
  induction p with
  | nil => decide
  | cons n p ih => simp [tailText, strInt_noBracket, ih]

/-- The text of a polynomial yields the polynomial if it has three coefficients and nothing otherwise. -/
theorem findTriples_poly (p : List ℤ) (s : Str) :
    findTriples 0 (polyText p ++ s) = (if p.length = 3 then [p] else []) ++ findTriples 0 s := by
  obtain ⟨t, ht, hb⟩ : ∃ t, polyText p = '[' :: t ∧ '[' ∉ t := by
    cases p with
    | nil => exact ⟨[']'], rfl, by decide⟩
    | cons n p => exact ⟨strInt n ++ tailText p, rfl, by simp [strInt_noBracket, tailText_noBracket]⟩
  by_cases h : p.length = 3
  · rw [if_pos h]
    obtain ⟨x, y, z, rfl⟩ := List.length_eq_three.1 h
    have e := tripleAt_poly x y z s
    rw [ht] at e ⊢
    rw [List.cons_append] at e ⊢
    rw [findTriples, e]
    show _ :: findTriples ((t ++ s).length - s.length) (t ++ s) = _
    rw [List.length_append, Nat.add_sub_cancel, findTriples_skip]
    rfl
  · rw [if_neg h]
    have e := tripleAt_other h s
    rw [ht] at e ⊢
    rw [List.cons_append] at e ⊢
    rw [findTriples, e]
    exact findTriples_not hb s

theorem findTriples_tail (ps : Polys) : findTriples 0 (polysTail ps) = ps.filter fun p => p.length = 3 := by
  induction ps with
  | nil => rfl
  | cons p ps ih =>
    have : polysTail (p :: ps) = [',', ' '] ++ (polyText p ++ polysTail ps) := by simp [polysTail]
    rw [this, findTriples_not (by decide), findTriples_poly, ih, List.filter_cons]
    by_cases h : p.length = 3 <;> simp [h]

theorem findTriples_polys (ps : Polys) : findTriples 0 (polysText ps) = ps.filter fun p => p.length = 3 := by
  cases ps with
  | nil => rfl
  | cons p ps =>
    have e : polysText (p :: ps) = '[' :: (polyText p ++ polysTail ps) := rfl
    have hn : tripleAt ('[' :: (polyText p ++ polysTail ps)) = none := by
      obtain ⟨t, ht⟩ : ∃ t, polyText p = '[' :: t := by cases p <;> exact ⟨_, rfl⟩
      rw [ht]
      rfl
    rw [e, findTriples, hn]
    simp only
    rw [findTriples_poly, findTriples_tail, List.filter_cons]
    by_cases h : p.length = 3 <;> simp [h]

/-- **C94 (partial).** The polynomials read from the text of a list of lists are exactly those with three coefficients, in order;
so a list of such polynomials is read back.  Missing: polynomials of other degrees (below). -/
theorem C94_polys_partial (ps : List (List ℤ)) :
    findTriples 0 (Nest.list (ps.map fun p => .list (p.map .int))).str = ps.filter (fun p => p.length = 3) ∧
    ((∀ p ∈ ps, p.length = 3) → findTriples 0 (Nest.list (ps.map fun p => .list (p.map .int))).str = ps) := by
  rw [str_polys, findTriples_polys]
  exact ⟨rfl, fun h => List.filter_eq_self.2 fun p hp => by simpa using h p hp⟩

/-- **C94 (violated).** Polynomials of another degree are left out silently: a row describing the continued fraction with the
interlaced polynomials `1 + 2i + 3i²` and `4 + 5i` is loaded as one with the first polynomial only. -/
theorem C94_polys_violated (compiles : Str → Bool) (hc : compiles "x".toList = true) :
    loadContFracs compiles [["[[1, 2, 3], [4, 5]]".toList, "[[1, 2, 3]]".toList, "x".toList, "pi".toList]] =
      .ok [⟨[[1, 2, 3]], [[1, 2, 3]], "x".toList, .pi⟩] := by
  have h1 : findTriples 0 "[[1, 2, 3], [4, 5]]".toList = [[1, 2, 3]] := by decide +kernel
  have h2 : findTriples 0 "[[1, 2, 3]]".toList = [[1, 2, 3]] := by decide +kernel
  have h3 : strip "x".toList = "x".toList := by decide +kernel
  have h4 : targetX "pi".toList = some .pi := by decide +kernel
  have h5 : formulaMatch "x".toList = true := by decide +kernel
  simp only [loadContFracs, loadRow, List.getElem?_cons_zero, List.getElem?_cons_succ, h1, h2, h3, h4, h5, hc]
  rfl

/-- A row with the tuples `MITM.export_to_csv` writes is never read: there is no bracket in it. -/
theorem C94_tuples_violated (compiles : Str → Bool) (ps : List (List ℤ)) (row : List Str) :
    loadRow compiles ((Nest.tuple (ps.map fun p => .tuple (p.map .int))).str :: row) = .ok none := by
  have tail : ∀ l : List Nest, (∀ v ∈ l, '[' ∉ v.str) → '[' ∉ strTail ')' l := by
    intro l
    induction l with
    | nil => intro _; rw [strTail]; decide
    | cons v l ih =>
      intro h
      rw [strTail]
      simp [h v List.mem_cons_self, ih fun w hw => h w (List.mem_cons_of_mem _ hw)]
  have tuple : ∀ l : List Nest, (∀ v ∈ l, '[' ∉ v.str) → '[' ∉ (Nest.tuple l).str := by
    intro l h
    match l with
    | [] => rw [Nest.str]; decide
    | [v] => rw [Nest.str]; simp [h v]
    | v :: w :: l =>
      rw [Nest.str]
      simp [h v, h w, tail l fun u hu => h u (by simp [hu])]
  have hno : '[' ∉ (Nest.tuple (ps.map fun p => .tuple (p.map .int))).str := by
    refine tuple _ fun v hv => ?_
    obtain ⟨p, -, rfl⟩ := List.mem_map.1 hv
    refine tuple _ fun v hv => ?_
    obtain ⟨n, -, rfl⟩ := List.mem_map.1 hv
    rw [Nest.str]
    exact strInt_noBracket n
  have : findTriples 0 (Nest.tuple (ps.map fun p => .tuple (p.map .int))).str = [] := by
    rw [← List.append_nil (Nest.str _), findTriples_not hno]
    rfl
  rw [loadRow]
  simp [this]

example : (Nest.list ([[1, 2, 3], [4, 5]].map fun p => .list (p.map .int))).str = "[[1, 2, 3], [4, 5]]".toList := by decide +kernel
example : (Nest.tuple ([[1, 2, 3], [4, 5]].map fun p => .tuple (p.map .int))).str = "((1, 2, 3), (4, 5))".toList := by decide +kernel
example : ∀ p ∈ [[1, 2, 3], [-4, 0, 12]], p.length = 3 := by decide

/-! ### C95: the rows of a file -/

/-- The point and the digits after it. -/
def fracText : Option Str → Str
  | none => []
  | some f => '.' :: f

/-- A decimal number: digits, perhaps a sign before and a point and digits after them. -/
def DecimalText (u : Str) : Prop := ∃ (neg : Bool) (ds : Str) (fs : Option Str), ds ≠ [] ∧ (∀ c ∈ ds, c ∈ "0123456789".toList) ∧
  (∀ f ∈ fs, f ≠ [] ∧ ∀ c ∈ f, c ∈ "0123456789".toList) ∧
  u = (if neg then ['-'] else []) ++ ds ++ fracText fs

example : DecimalText "-12.50".toList := ⟨true, "12".toList, some "50".toList, by decide, by decide, by decide, by decide⟩

/-- A row as the program expects it: two non-empty lists of polynomials with three coefficients, a formula that python accepts,
and `pi`, `e` (in any case) or a decimal number; more cells may follow. -/
structure GoodRow (compiles : Str → Bool) (row : List Str) (l : Loaded) : Prop where
  cells : ∃ cf cx rest, row = (Nest.list (l.a.map fun p => .list (p.map .int))).str ::
    (Nest.list (l.b.map fun p => .list (p.map .int))).str :: cf :: cx :: rest ∧ Trimmed cf l.formula ∧
    ∃ t u, Trimmed cx t ∧ Lowered t u ∧ ((u = "pi".toList ∧ l.x = .pi) ∨ (u = "e".toList ∧ l.x = .e) ∨
      (DecimalText u ∧ l.x = .num u))
  a_ne : l.a ≠ []
  b_ne : l.b ≠ []
  a_deg : ∀ p ∈ l.a, p.length = 3
  b_deg : ∀ p ∈ l.b, p.length = 3
  start : ∃ c r, l.formula = c :: r ∧ c ∈ "0123456789+-*/x ()".toList
  accepted : compiles l.formula = true

theorem formulaChar_iff (c : Char) : formulaChar c = true ↔ c ∈ "0123456789+-*/x ()".toList := by
  constructor
  · intro h
    rw [formulaChar, Bool.or_eq_true] at h
    rcases h with h | h
    · have h' : '0' ≤ c ∧ c ≤ '9' := by simpa [isDigit] using h
      have h1 : 48 ≤ c.toNat := h'.1
      have h2 : c.toNat ≤ 57 := h'.2
      have hc : c = Char.ofNat c.toNat := (Char.ofNat_toNat c).symm
      rw [hc]
      interval_cases c.toNat <;> decide
    · have h' : c ∈ "+-*/x ()".toList := of_decide_eq_true h
      have : ∀ d ∈ "+-*/x ()".toList, d ∈ "0123456789+-*/x ()".toList := by decide
      exact this c h'
  · intro h
    have : ∀ d ∈ "0123456789+-*/x ()".toList, formulaChar d = true := by decide
    exact this c h

theorem isDigit_iff (c : Char) : isDigit c = true ↔ c ∈ "0123456789".toList := by
  constructor
  · intro h
    have h' : '0' ≤ c ∧ c ≤ '9' := by simpa [isDigit] using h
    have h1 : 48 ≤ c.toNat := h'.1
    have h2 : c.toNat ≤ 57 := h'.2
    have hc : c = Char.ofNat c.toNat := (Char.ofNat_toNat c).symm
    rw [hc]
    interval_cases c.toNat <;> decide
  · intro h
    have : ∀ d ∈ "0123456789".toList, isDigit d = true := by decide
    exact this c h

theorem isDecimalText_of {u : Str} (h : DecimalText u) : isDecimalText u = true ∧ u ≠ "pi".toList ∧ u ≠ "e".toList := by
  obtain ⟨neg, ds, fs, h1, h2, h3, rfl⟩ := h
  have hds : ∀ c ∈ ds, isDigit c = true := fun c hc => (isDigit_iff c).2 (h2 c hc)
  have hfs : ∀ f ∈ fs, f ≠ [] ∧ ∀ c ∈ f, isDigit c = true := fun f hf => ⟨(h3 f hf).1, fun c hc => (isDigit_iff c).2 ((h3 f hf).2 c hc)⟩
  obtain ⟨d, ds', rfl⟩ := List.exists_cons_of_ne_nil h1
  have hd := hds d List.mem_cons_self
  have hne : ∀ c : Char, isDigit c = false → d ≠ c := by
    rintro c hc rfl
    rw [hd] at hc
    cases hc
  have htail : ∀ x ∈ (fracText fs).head?, isDigit x = false := by
    intro x hx
    cases fs with
    | none => cases hx
    | some f => cases hx; decide
  generalize ht : fracText fs = tl at htail ⊢
  have hT : (d :: ds' ++ tl).takeWhile isDigit = d :: ds' := by
    rw [List.takeWhile_append_of_pos hds]
    cases tl with
    | nil => simp
    | cons x tl => simp [htail x rfl]
  have hD : (d :: ds' ++ tl).dropWhile isDigit = tl := by
    rw [List.dropWhile_append_of_pos hds]
    cases tl with
    | nil => rfl
    | cons x tl => simp [htail x rfl]
  have hnum : ∃ n, numAt ((if neg then ['-'] else []) ++ (d :: ds') ++ tl) = some (n, tl) := by
    cases neg
    · refine ⟨(digitsVal (d :: ds') : ℤ), ?_⟩
      show numAt (d :: ds' ++ tl) = _
      unfold numAt
      split
      · rename_i r e
        simp only [List.cons_append, List.cons.injEq] at e
        exact absurd e.1 (hne _ (by decide))
      · rw [hT, hD, if_neg (by simp)]
    · refine ⟨-(digitsVal (d :: ds') : ℤ), ?_⟩
      show numAt ('-' :: (d :: ds' ++ tl)) = _
      rw [numAt]
      rw [hT, hD, if_neg (by simp)]
  refine ⟨?_, ?_, ?_⟩
  · obtain ⟨n, hn⟩ := hnum
    rw [isDecimalText, hn]
    cases fs with
    | none => subst ht; rfl
    | some f =>
      subst ht
      have := hfs f rfl
      simpa [fracText] using this
  · cases neg
    · intro e
      have e : d = 'p' := by simpa using congrArg List.head? e
      exact hne _ (by decide) e
    · intro e
      have e : '-' = 'p' := by simpa using congrArg List.head? e
      exact absurd e (by decide)
  · cases neg
    · intro e
      have e : d = 'e' := by simpa using congrArg List.head? e
      exact hne _ (by decide) e
    · intro e
      have e : '-' = 'e' := by simpa using congrArg List.head? e
      exact absurd e (by decide)

theorem loadRow_good {compiles : Str → Bool} {row : List Str} {l : Loaded} (h : GoodRow compiles row l) :
    loadRow compiles row = .ok (some l) := by
  obtain ⟨cf, cx, rest, rfl, hf, t, u, ht, hu, hx⟩ := h.cells
  have ea := (C94_polys_partial l.a).2 h.a_deg
  have eb := (C94_polys_partial l.b).2 h.b_deg
  have ef : strip cf = l.formula := (strip_of_trimmed hf).symm
  obtain ⟨c, r, e1, e2⟩ := h.start
  have em : formulaMatch l.formula = true := by rw [e1]; exact (formulaChar_iff c).2 e2
  have ex : targetX cx = some l.x := by
    rw [targetX, ← strip_of_trimmed ht, ← lowered_unique hu]
    rcases hx with ⟨rfl, e⟩ | ⟨rfl, e⟩ | ⟨hd, e⟩
    · rw [e]; decide +kernel
    · rw [e]; decide +kernel
    · obtain ⟨h1, h2, h3⟩ := isDecimalText_of hd
      rw [if_neg h2, if_neg h3, if_pos h1, e]
  rw [loadRow]
  simp [ea, eb, ef, em, ex, h.a_ne, h.b_ne, h.accepted]

theorem loadRow_total (compiles : Str → Bool) {row : List Str} (h : 4 ≤ row.length) : ∃ r, loadRow compiles row = .ok r := by
  match row, h with
  | ca :: cb :: cf :: cx :: rest, _ =>
    rw [loadRow]
    simp only [List.getElem?_cons_zero, List.getElem?_cons_succ]
    split
    · exact ⟨_, rfl⟩
    · split
      · exact ⟨_, rfl⟩
      · split
        · exact ⟨_, rfl⟩
        · split
          · exact ⟨_, rfl⟩
          · split <;> exact ⟨_, rfl⟩

theorem load_total (compiles : Str → Bool) {rows : List (List Str)} (h : ∀ row ∈ rows, 4 ≤ row.length) :
    ∃ ls, loadContFracs compiles rows = .ok ls ∧ ls.length ≤ rows.length := by
  induction rows with
  | nil => exact ⟨[], rfl, le_rfl⟩
  | cons row rows ih =>
    obtain ⟨r, hr⟩ := loadRow_total compiles (h row List.mem_cons_self)
    obtain ⟨ls, hl, hn⟩ := ih fun w hw => h w (List.mem_cons_of_mem _ hw)
    rw [loadContFracs, hr]
    simp only
    rw [hl]
    refine ⟨_, rfl, ?_⟩
    cases r <;> simp <;> omega

theorem load_append (compiles : Str → Bool) {r1 r2 : List (List Str)} {l1 : List Loaded} (h1 : loadContFracs compiles r1 = .ok l1) :
    loadContFracs compiles (r1 ++ r2) = (loadContFracs compiles r2).map (l1 ++ ·) := by
  induction r1 generalizing l1 with
  | nil =>
    cases h1
    cases h : loadContFracs compiles r2 <;> simp [h, Except.map]
  | cons row r1 ih =>
    rw [loadContFracs] at h1
    cases hr : loadRow compiles row with
    | error e => rw [hr] at h1; cases h1
    | ok r =>
      rw [hr] at h1
      simp only at h1
      cases hl : loadContFracs compiles r1 with
      | error e => rw [hl] at h1; cases h1
      | ok l =>
        rw [hl] at h1
        cases h1
        rw [List.cons_append, loadContFracs, hr]
        simp only
        rw [ih hl]
        cases loadContFracs compiles r2 <;> simp [Except.map]

/-- **C95 (partial).** Rows of at least four cells never stop the loading, whatever is in them; every good row among them is
loaded, at its place, exactly as written; a file of good rows only is loaded completely. -/
theorem C95_rows_partial (compiles : Str → Bool) :
    (∀ rows : List (List Str), (∀ row ∈ rows, 4 ≤ row.length) →
      ∃ ls, loadContFracs compiles rows = .ok ls ∧ ls.length ≤ rows.length ∧
        ∀ r1 row r2 l, rows = r1 ++ row :: r2 → GoodRow compiles row l →
          ∃ l1 l2, loadContFracs compiles r1 = .ok l1 ∧ loadContFracs compiles r2 = .ok l2 ∧ ls = l1 ++ l :: l2) ∧
    (∀ (rows : List (List Str)) (ls : List Loaded), List.Forall₂ (GoodRow compiles) rows ls → loadContFracs compiles rows = .ok ls) := by
  constructor
  · intro rows h
    obtain ⟨ls, hl, hn⟩ := load_total compiles h
    refine ⟨ls, hl, hn, ?_⟩
    rintro r1 row r2 l rfl hg
    obtain ⟨l1, h1, -⟩ := load_total compiles (rows := r1) fun w hw => h w (by simp [hw])
    obtain ⟨l2, h2, -⟩ := load_total compiles (rows := r2) fun w hw => h w (by simp [hw])
    refine ⟨l1, l2, h1, h2, ?_⟩
    rw [load_append compiles h1, loadContFracs, loadRow_good hg] at hl
    simp only at hl
    rw [h2] at hl
    cases hl
    rfl
  · intro rows ls h
    induction h with
    | nil => rfl
    | cons hg _ ih =>
      rw [loadContFracs, loadRow_good hg]
      simp only
      rw [ih]
      rfl

/-- **C95 (violated).** A blank line anywhere in the file stops the loading with an IndexError; nothing is returned, although
all other rows are good. -/
theorem C95_rows_violated (compiles : Str → Bool) (r1 r2 : List (List Str)) (h : ∀ row ∈ r1, 4 ≤ row.length) :
    loadContFracs compiles (r1 ++ [] :: r2) = .error .indexError := by
  obtain ⟨l1, h1, -⟩ := load_total compiles h
  rw [load_append compiles h1]
  rfl

/-- A good row: `[[1, 2, 3]]`, `[[0, -1, 0], [4, 5, 6]]`, ` 4/x`, `Pi `. -/
theorem exGoodRow : GoodRow (fun _ => true) ["[[1, 2, 3]]".toList, "[[0, -1, 0], [4, 5, 6]]".toList, " 4/x".toList, "Pi ".toList]
    ⟨[[1, 2, 3]], [[0, -1, 0], [4, 5, 6]], "4/x".toList, .pi⟩ where
  cells := by
    refine ⟨" 4/x".toList, "Pi ".toList, [], ?_, ?_, ?_⟩
    · decide +kernel
    · have := strip_trimmed " 4/x".toList
      rwa [show strip " 4/x".toList = "4/x".toList by decide +kernel] at this
    · have := strip_trimmed "Pi ".toList
      rw [show strip "Pi ".toList = "Pi".toList by decide +kernel] at this
      refine ⟨_, _, this, lower_lowered _, .inl ⟨by decide +kernel, rfl⟩⟩
  a_ne := by decide
  b_ne := by decide
  a_deg := by decide
  b_deg := by decide
  start := ⟨'4', "/x".toList, by decide, by decide⟩
  accepted := rfl

example : ∃ rows : List (List Str), ∃ ls, List.Forall₂ (GoodRow fun _ => true) rows ls ∧ 2 ≤ rows.length :=
  ⟨_, _, .cons exGoodRow (.cons exGoodRow .nil), by decide⟩

/-! ### C96: the formula of a row -/

/-- **C96 (partial).** A formula is only accepted if python compiles it and its first character is a digit, an operator, `x`,
a space or a parenthesis; it is the text of the cell without white space around it.  Missing: the other characters (below). -/
theorem C96_formula_partial {compiles : Str → Bool} {row : List Str} {l : Loaded} (h : loadRow compiles row = .ok (some l)) :
    (∃ cf, row[2]? = some cf ∧ Trimmed cf l.formula) ∧ compiles l.formula = true ∧
      ∃ c r, l.formula = c :: r ∧ c ∈ "0123456789+-*/x ()".toList := by
  rw [loadRow] at h
  match row with
  | [] => cases h
  | [ca] => simp at h; split at h <;> cases h
  | [ca, cb] => simp at h; split at h <;> [cases h; split at h <;> cases h]
  | ca :: cb :: cf :: rest =>
    simp only [List.getElem?_cons_zero, List.getElem?_cons_succ] at h
    split at h
    · cases h
    · split at h
      · cases h
      · split at h
        · cases h
        · split at h
          · cases h
          · rename_i hm hc
            have key : l.formula = strip cf := by
              split at h
              · cases h
              · split at h
                · cases h
                · cases h; rfl
            rw [key]
            refine ⟨⟨cf, rfl, strip_trimmed cf⟩, by simpa using hc, ?_⟩
            have hm : formulaMatch (strip cf) = true := by simpa using hm
            cases hs : strip cf with
            | nil => rw [hs] at hm; cases hm
            | cons c r => rw [hs] at hm; exact ⟨c, r, rfl, (formulaChar_iff c).1 hm⟩

/-- **C96 (violated).** Only the first character is checked: whatever expression `t` (with no white space around it) python
compiles after `0 or `, such as a call of `os.system`, is accepted and will be evaluated with the formula. -/
theorem C96_formula_violated (compiles : Str → Bool) (t : Str) (h1 : t ≠ []) (h2 : ∀ c ∈ t.getLast?, ¬ Space c)
    (hc : compiles ("0 or ".toList ++ t) = true) :
    loadContFracs compiles [["[[1, 2, 3]]".toList, "[[1, 2, 3]]".toList, "0 or ".toList ++ t, "pi".toList]] =
      .ok [⟨[[1, 2, 3]], [[1, 2, 3]], "0 or ".toList ++ t, .pi⟩] := by
  have e1 : findTriples 0 "[[1, 2, 3]]".toList = [[1, 2, 3]] := by decide +kernel
  have e3 : strip ("0 or ".toList ++ t) = "0 or ".toList ++ t := by
    refine strip_eq_self ?_ ?_
    · intro c hc
      have : c = '0' := by simpa [eq_comm] using hc
      subst this
      unfold Space
      decide
    · intro c hc
      rw [List.getLast?_append_of_ne_nil _ h1] at hc
      exact h2 c hc
  have e4 : targetX "pi".toList = some .pi := by decide +kernel
  have e5 : formulaMatch ("0 or ".toList ++ t) = true := by
    show formulaChar '0' = true
    decide
  simp only [loadContFracs, loadRow, List.getElem?_cons_zero, List.getElem?_cons_succ, e1, e3, e4, e5, hc]
  rfl

example : "__import__('os').system('rm x')".toList ≠ [] ∧ ∀ c ∈ "__import__('os').system('rm x')".toList.getLast?, ¬ Space c := by
  constructor
  · decide
  · intro c hc
    have : c = ')' := by simpa [eq_comm] using hc
    subst this
    unfold Space
    decide

/-! ### C97: analysing the loaded continued fractions -/

theorem frame_liftE {α : Type} (r : Except PyErr α) : Frame (liftE r) := fun s => ⟨s.logs, s.mats, s.executed, rfl⟩

theorem frame_errorsLoop (t : Num) (k : ℕ) : ∀ i, Frame (errorsLoop t k i) := by
  induction k with
  | zero => intro i; exact frame_pure _
  | succ k ih =>
    intro i
    exact frame_bind (frame_add _ _) fun _ => frame_bind frame_get fun _ => frame_bind (ih _) fun _ => frame_pure _

theorem frame_errors (t : Num) (n : ℕ) : Frame (buildErrors t n) :=
  frame_bind (frame_gen _ _) fun _ => frame_bind (frame_errorsLoop _ _ _) fun _ => frame_bind (frame_gen _ _) fun _ => frame_pure _

theorem frame_fastLoop (step : ℤ) (k : ℕ) : Frame (fastLoop step k) := by
  induction k with
  | zero => exact frame_pure _
  | succ k ih =>
    refine frame_bind frame_get fun _ => frame_bind (frame_add _ _) fun _ => frame_bind frame_get fun _ =>
      frame_bind (frame_add _ _) fun _ => frame_bind frame_get fun _ => frame_bind (frame_add _ _) fun _ =>
      frame_bind frame_get fun _ => frame_bind (frame_add _ _) fun _ => frame_bind frame_get fun _ =>
      frame_bind (frame_add _ _) fun _ => frame_bind frame_get fun _ => ?_
    simp only
    split
    · exact frame_pure _
    · exact frame_bind (frame_add _ _) fun _ => ih

theorem frame_fast (iters cutoff step : ℤ) : Frame (isConvergenceFast iters cutoff step) := by
  refine frame_bind (frame_gen _ _) fun _ => frame_bind ?_ fun _ => frame_bind (frame_gen _ _) fun _ => frame_pure _
  unfold fastFor
  split
  · exact frame_raise _
  · exact frame_fastLoop _ _

theorem analyzeObj_ok {E : AnalyzeEnv} {i : ℕ} {t : Num} {s : CF} {f : Bool} {c : Conv} (h : (analyzeObj E i t s).2 = .ok (f, c)) :
    (isConvergenceFast 600 200 50 s).2 = .ok f ∧
      ∃ s', estimateApproachObj E.analysis 600 200 50 s = (s', .ok ()) ∧ (s'.approachType, s'.approachParams) = c := by
  rcases hs : analyzeObj E i t s with ⟨sf, r⟩
  rw [hs] at h
  subst h
  rw [analyzeObj] at hs
  obtain ⟨errs, s1, h1, hs⟩ := bind_ok_inv hs
  obtain ⟨_, s2, h2, hs⟩ := bind_ok_inv hs
  obtain ⟨_, s3, h3, hs⟩ := bind_ok_inv hs
  obtain ⟨f', s4, h4, hs⟩ := bind_ok_inv hs
  obtain ⟨_, s5, h5, hs⟩ := bind_ok_inv hs
  obtain ⟨s6, s7, h6, hs⟩ := bind_ok_inv hs
  have e6 : s6 = s5 ∧ s7 = s5 := by cases h6; exact ⟨rfl, rfl⟩
  have es : (f', (s6.approachType, s6.approachParams)) = (f, c) := by cases hs; rfl
  have e2 : s2 = s1 := (congrArg Prod.fst h2).symm
  have e3 : s3 = s2 := (congrArg Prod.fst h3).symm
  obtain ⟨lg, ms, n, hf⟩ := frame_errors t 2000 s
  rw [h1] at hf
  simp only at hf
  subst e3 e2 hf
  have hfast : isConvergenceFast 600 200 50 s = (s4, .ok f') := h4
  obtain ⟨lg', ms', n', hf'⟩ := frame_fast 600 200 50 s
  rw [hfast] at hf'
  simp only at hf'
  subst hf'
  refine ⟨?_, s5, h5, ?_⟩
  · rw [hfast]; exact congrArg Except.ok (Prod.mk.inj es).1
  · rw [← e6.1]; exact (Prod.mk.inj es).2

/-- **C97 (partial).** If the analysis of a file of the type 'cont_frac' ends, it has one answer for each loaded row, in the
order of the rows: what `is_convergence_fast` and `estimate_approach_type_and_params` answer for a new object with the
polynomials of the row (the 2000 iterations made before for the errors, and the first of the two, leave no trace). -/
theorem C97_analysis_partial {E : AnalyzeEnv} {compiles : Str → Bool} {rows : List (List Str)} {fs : List Bool} {cs : List Conv}
    (h : analyzeCsv E compiles rows "cont_frac".toList = .ok (fs, cs)) :
    ∃ ls, loadContFracs compiles rows = .ok ls ∧ List.Forall₂ (fun l f => fastNew l.a l.b = .ok f) ls fs ∧
      List.Forall₂ (fun l c => estimateNew E.analysis l.a l.b = .ok c) ls cs := by
  rw [analyzeCsv, if_neg (by decide), if_pos rfl] at h
  cases hl : loadContFracs compiles rows with
  | error e => rw [hl] at h; cases h
  | ok ls =>
    rw [hl] at h
    simp only at h
    refine ⟨ls, rfl, ?_⟩
    clear hl
    generalize 0 = i at h
    induction ls generalizing i fs cs with
    | nil => cases h; exact ⟨.nil, .nil⟩
    | cons l ls ih =>
      rw [analyzeLoop] at h
      cases hr : analyzeRow E i l with
      | error e => rw [hr] at h; cases h
      | ok fc =>
        obtain ⟨f, c⟩ := fc
        rw [hr] at h
        simp only at h
        cases ha : analyzeLoop E (i + 1) ls with
        | error e => rw [ha] at h; cases h
        | ok q =>
          obtain ⟨fs', cs'⟩ := q
          rw [ha] at h
          simp only at h
          obtain ⟨h1, h2⟩ := ih (i + 1) ha
          cases h
          rw [analyzeRow] at hr
          cases ht : E.target l.formula l.x with
          | error e => rw [ht] at hr; cases hr
          | ok t =>
            rw [ht] at hr
            simp only at hr
            cases hi : init l.a l.b with
            | error e => rw [hi] at hr; cases hr
            | ok s =>
              rw [hi] at hr
              simp only at hr
              obtain ⟨k1, s', k2, k3⟩ := analyzeObj_ok hr
              refine ⟨.cons ?_ h1, .cons ?_ h2⟩
              · rw [fastNew, hi]; exact k1
              · rw [estimateNew, hi]
                simp only
                rw [k2]
                exact congrArg Except.ok k3

/-- The analysis of a row, if the errors can be computed and the rest succeeds. -/
theorem analyzeRow_ends {E : AnalyzeEnv} {l : Loaded} {f : Bool} {c : Conv} {t : Num} (ht : E.target l.formula l.x = .ok t)
    (hfit : ∀ es, es.length = 2000 → E.fit es = .ok ()) (hplot : ∀ i es, E.plot i es = .ok ()) (hb : ∀ j, 1 ≤ j → j ≤ 2000 → seqAt l.b j ≠ 0)
    (hf : fastNew l.a l.b = .ok f) (hc : estimateNew E.analysis l.a l.b = .ok c) (i : ℕ) : analyzeRow E i l = .ok (f, c) := by
  rw [fastNew] at hf
  rw [estimateNew] at hc
  rw [analyzeRow, ht]
  cases hi : init l.a l.b with
  | error e => rw [hi] at hf; cases hf
  | ok s =>
    rw [hi] at hf hc
    simp only at hf hc ⊢
    have hg := reachable_good hi []
    have hpb : s.params.b = l.b := by
      unfold init at hi
      cases hm : autogenFirst l.a with
      | error e => simp only [hm] at hi; split at hi <;> cases hi
      | ok m =>
        simp only [hm] at hi
        split at hi
        · cases hi
        · cases hi; rfl
    obtain ⟨s1, e1, h1, c1, -⟩ := gen_ok hg 0 true (fun j h1 h2 => by omega)
    have hg1 := good_of_core c1 hg
    obtain ⟨s2, e2, c2⟩ := errorsLoop_closed t 2000 0 s1 h1 (fun j h1 h2 h3 => by
      have h4 : seqAt s.params.b j = 0 := h3.2
      rw [hpb] at h4
      exact hb j (by omega) (by omega) h4)
    have hg2 := good_of_core c2 hg1
    obtain ⟨s3, e3, h3, c3, -⟩ := gen_ok hg2 0 true (fun j h1 h2 => by omega)
    have he : ∃ errs : List (ℕ × Num), errs.length = 2000 ∧ buildErrors t 2000 s = (s3, .ok errs) := by
      refine ⟨(List.range 2000).map fun i => (0 + i + 1, absNum (subNum (convVal (runOps [] s).params.a (runOps [] s).params.b (0 + i + 1)) t)),
        by simp, ?_⟩
      rw [buildErrors, PyM.bind_ok (show genIterations 0 true s = (s1, .ok ()) from e1), PyM.bind_ok e2,
        PyM.bind_ok (show genIterations 0 true s2 = (s3, .ok ()) from e3)]
      rfl
    obtain ⟨errs, hlen, he⟩ := he
    obtain ⟨lg, ms, n, hfr⟩ := frame_errors t 2000 s
    rw [he] at hfr
    simp only at hfr
    subst hfr
    rcases hq : isConvergenceFast 600 200 50 s with ⟨s4, r⟩
    rw [hq] at hf
    simp only at hf
    subst hf
    obtain ⟨lg', ms', n', hfr'⟩ := frame_fast 600 200 50 s
    rw [hq] at hfr'
    simp only at hfr'
    subst hfr'
    rcases hr : estimateApproachObj E.analysis 600 200 50 s with ⟨s5, r⟩
    rw [hr] at hc
    cases r with
    | error e => cases hc
    | ok u =>
      cases u
      simp only at hc
      injection hc with hc
      subst hc
      rw [analyzeObj, PyM.bind_ok he,
        PyM.bind_ok (show liftE (E.fit errs) _ = (_, .ok ()) by rw [hfit errs hlen]; rfl),
        PyM.bind_ok (show liftE (E.plot i errs) _ = (_, .ok ()) by rw [hplot]; rfl),
        PyM.bind_ok (show isConvergenceFast 600 200 50 { s with logs := lg, mats := ms, executed := n } =
          ({ s with logs := lg', mats := ms', executed := n' }, .ok f) from hq),
        PyM.bind_ok (show estimateApproachObj E.analysis 600 200 50 { s with logs := lg', mats := ms', executed := n' } = (s5, .ok ()) from hr)]
      rfl

/-- **C97 (the analysis ends).** If the formulas can be evaluated, the fit and the plot succeed, no `b_i` with `i ≤ 2000` is zero, and the two methods
return for new objects, then the analysis of the file returns these answers. -/
theorem C97_ends {E : AnalyzeEnv} {compiles : Str → Bool} {rows : List (List Str)} {ls : List Loaded} {fs : List Bool} {cs : List Conv}
    (hl : loadContFracs compiles rows = .ok ls) (ht : ∀ l ∈ ls, ∃ t, E.target l.formula l.x = .ok t)
    (hfit : ∀ es, es.length = 2000 → E.fit es = .ok ()) (hplot : ∀ i es, E.plot i es = .ok ())
    (hb : ∀ l ∈ ls, ∀ j, 1 ≤ j → j ≤ 2000 → seqAt l.b j ≠ 0) (hf : List.Forall₂ (fun l f => fastNew l.a l.b = .ok f) ls fs)
    (hc : List.Forall₂ (fun l c => estimateNew E.analysis l.a l.b = .ok c) ls cs) :
    analyzeCsv E compiles rows "cont_frac".toList = .ok (fs, cs) := by
  rw [analyzeCsv, if_neg (by decide), if_pos rfl, hl]
  simp only
  clear hl
  generalize 0 = i
  induction ls generalizing i fs cs with
  | nil => cases hf; cases hc; rfl
  | cons l ls ih =>
    cases hf with
    | cons h1 h2 =>
      cases hc with
      | cons k1 k2 =>
        obtain ⟨t, ht'⟩ := ht l List.mem_cons_self
        rw [analyzeLoop, analyzeRow_ends ht' hfit hplot (hb l List.mem_cons_self) h1 k1]
        simp only
        rw [ih (fun l hl => ht l (List.mem_cons_of_mem _ hl)) (fun l hl => hb l (List.mem_cons_of_mem _ hl)) h2 k2]

/-- A row with the fraction `3 - 2/(3 - 2/(3 - ...))`. -/
example : ∃ f c, fastNew [[3, 0, 0]] [[-2, 0, 0]] = .ok f ∧ estimateNew ⟨fun _ => 0, fun x => max 1 x, id, 1 / 10 ^ 50⟩ [[3, 0, 0]] [[-2, 0, 0]] = .ok c ∧
    ∀ j, 1 ≤ j → j ≤ 2000 → seqAt [[-2, 0, 0]] j ≠ 0 := by
  have h1 : (fastNew [[3, 0, 0]] [[-2, 0, 0]]).toOption.isSome = true := by decide +kernel
  have h2 : (estimateNew ⟨fun _ => 0, fun x => max 1 x, id, 1 / 10 ^ 50⟩ [[3, 0, 0]] [[-2, 0, 0]]).toOption.isSome = true := by decide +kernel
  have h3 : ∀ j : ℕ, seqAt [[-2, 0, 0]] j ≠ 0 := fun j => by
    have : seqAt [[-2, 0, 0]] j = -2 := by simp [seqAt, Nat.mod_one, horner]
    rw [this]; decide
  cases e1 : fastNew [[3, 0, 0]] [[-2, 0, 0]] with
  | error e => rw [e1] at h1; cases h1
  | ok f =>
    cases e2 : estimateNew ⟨fun _ => 0, fun x => max 1 x, id, 1 / 10 ^ 50⟩ [[3, 0, 0]] [[-2, 0, 0]] with
    | error e => rw [e2] at h2; cases h2
    | ok c => exact ⟨f, c, rfl, rfl, fun j _ _ => h3 j⟩

/-- **C97 (violated).** Called with a path only, the analysis raises a NameError for every file. -/
theorem C97_default_violated (E : AnalyzeEnv) (compiles : Str → Bool) (rows : List (List Str)) :
    analyzeCsv E compiles rows = .error .nameError := if_pos rfl

/-- **C97 (the fit).** For a list of more than 500 errors, the search for the beginning of the fit ends with an index of at
most 500; it is 0 or the error there is not below 10⁻¹⁵. -/
theorem C97_cutoff {errors : List (ℕ × Num)} {c : ℕ} (h : c < errors.length) :
    ∃ c', fitCutoff errors c = .ok c' ∧ c' ≤ c ∧ ∃ i x, errors[c']? = some (i, x) ∧ (c' = 0 ∨ ∀ q, x = .fin q → 1 / 10 ^ 15 ≤ q) := by
  induction c using Nat.strong_induction_on with
  | _ c ih =>
    rw [fitCutoff]
    obtain ⟨⟨i, x⟩, hx⟩ : ∃ y, errors[c]? = some y := ⟨_, List.getElem?_eq_getElem h⟩
    split
    · rename_i hn; rw [hx] at hn; cases hn
    · rename_i j y hy
      rw [hx] at hy
      cases hy
      by_cases hc : tiny x = true ∧ 0 < c
      · rw [dif_pos hc]
        have hlt : c / 2 < c := Nat.div_lt_self hc.2 (by decide)
        obtain ⟨c', h1, h2, h3⟩ := ih (c / 2) hlt (by omega)
        exact ⟨c', h1, by omega, h3⟩
      · rw [dif_neg hc]
        refine ⟨c, rfl, le_rfl, i, x, hx, ?_⟩
        rcases Nat.eq_zero_or_pos c with h0 | h0
        · exact .inl h0
        · right
          rintro q rfl
          by_contra hq
          exact hc ⟨decide_eq_true (not_le.1 hq), h0⟩

example : (500 : ℕ) < (List.range 2000).length := by decide +kernel

/-! ### C98: starting one program for each configuration of a directory -/

/-- The words of a command line. -/
def words (s : Str) : List Str := (s.splitOnP (· = ' ')).filter (· ≠ [])

theorem words_cons {x : Str} (hx : ' ' ∉ x) (hne : x ≠ []) (s : Str) : words (x ++ ' ' :: s) = x :: words s := by
  have h : ∀ c ∈ x, decide (c = ' ') = false := fun c hc => by simpa using fun e : c = ' ' => hx (e ▸ hc)
  rw [words, List.splitOnP_append_cons_of_forall_mem h ' ' (by simp), List.filter_cons, if_pos (by simpa using hne), words]

theorem words_single {x : Str} (hx : ' ' ∉ x) (hne : x ≠ []) : words x = [x] := by
  have h : ∀ c ∈ x, decide (c = ' ') = false := fun c hc => by simpa using fun e : c = ' ' => hx (e ▸ hc)
  rw [words, List.splitOnP_eq_singleton h, List.filter_cons, if_pos (by simpa using hne), List.filter_nil]

open Classical in
/-- **C98 (partial).** If there are no spaces in the path of the directory and in the names in it, exactly the .ini files are run,
each by one command, with the path of the file as the only argument of main.py. -/
theorem C98_commands_partial {dir : Str} {names : List Str} (hd : ' ' ∉ dir) (hn : ∀ f ∈ names, ' ' ∉ f ∧ '/' ∉ f) :
    (runConfigs dir names).map words = (names.filter fun f => decide (HasExt "ini".toList f)).map fun f =>
      ["start".toList, "cmd.exe".toList, "/k".toList, "python".toList, "main.py".toList, Path.join dir f] := by
  have hfil : names.filter (fun f => decide ((Path.splitext f).2 = ".ini".toList)) = names.filter fun f => decide (HasExt "ini".toList f) :=
    List.filter_congr fun f hf => by rw [decide_eq_decide]; exact Path.splitext_ext (hn f hf).2 (by decide)
  rw [runConfigs, hfil, List.map_map, List.map_map]
  refine List.map_congr_left fun f hf => ?_
  obtain ⟨hf, hi⟩ := List.mem_filter.1 hf
  obtain ⟨hsp, hsl⟩ := hn f hf
  have hine : f ≠ [] := by
    obtain ⟨root, rfl, -⟩ := of_decide_eq_true hi
    simp
  have hj : ' ' ∉ Path.join dir f ∧ Path.join dir f ≠ [] := by
    unfold Path.join
    split
    · exact ⟨hsp, hine⟩
    · split
      · exact ⟨by simp [hd, hsp], by simp [hine]⟩
      · exact ⟨by simp [hd, hsp], by simp⟩
  show words ("start cmd.exe /k python main.py ".toList ++ Path.join dir f) = _
  have e : "start cmd.exe /k python main.py ".toList ++ Path.join dir f = "start".toList ++ ' ' :: ("cmd.exe".toList ++ ' ' ::
      ("/k".toList ++ ' ' :: ("python".toList ++ ' ' :: ("main.py".toList ++ ' ' :: Path.join dir f)))) := by
    simp
  rw [e, words_cons (by decide) (by decide), words_cons (by decide) (by decide), words_cons (by decide) (by decide),
    words_cons (by decide) (by decide), words_cons (by decide) (by decide), words_single hj.1 hj.2]

/-- **C98 (violated).** The path is not quoted: the configuration in a directory `my configs` is given as two arguments. -/
theorem C98_commands_violated :
    (runConfigs "my configs".toList ["a.ini".toList]).map words =
      [["start".toList, "cmd.exe".toList, "/k".toList, "python".toList, "main.py".toList, "my".toList, "configs/a.ini".toList]] := by
  decide +kernel

example : (∀ f ∈ ["a.ini".toList, "b.txt".toList, ".ini".toList], ' ' ∉ f ∧ '/' ∉ f) ∧ ' ' ∉ "cfg".toList ∧
    runConfigs "cfg".toList ["a.ini".toList, "b.txt".toList, ".ini".toList] = ["start cmd.exe /k python main.py cfg/a.ini".toList] := by
  decide +kernel

end PiCF.Process
