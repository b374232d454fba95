import Verif.Model.Process
import Verif.Lemmas.Json
import Verif.Props.ContFrac

/-!
# C80-C82: errors of convergents, and reading old result files
-/

namespace PiCF.Process
open PiCF.Hashtable PiCF.ContFrac PiCF.Mitm PiCF.Spec PiCF.PyStr PiCF.Json

/-! ### C80 -/

theorem errorsLoop_closed {a b : Coeffs} (target : Num) : ∀ (k c : ℕ) (s : CF), Synced s a b c → NoZero s.avoidZeroB b c (c + k) →
    ∃ s', errorsLoop target k c s = (s', .ok ((List.range k).map fun t => (c + t + 1, absNum (subNum (convVal a b (c + t + 1)) target)))) ∧
      core s' = core s := by
  intro k
  induction k with
  | zero => intro c s _ _; exact ⟨s, rfl, rfl⟩
  | succ k ih =>
    intro c s h hz
    obtain ⟨s1, e1, h1, c1, r1⟩ := add_ok h 1 true (hz.mono (by omega) (by omega))
    obtain ⟨s2, e2, c2⟩ := ih (c + 1) s1 h1 (by rw [core_avoid c1]; exact hz.mono (by omega) (by omega))
    have e1' : addIterations 1 true s = (s1, .ok ()) := e1
    have hr : getResult s1 = convVal a b (c + 1) := r1 (by cases s.logging <;> simp)
    refine ⟨s2, ?_, c2.trans c1⟩
    rw [errorsLoop, PyM.bind_ok e1', PyM.bind_ok (show (PyM.get : PyM CF CF) s1 = (s1, .ok s1) from rfl), PyM.bind_ok e2,
      compareResult, hr, List.range_succ_eq_map, List.map_cons, List.map_map]
    simp only [Function.comp_def, Nat.add_zero]
    have : ∀ t, c + 1 + t + 1 = c + t.succ + 1 := by intro t; omega
    simp only [this]
    rfl

/-- **C80.** For every object however used before, target value and number of iterations `n`: if no `b_i` is zero for `1 ≤ i ≤ n`
(when zeros are avoided), `build_contfrac_errors` returns exactly one pair for each `i = 1..n`, in order; the error of `i` is
`|v - target|` when the finite continued fraction up to `i` has the value `v`, and NaN when the denominator of convergent `i`
is zero.  (Partial: with a zero `b_i` see `C80_zero_b_violated`.)  Afterwards the object has executed zero iterations, and its
coefficients are unchanged. -/
theorem C80_errors_partial {a₀ b₀ : Coeffs} {z l : Bool} {s₀ : CF} (hinit : init a₀ b₀ z none l = .ok s₀) (ops : List CFOp) (n : ℕ) (t : ℚ)
    (hz : z = true → ∀ j, 1 ≤ j → j ≤ n → seqAt (runOps ops s₀).params.b j ≠ 0) :
    ∃ s' errors, buildErrors (.fin t) n (runOps ops s₀) = (s', .ok errors) ∧ errors.map Prod.fst = (List.range n).map (· + 1) ∧
      (∀ (i : ℕ) (e : Num) (v : ℚ), (i, e) ∈ errors →
        nested (ratSeq (runOps ops s₀).params.a) (ratSeq (runOps ops s₀).params.b) 0 i = some v → e = .fin |v - t|) ∧
      (∀ (i : ℕ) (e : Num), (i, e) ∈ errors →
        contQ (seqAt (runOps ops s₀).params.a) (seqAt (runOps ops s₀).params.b) (i + 1) = 0 → e = .nan) ∧
      getNumOfExecutedIters s' = 0 ∧ s'.params = (runOps ops s₀).params := by
  have hg := reachable_good hinit ops
  generalize runOps ops s₀ = s at hg hz
  obtain ⟨s1, e1, h1, c1, -⟩ := gen_ok hg 0 true (fun j h1 h2 => by omega)
  have hg1 := good_of_core c1 hg
  obtain ⟨s2, e2, c2⟩ := errorsLoop_closed (.fin t) n 0 s1 h1 (by
    rw [hg1.avoid]
    exact fun j h1 h2 h3 => hz h3.1 j (by omega) (by omega) h3.2)
  have hg2 := good_of_core c2 hg1
  obtain ⟨s3, e3, h3, c3, -⟩ := gen_ok hg2 0 true (fun j h1 h2 => by omega)
  refine ⟨s3, (List.range n).map fun t' => (0 + t' + 1, absNum (subNum (convVal s.params.a s.params.b (0 + t' + 1)) (.fin t))),
    ?_, ?_, ?_, ?_, ?_, ?_⟩
  · rw [buildErrors, PyM.bind_ok (show genIterations 0 true s = (s1, .ok ()) from e1), PyM.bind_ok e2,
      PyM.bind_ok (show genIterations 0 true s2 = (s3, .ok ()) from e3)]
    rfl
  · rw [List.map_map]
    exact List.map_congr_left fun x _ => by simp
  · intro i e v hmem hv
    obtain ⟨x, -, hx⟩ := List.mem_map.1 hmem
    injection hx with hx1 hx2
    subst hx1 hx2
    obtain ⟨h4, h5⟩ := nested_eq_cont _ _ _ _ hv
    rw [convVal, quotient, if_neg h4, h5]
    rfl
  · intro i e hmem hq
    obtain ⟨x, -, hx⟩ := List.mem_map.1 hmem
    injection hx with hx1 hx2
    subst hx1 hx2
    rw [convVal, quotient, if_pos hq]
    rfl
  · exact h3.hn
  · have : core s3 = core s := c3.trans (c2.trans c1)
    simp only [core, Prod.mk.injEq] at this
    exact this.1

example : ∃ s₀, init [[1]] [[1]] true none false = .ok s₀ ∧ (∀ j, 1 ≤ j → j ≤ 3 → seqAt (runOps [] s₀).params.b j ≠ 0) ∧
    (buildErrors (.fin 2) 3 s₀).2 = .ok [(1, .fin 0), (2, .fin (1/2)), (3, .fin (1/3))] := by
  refine ⟨_, rfl, ?_, ?_⟩
  · intro j h1 h2
    have : j = 1 ∨ j = 2 ∨ j = 3 := by omega
    rcases this with rfl | rfl | rfl <;> decide
  · have h : ((buildErrors (.fin 2) 3 (fresh [[1]] [[1]] true false)).2).toOption = some [(1, .fin 0), (2, .fin (1/2)), (3, .fin (1/3))] := by
      decide +kernel
    have key : ∀ (x : Except PyErr (List (ℕ × Num))) n, x.toOption = some n → x = .ok n := by
      intro x n h; cases x <;> simp_all [Except.toOption]
    exact key _ _ h

/-- **C80 is false with a zero `b_i`**: for `a = 1`, `b = i - 2` the method raises at depth 2 and leaves the object at one
iteration instead of zero. -/
theorem C80_zero_b_violated : ∃ s₀ s' e, init [[1]] [[-2, 1]] true none false = .ok s₀ ∧
    buildErrors (.fin 2) 3 s₀ = (s', .error e) ∧ getNumOfExecutedIters s' ≠ 0 := by
  refine ⟨fresh [[1]] [[-2, 1]] true false, (buildErrors (.fin 2) 3 (fresh [[1]] [[-2, 1]] true false)).1, ?_⟩
  rcases h : buildErrors (.fin 2) 3 (fresh [[1]] [[-2, 1]] true false) with ⟨s', e | r⟩
  · refine ⟨e, rfl, rfl, ?_⟩
    have : getNumOfExecutedIters (buildErrors (.fin 2) 3 (fresh [[1]] [[-2, 1]] true false)).1 = 1 := by decide +kernel
    rw [h] at this
    simp only at this
    rw [this]
    decide
  · have : (buildErrors (.fin 2) 3 (fresh [[1]] [[-2, 1]] true false)).2.toOption = none := by decide +kernel
    rw [h] at this
    simp [Except.toOption] at this

/-! ### C81 -/

mutual
/-- The nested lists with the same integers as nested lists and tuples. -/
def listsOf : Nest → Val
  | .int n => .int n
  | .list l => .arr (listsOfAll l)
  | .tuple l => .arr (listsOfAll l)

/-- Item by item. -/
def listsOfAll : List Nest → List Val
  | [] => []
  | v :: l => listsOf v :: listsOfAll l
end

mutual
theorem listsOf_int : ∀ v : Nest, IntLists (listsOf v)
  | .int n => .int n
  | .list l => .arr (listsOfAll_int l)
  | .tuple l => .arr (listsOfAll_int l)

theorem listsOfAll_int : ∀ l : List Nest, ∀ v ∈ listsOfAll l, IntLists v
  | [], _, h => by cases h
  | v :: l, w, h => by
    rw [listsOfAll] at h
    rcases List.mem_cons.1 h with rfl | h
    · exact listsOf_int v
    · exact listsOfAll_int l w h
end

theorem replace_char (c d : Char) (s : Str) : replaceAll [c] [d] 0 s = s.map fun x => if x = c then d else x := by
  induction s with
  | nil => rfl
  | cons x s ih =>
    rw [replaceAll, List.map_cons]
    by_cases h : x = c
    · subst h
      simp [ih]
    · have : ([c].isPrefixOf (x :: s)) = false := by
        show (c == x && _) = false
        rw [beq_eq_false_iff_ne.2 (Ne.symm h)]
        rfl
      rw [this, if_neg h, ih]
      rfl

/-- The three replacements, the outer two character by character. -/
def op1 (x : Char) : Char := if x = '(' then '[' else x
/-- See `op1`. -/
def op3 (x : Char) : Char := if x = ')' then ']' else x
/-- The middle replacement. -/
def op2 (s : Str) : Str := replaceAll ",)".toList "]".toList 0 s

theorem listText_eq (s : Str) : listText s = (op2 (s.map op1)).map op3 := by
  unfold listText
  rw [show "(".toList = ['('] from rfl, show "[".toList = ['['] from rfl, show ")".toList = [')'] from rfl,
    show "]".toList = [']'] from rfl, replace_char, replace_char]
  rfl

theorem op2_cons {c : Char} (h : c ≠ ',') (s : Str) : op2 (c :: s) = c :: op2 s := by
  unfold op2
  rw [replaceAll]
  have : (",)".toList.isPrefixOf (c :: s)) = false := by
    show (',' == c && _) = false
    simp [Ne.symm h]
  rw [this]
  rfl

theorem op2_comma {c : Char} (h : c ≠ ')') (s : Str) : op2 (',' :: c :: s) = ',' :: op2 (c :: s) := by
  unfold op2
  rw [replaceAll]
  have : (",)".toList.isPrefixOf (',' :: c :: s)) = false := by
    show (',' == ',' && (')' == c && _)) = false
    simp [Ne.symm h]
  rw [this]
  rfl

theorem op2_close (s : Str) : op2 (',' :: ')' :: s) = ']' :: op2 s := by
  unfold op2
  rw [replaceAll]
  rfl

theorem op2_append {x : Str} (h : ∀ c ∈ x, c ≠ ',') (s : Str) : op2 (x ++ s) = x ++ op2 s := by
  induction x with
  | nil => rfl
  | cons c x ih =>
    rw [List.cons_append, op2_cons (h c List.mem_cons_self), ih fun d hd => h d (List.mem_cons_of_mem _ hd)]
    rfl

theorem strInt_chars (n : ℤ) : ∀ c ∈ strInt n, c ≠ ',' ∧ c ≠ '(' ∧ c ≠ ')' := by
  have hd : ∀ m : ℕ, ∀ c ∈ strNat m, c ≠ ',' ∧ c ≠ '(' ∧ c ≠ ')' := by
    intro m c hc
    obtain ⟨d, ds, h1, h2, -, e, -⟩ := exists_strNat m
    rw [e] at hc
    obtain ⟨x, hx, rfl⟩ := List.mem_map.1 hc
    have : x < 10 := by
      rcases List.mem_cons.1 hx with rfl | hx
      · exact h1
      · exact h2 x hx
    interval_cases x <;> decide
  intro c hc
  unfold strInt at hc
  split at hc
  · rcases List.mem_cons.1 hc with rfl | hc
    · decide
    · exact hd _ c hc
  · exact hd _ c hc

mutual
theorem text_nest : ∀ (v : Nest) (r : Str), (op2 (v.str.map op1 ++ r)).map op3 = (listsOf v).repr ++ (op2 r).map op3
  | .int n, r => by
    have h := strInt_chars n
    have e1 : (strInt n).map op1 = strInt n := by
      rw [List.map_congr_left (g := id) fun c hc => by simp [op1, (h c hc).2.1]]
      simp
    have e3 : (strInt n).map op3 = strInt n := by
      rw [List.map_congr_left (g := id) fun c hc => by simp [op3, (h c hc).2.2]]
      simp
    rw [Nest.str, e1, op2_append fun c hc => (h c hc).1, List.map_append, e3, listsOf, Val.repr]
  | .list [], r => by
    rw [Nest.str, listsOf, listsOfAll, Val.repr]
    show (op2 ('[' :: ']' :: r)).map op3 = _
    rw [op2_cons (by decide), op2_cons (by decide)]
    rfl
  | .list (v :: l), r => by
    rw [Nest.str, listsOf, listsOfAll, Val.repr]
    rw [List.cons_append, List.map_cons, List.map_append, List.cons_append, List.append_assoc, show op1 '[' = '[' from rfl,
      op2_cons (by decide), List.map_cons, text_nest v, text_tail l ']' (.inl rfl) r]
    simp [op3]
  | .tuple [], r => by
    rw [Nest.str, listsOf, listsOfAll, Val.repr]
    show (op2 ('[' :: ')' :: r)).map op3 = _
    rw [op2_cons (by decide), op2_cons (by decide)]
    rfl
  | .tuple [v], r => by
    rw [Nest.str, listsOf, listsOfAll, listsOfAll, Val.repr, reprTail]
    rw [List.cons_append, List.map_cons, List.map_append, List.cons_append, List.append_assoc, show op1 '(' = '[' from rfl,
      op2_cons (by decide), List.map_cons, text_nest v]
    rw [show ",)".toList.map op1 ++ r = ',' :: ')' :: r from rfl, op2_close]
    simp [op3]
  | .tuple (v :: w :: l), r => by
    rw [Nest.str, listsOf, listsOfAll, listsOfAll, Val.repr, reprTail]
    rw [show ('(' :: v.str ++ ',' :: ' ' :: w.str ++ strTail ')' l).map op1 ++ r =
      '[' :: (v.str.map op1 ++ (',' :: ' ' :: (w.str.map op1 ++ ((strTail ')' l).map op1 ++ r)))) by simp [op1],
      op2_cons (by decide), List.map_cons, text_nest v, op2_comma (by decide), op2_cons (by decide), List.map_cons, List.map_cons,
      text_nest w, text_tail l ')' (.inr rfl) r]
    simp [op3]

theorem text_tail : ∀ (l : List Nest) (c : Char), c = ']' ∨ c = ')' → ∀ r : Str,
    (op2 ((strTail c l).map op1 ++ r)).map op3 = reprTail (listsOfAll l) ++ (op2 r).map op3
  | [], c, hc, r => by
    rw [strTail, listsOfAll, reprTail]
    rcases hc with rfl | rfl
    · show (op2 (']' :: r)).map op3 = _
      rw [op2_cons (by decide)]
      rfl
    · show (op2 (')' :: r)).map op3 = _
      rw [op2_cons (by decide)]
      rfl
  | v :: l, c, hc, r => by
    rw [strTail, listsOfAll, reprTail]
    rw [show (',' :: ' ' :: v.str ++ strTail c l).map op1 ++ r = ',' :: ' ' :: (v.str.map op1 ++ ((strTail c l).map op1 ++ r)) by
        simp [op1],
      op2_comma (by decide), op2_cons (by decide), List.map_cons, List.map_cons, text_nest v, text_tail l c hc r]
    simp [op3]
end

/-- **C81.** For all nested tuples and lists of integers, of every shape and depth (also empty ones and ones with a single
element): the text Python writes for them is read back as the nested lists with the same integers. -/
theorem C81_nested (v : Nest) : loads (listText v.str) = .ok (listsOf v) := by
  have := text_nest v []
  rw [List.append_nil, show (op2 []).map op3 = [] from rfl, List.append_nil, ← listText_eq] at this
  rw [this, loads_repr (listsOf_int v)]

/-- **C81 (polynomials).** An interlace written as a tuple (or list) of polynomials is read back unchanged, and a single polynomial
is read back as an interlace of one. -/
theorem C81_poly : (∀ (p : Nest) (ps : List Nest) (v : Nest), (v = .tuple (p :: ps) ∨ v = .list (p :: ps)) →
      (∃ cs, p = .tuple cs ∨ p = .list cs) → readPoly v.str = .ok (listsOf v)) ∧
    (∀ (n : ℤ) (ns : List ℤ) (v : Nest), (v = .tuple ((n :: ns).map .int) ∨ v = .list ((n :: ns).map .int)) →
      readPoly v.str = .ok (.arr [.arr ((n :: ns).map .int)])) := by
  have hint : ∀ ns : List ℤ, listsOfAll (ns.map .int) = ns.map .int := by
    intro ns
    induction ns with
    | nil => rfl
    | cons n ns ih => rw [List.map_cons, listsOfAll, ih, listsOf]; rfl
  constructor
  · intro p ps v hv ⟨cs, hp⟩
    rw [readPoly, C81_nested]
    rcases hv with rfl | rfl <;> rcases hp with rfl | rfl <;> simp only [listsOf, listsOfAll]
  · intro n ns v hv
    rw [readPoly, C81_nested]
    rcases hv with rfl | rfl <;> simp only [listsOf, hint] <;> rfl

example : readPoly "((1, 2, -3), (4,))".toList = .ok (.arr [.arr [.int 1, .int 2, .int (-3)], .arr [.int 4]]) := by
  have := C81_poly.1 (.tuple [.int 1, .int 2, .int (-3)]) [.tuple [.int 4]] _ (.inl rfl) ⟨_, .inl rfl⟩
  rw [show "((1, 2, -3), (4,))".toList = (Nest.tuple [.tuple [.int 1, .int 2, .int (-3)], .tuple [.int 4]]).str by decide +kernel, this]
  simp only [listsOf, listsOfAll]

/-! ### C82 -/

/-- **C82 (partial).** For every path whose name without extension neither begins nor ends with one of the characters `.csv`: the PDF gets
this name.  Missing: other names, see `C82_name_violated`. -/
theorem C82_name_partial (base : Str) (h1 : ∀ c ∈ base.head?, c ∉ ".csv".toList) (h2 : ∀ c ∈ base.getLast?, c ∉ ".csv".toList)
    (hne : base ≠ []) : pdfPath (base ++ ".csv".toList) = base := by
  have hc : ∀ c, c ∉ ".csv".toList → csvChar c = false := by
    intro c hc
    rw [show ".csv".toList = ['.', 'c', 's', 'v'] from rfl] at hc
    simp only [List.mem_cons, List.not_mem_nil, or_false, not_or, ← and_assoc] at hc
    simpa [csvChar] using hc
  have hd : ∀ l : Str, (∀ c ∈ l.head?, csvChar c = false) → l.dropWhile csvChar = l := by
    intro l hl
    cases l with
    | nil => rfl
    | cons x l => rw [List.dropWhile_cons, if_neg (by rw [hl x rfl]; simp)]
  unfold pdfPath
  rw [hd (base ++ _) (by
    intro c hc'
    cases base with
    | nil => exact absurd rfl hne
    | cons x l => exact hc c (h1 c hc'))]
  rw [List.reverse_append, List.dropWhile_append]
  have e : (".csv".toList.reverse.dropWhile csvChar) = [] := by decide
  rw [e]
  simp only [List.isEmpty_nil, if_true]
  rw [hd base.reverse (by
    intro c hc'
    rw [List.head?_reverse] at hc'
    exact hc c (h2 c hc')), List.reverse_reverse]

example : pdfPath "results/20/out.csv".toList = "results/20/out".toList := by decide +kernel

/-- **C82 (violated).** The file written by the program itself, `results.csv`, is turned into `result.pdf`; a relative path `./…` leaves its
directory for the root, and a name made of these letters becomes empty. -/
theorem C82_name_violated : pdfPath "results.csv".toList = "result".toList ∧ pdfPath "./a.csv".toList = "/a".toList ∧
    pdfPath "cvs.csv".toList = [] ∧ pdfPath "../out/x.csv".toList = "/out/x".toList := by decide +kernel

end PiCF.Process
