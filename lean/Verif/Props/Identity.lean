import Mathlib.NumberTheory.Real.GoldenRatio
import Verif.Props.InfoRefine
import Verif.Props.Monotone

/-!
# C138: identities that hold are found, and what is found agrees in its true values
-/

namespace PiCF
open PiCF.Spec PiCF.Hashtable PiCF.Mitm PiCF.EnumPoly PiCF.Lhs PiCF.ContFrac PiCF.DecStr

variable {L κ : Type}

theorem Spec.KeepsClear.mono {n m : ℕ} {δ l : ℝ} (h : KeepsClear n δ l) (hm : m ≤ n) : KeepsClear m δ l := by
  refine ⟨fun k => ?_, h.2⟩
  have := h.1 (k * 10 ^ (n - m))
  rwa [show (((k * 10 ^ (n - m) : ℤ) : ℝ) / 10 ^ n) = k / 10 ^ m by
    push_cast
    rw [div_eq_div_iff (by positivity) (by positivity), mul_assoc, ← pow_add, Nat.sub_add_cancel hm]] at this

/-- Irrational numbers keep clear of all numbers with `n` digits. -/
theorem keepsClear_of_irrational {l : ℝ} (h : Irrational l) (h0 : 1 / 10 ^ 6 < Int.fract |l|) (n : ℕ) : ∃ δ > 0, KeepsClear n (2 * δ) l := by
  have hi : Irrational (|l| * 10 ^ n) := by
    have := (irrational_abs h).mul_natCast (m := 10 ^ n) (by positivity)
    push_cast at this
    exact this
  have hp : (0 : ℝ) < 10 ^ n := by positivity
  set x := |l| * 10 ^ n
  have f0 : 0 < Int.fract x := Int.fract_pos.2 fun h => hi ⟨⌊x⌋, by push_cast; exact h.symm⟩
  have f1 := Int.fract_lt_one x
  set e := min (min (Int.fract x) (1 - Int.fract x) / 10 ^ n) (Int.fract |l| - 1 / 10 ^ 6) with he
  have hm : 0 < min (Int.fract x) (1 - Int.fract x) := lt_min f0 (by linarith)
  have hpos : 0 < e := lt_min (div_pos hm hp) (by linarith)
  refine ⟨e / 4, by linarith, fun k => ?_, ?_⟩
  · have hd : min (Int.fract x) (1 - Int.fract x) ≤ |x - k| := by
      have hx := Int.floor_add_fract x
      rcases le_or_gt k ⌊x⌋ with hk | hk
      · have hk : (k : ℝ) ≤ ⌊x⌋ := by exact_mod_cast hk
        refine (min_le_left _ _).trans (le_trans ?_ (le_abs_self _))
        linarith
      · have hk : (⌊x⌋ : ℝ) + 1 ≤ k := by exact_mod_cast hk
        refine (min_le_right _ _).trans (le_trans ?_ (neg_le_abs _))
        linarith
    have hx : |l| - k / 10 ^ n = (x - k) / 10 ^ n := by
      rw [sub_div, mul_div_assoc, div_self hp.ne', mul_one]
    rw [hx, abs_div, abs_of_pos hp]
    have h1 : e ≤ min (Int.fract x) (1 - Int.fract x) / 10 ^ n := min_le_left _ _
    have h2 : min (Int.fract x) (1 - Int.fract x) / 10 ^ n ≤ |x - k| / 10 ^ n := by gcongr
    linarith
  · have : e ≤ Int.fract |l| - 1 / 10 ^ 6 := min_le_right _ _
    linarith

/-- The texts of numbers near the two sides of an identity begin with the same characters. -/
theorem texts_agree {l l' δ : ℝ} {N : ℕ} (hδ : 0 ≤ δ) (h1 : KeepsClear N (2 * δ) l) (h2 : KeepsClear N (2 * δ) l') (hid : Int.fract |l| = Int.fract |l'|)
    {eng : EngN} (hE : Prints eng δ) {y w : ℚ} (hy : |(y : ℝ) - l| ≤ δ) (hw : |(w : ℝ) - l'| ≤ δ) :
    y ≠ 0 ∧ ∃ s s', eng (.fin (Int.fract |y|)) = .ok s ∧ eng (.fin (Int.fract |w|)) = .ok s' ∧
      ∀ j : ℤ, 0 ≤ j → j ≤ N + 2 → sliceTo s j = sliceTo s' j := by
  obtain ⟨hy0, d, d1, d2, d3⟩ := clear_side hδ h1 hE hy
  obtain ⟨-, e, g1, g2, g3⟩ := clear_side hδ h2 hE hw
  obtain ⟨r, hr, hiff⟩ := C79_digits_partial d1 g1 d2 g2
  obtain ⟨s, s', e1, e2, e3⟩ := compareDec_ok hr
  refine ⟨hy0, s, s', e1, e2, fun j j0 j1 => ?_⟩
  have := e3.1 (hiff.2 (by rw [SameDigits, d3, g3, hid]))
  rw [sliceTo, sliceTo, if_pos (by omega), if_pos (by omega)] at this
  rw [sliceTo, sliceTo, if_pos j0, if_pos j0]
  have hj : j.toNat = min j.toNat ((N : ℤ) + 2).toNat := by omega
  rw [hj, ← List.take_take, ← List.take_take, this]

/-- The accuracies of the search and of its table: nothing after the `N`-th digit is looked at. -/
structure Spec.Digits (E : SearchEnv L) (N : ℕ) : Prop where
  accuracy1 : -2 ≤ E.accuracy1 ∧ E.accuracy1 ≤ N
  accuracy2 : -2 ≤ E.accuracy2 ∧ E.accuracy2 ≤ N
  accuracy3 : -2 ≤ E.accuracy3 ∧ E.accuracy3 ≤ N
  table : ∀ m ∈ E.table.history ++ [E.table.accuracy], -1 ≤ m ∧ m ≤ N + 1

/-- The function number `post` of the continued fraction evaluates to a number within `δ` of `l`. -/
def Spec.EvaluatesTo (env : RefineEnv) (a b : Polys) (post : ℕ) (t : Option Conv) (l δ : ℝ) : Prop :=
  ∃ f v y, env.funcs[post]? = some f ∧ env.eval a b t = .ok v ∧ f v = .ok (.fin y) ∧ |(y : ℝ) - l| ≤ δ

theorem Spec.EvaluatesTo.agrees {env : RefineEnv} {a b : Polys} {post : ℕ} {t : Option Conv} {l l' δ : ℝ} {N : ℕ}
    (h : Spec.EvaluatesTo env a b post t l δ) (hδ : 0 ≤ δ) (h1 : KeepsClear N (2 * δ) l) (h2 : KeepsClear N (2 * δ) l')
    (hid : Int.fract |l| = Int.fract |l'|) (hE : Prints env.eng δ) (ha : -2 ≤ env.accuracy ∧ env.accuracy ≤ N) {w : ℚ} (hw : |(w : ℝ) - l'| ≤ δ) :
    Agrees env a b post (Int.fract |w|) t := by
  obtain ⟨f, v, y, e1, e2, e3, hy⟩ := h
  obtain ⟨hy0, s, s', q1, q2, q3⟩ := texts_agree hδ h1 h2 hid hE hy hw
  exact ⟨f, v, y, s, s', e1, e2, e3, hy0, q1, q2, q3 _ (by omega) (by omega)⟩

/-- **C138 (partial).** An identity that holds is found: let the function `post` of the continued fraction `(a, b)` have the true value `l`, and an enumerated LHS
the true value `l'` with the same digits after the point.  If the numbers are evaluated and printed with errors of at most `δ`, both true
values keep a distance of more than `2δ` from the numbers with `N` digits, where `N` is the largest accuracy of the search, and the table has the
entry under the text of a number within `δ` of `l`, then every search that returns reports the continued fraction (for
the identity function up to the sign of `a`) with an LHS that agrees with the enumerated one after the point.  The convergence has to be
fast and estimated as exponential, and no root of a `b` polynomial may be taken for a positive integer.
Missing: rational functions, see `C93_rf_violated`; tables that are only built have no texts as keys (`C55_matches_found_violated`). -/
theorem C138_found_partial {C : LhsClass L} {Inv : L → Prop} {key : Click L → κ} {out : κ → κ → Except PyErr Bool}
    (laws : SearchLaws C Inv key out) (hm : EquivMeans C Inv key out) (hout : ∀ k k', out k k' ≠ .error .keyboardInterrupt)
    {E : SearchEnv L} (sym : SignFree E) (hn : NoInterrupt E.refine3) (hos : ∀ o ∈ E.gen.1, Inv o) (htr : E.trunc = true)
    {l l' δ : ℝ} {N : ℕ} (hδ : 0 ≤ δ) (h1 : KeepsClear N (2 * δ) l) (h2 : KeepsClear N (2 * δ) l') (hid : Int.fract |l| = Int.fract |l'|)
    (hN : Spec.Digits E N) (hE : Prints E.eng δ) {o : L} (ho : o ∈ E.gen.1) {w : ℚ} (hw : C.val o = .fin w) (hwl : |(w : ℝ) - l'| ≤ δ)
    (hd : (C.isDegenerate o).2 = .ok false) {y : ℚ} (hy : |(y : ℝ) - l| ≤ δ) {s : Str} (hs : E.eng (.fin (Int.fract |y|)) = .ok s)
    {es : List Entry} (hes : stored E.table s = some (.list es)) {a b : Polys} {post : ℕ} (he : ((a, b), post) ∈ es) {t : Conv}
    (r1 : Spec.EvaluatesTo E.refine1 a b post none l δ) (hfast : E.fast a b = .ok true) (hest : E.estimate a b = .ok t)
    (ht : t.1 = .exp ∨ t.1 = .superExp) (r2 : Spec.EvaluatesTo E.refine2 a b post (some t) l δ)
    (r3 : Spec.EvaluatesTo E.refine3 a b post (some t) l δ) (hroots : ∀ p ∈ b, ∀ z ∈ E.roots p.reverse, ¬ TakenForPosInt z)
    {old cs : List (Click L)} (h : search C E none old = (cs, .ok ())) :
    ∃ c ∈ cs, c.b = b ∧ c.post = post ∧ (c.a = a ∨ post = 0 ∧ c.a = a.map fun p => p.map fun x => -x) ∧ c.conv = some t ∧
      ∃ v, C.val c.lhs = .fin v ∧ Int.fract |v| = Int.fract |w| := by
  obtain ⟨-, s0, s', q1, q2, q3⟩ := texts_agree hδ h1 h2 hid hE hy hwl
  rw [hs] at q1
  cases q1
  have hst : stored E.table s' = some (.list es) := by
    rw [← hes, stored, stored]
    have hall : ∀ ms : List ℤ, (∀ m ∈ ms, -1 ≤ m ∧ m ≤ (N : ℤ) + 1) →
        ms.findSome? (fun n => E.table.data.get? (.str (sliceTo s' (n + 1)))) = ms.findSome? fun n => E.table.data.get? (.str (sliceTo s (n + 1))) := by
      intro ms hms
      induction ms with
      | nil => rfl
      | cons m ms ih =>
        have hm := hms m List.mem_cons_self
        rw [List.findSome?_cons, List.findSome?_cons, q3 (m + 1) (by omega) (by omega), ih fun m hm => hms m (List.mem_cons_of_mem _ hm)]
    exact hall _ hN.table
  exact C93_complete_partial laws hm hout sym hn hos htr h ho hw hd q2 hst he
    (r1.agrees hδ h1 h2 hid hE hN.accuracy1 hwl) hfast hest ht (r2.agrees hδ h1 h2 hid hE hN.accuracy2 hwl)
    (r3.agrees hδ h1 h2 hid hE hN.accuracy3 hwl) hroots

/-- **C138 (only identities).** What is found agrees in its true values: if the two sides of a result are within `δ` of `l` and `l'`, which keep clear of
the numbers with as many digits as the last refinement compares, then `l` and `l'` have the same first digits after the point.  For every LHS class
that keeps its contract. -/
theorem C138_true {C : LhsClass L} {Inv : L → Prop} {key : Click L → κ} {out : κ → κ → Except PyErr Bool}
    (laws : SearchLaws C Inv key out) (hout : ∀ k k', out k k' ≠ .error .keyboardInterrupt) {E : SearchEnv L}
    (hn : NoInterrupt E.refine3) (hos : ∀ o ∈ E.gen.1, Inv o) (htr : E.trunc = true) {old cs : List (Click L)}
    (h : search C E none old = (cs, .ok ())) {c : Click L} (hc : c ∈ cs) {l l' δ : ℝ} {n : ℕ} (hδ : 0 ≤ δ) (ha : E.accuracy3 = n)
    (h1 : KeepsClear n (2 * δ) l) (h2 : KeepsClear n (2 * δ) l') (hE : Prints E.eng δ)
    (hr : Spec.EvaluatesTo E.refine3 c.a c.b c.post c.conv l δ) {v : ℚ} (hv : C.val c.lhs = .fin v) (hvl : |(v : ℝ) - l'| ≤ δ) :
    DigitsAgree n l l' := by
  obtain ⟨k, t, v', hct, hv', hk, hp⟩ := C136_sound laws hout hn hos htr h hc
  rw [hv] at hv'
  cases hv'
  obtain ⟨f, r, y, s, s', e1, e2, e3, -, e5, e6, e7⟩ := hp.refine3
  obtain ⟨f', r', y', g1, g2, g3, hy⟩ := hr
  rw [e1] at g1; cases g1
  rw [hct, e2] at g2; cases g2
  rw [e3] at g3; cases g3
  obtain ⟨-, d, d1, d2, d3⟩ := clear_side (eng := E.refine3.eng) hδ h1 hE hy
  obtain ⟨-, e, q1, q2, q3⟩ := clear_side (eng := E.refine3.eng) hδ h2 hE hvl
  obtain ⟨b, hb, hiff⟩ := C79_digits_partial d1 q1 d2 q2
  obtain ⟨u, u', k1, k2, k3⟩ := compareDec_ok hb
  rw [e5] at k1; cases k1
  rw [hk, e6] at k2; cases k2
  have ha' : E.refine3.accuracy = n := ha
  rw [ha'] at e7
  have := hiff.1 (k3.2 e7)
  rwa [SameDigits, d3, q3] at this

/-- **C138 (errors).** For irrational values (with fractional parts above `10^-6`) small enough errors suffice, whatever the number of digits is: there
is a `δ` for `C138_found_partial` and `C138_true`. -/
theorem C138_errors {l l' : ℝ} (h : Irrational l) (h' : Irrational l') (h0 : 1 / 10 ^ 6 < Int.fract |l|) (h0' : 1 / 10 ^ 6 < Int.fract |l'|) (N : ℕ) :
    ∃ δ > 0, KeepsClear N (2 * δ) l ∧ KeepsClear N (2 * δ) l' := by
  obtain ⟨d1, p1, c1⟩ := keepsClear_of_irrational h h0 N
  obtain ⟨d2, p2, c2⟩ := keepsClear_of_irrational h' h0' N
  have mono : ∀ {a b l : ℝ}, a ≤ b → KeepsClear N (2 * b) l → KeepsClear N (2 * a) l := by
    rintro a b l hab ⟨q1, q2⟩
    exact ⟨fun k => (show 2 * a ≤ 2 * b by linarith).trans_lt (q1 k), by linarith⟩
  exact ⟨min d1 d2, lt_min p1 p2, mono (min_le_left _ _) c1, mono (min_le_right _ _) c2⟩

/-- C138 for ULCD searches with the code's own evaluators and convergence tests. -/
theorem C138_code {x : ℚ} {E : SearchEnv Ulcd} (A : Analysis) (required : ℚ → ℚ → Except PyErr ℤ) {n1 : ℕ} (hn1 : 1 ≤ n1) (n2 n3 : ℤ)
    (hid0 : ∀ f, E.funcs[0]? = some f → ∀ x, f x = .ok x) (heng : ∀ x, E.eng x ≠ .error .keyboardInterrupt)
    (hreq : ∀ x y, required x y ≠ .error .keyboardInterrupt) (hfun : ∀ f ∈ E.funcs, ∀ x, f x ≠ .error .keyboardInterrupt)
    (hos : ∀ o ∈ E.gen.1, UlcdOk x o) (htr : E.trunc = true) {l l' δ : ℝ} {N : ℕ} (hδ : 0 ≤ δ) (h1 : KeepsClear N (2 * δ) l)
    (h2 : KeepsClear N (2 * δ) l') (hid : Int.fract |l| = Int.fract |l'|) (hN : Spec.Digits E N) (hE : Prints E.eng δ) {o : Ulcd} (ho : o ∈ E.gen.1)
    (hwl : |(o.val : ℝ) - l'| ≤ δ) (hd : o.isDegenerate = false) {y : ℚ} (hy : |(y : ℝ) - l| ≤ δ) {s : Str}
    (hs : E.eng (.fin (Int.fract |y|)) = .ok s) {es : List Entry} (hes : stored E.table s = some (.list es)) {a b : Polys} {post : ℕ}
    (he : ((a, b), post) ∈ es) {f : Num → Except PyErr Num} (hf : E.funcs[post]? = some f) {t : Conv} (hfast : fastNew a b = .ok true)
    (hest : estimateNew A a b = .ok t) (ht : t.1 = .exp ∨ t.1 = .superExp)
    (r1 : ∃ v y, evalConst n1 a b none = .ok v ∧ f v = .ok (.fin y) ∧ |(y : ℝ) - l| ≤ δ)
    (r2 : ∃ v y, evalInfo required n2 E.accuracy2 a b (some t) = .ok v ∧ f v = .ok (.fin y) ∧ |(y : ℝ) - l| ≤ δ)
    (r3 : ∃ v y, evalInfo required n3 E.accuracy3 a b (some t) = .ok v ∧ f v = .ok (.fin y) ∧ |(y : ℝ) - l| ≤ δ)
    (hroots : ∀ p ∈ b, ∀ z ∈ E.roots p.reverse, ¬ TakenForPosInt z)
    {old cs : List (Click Ulcd)} (h : search ulcdClass (E.withCode A required n1 n2 n3) none old = (cs, .ok ())) :
    ∃ c ∈ cs, c.b = b ∧ c.post = post ∧ (c.a = a ∨ post = 0 ∧ c.a = a.map fun p => p.map fun x => -x) ∧ c.conv = some t ∧
      Int.fract |c.lhs.val| = Int.fract |o.val| := by
  obtain ⟨v1, y1, p1, p2, p3⟩ := r1
  obtain ⟨v2, y2, q1, q2, q3⟩ := r2
  obtain ⟨v3, y3, u1, u2, u3⟩ := r3
  obtain ⟨c, hc, e1, e2, e3, e4, v, hv, hk⟩ := C138_found_partial (E := E.withCode A required n1 n2 n3) (ulcd_searchLaws x) (ulcd_equivMeans x) ulcdIsEquiv_calm
    (signFree_code E A required hn1 n2 n3 fun f hf x => by rw [hid0 f hf, hid0 f hf]; rfl) ⟨heng, evalInfo_calm hreq n3 E.accuracy3, hfun⟩ hos htr hδ h1 h2 hid
    ⟨hN.accuracy1, hN.accuracy2, hN.accuracy3, hN.table⟩ hE ho (w := o.val) rfl hwl (by rw [ulcdClass]; exact congrArg Except.ok hd) hy hs hes he
    ⟨f, v1, y1, hf, p1, p2, p3⟩ hfast hest ht ⟨f, v2, y2, hf, q1, q2, q3⟩ ⟨f, v3, y3, hf, u1, u2, u3⟩ hroots h
  have hv : Num.fin c.lhs.val = .fin v := hv
  cases hv
  exact ⟨c, hc, e1, e2, e3, e4, hk⟩

/-! ### The golden ratio -/

/-- `exGolden` with ten more digits: the LHS is 2.6180339887, the numbers are printed with 12 digits. -/
def exGoldenLong : SearchEnv Ulcd :=
  { exGolden with
    eng := cutEng 12
    gen := ([⟨(0, 1, 0, 2), 26180339887 / 10 ^ 10, 26180339887 / 10 ^ 10 / 2⟩, exUlcd (26180339887 / 10 ^ 10)], .ok ()) }

theorem golden_bounds : (1.61803 : ℝ) < Real.goldenRatio ∧ Real.goldenRatio < 1.61804 := by
  rw [Real.goldenRatio]
  have h0 := Real.sqrt_nonneg 5
  have h1 := Real.sq_sqrt (show (0 : ℝ) ≤ 5 by norm_num)
  constructor <;> nlinarith

theorem golden_clear (i : ℤ) (hi : 0 ≤ i) : KeepsClear 3 (2 * (1 / 10 ^ 5)) (Real.goldenRatio + i) ∧
    Int.fract |Real.goldenRatio + i| = Real.goldenRatio - 1 := by
  obtain ⟨h1, h2⟩ := golden_bounds
  have hi' : (0 : ℝ) ≤ i := by exact_mod_cast hi
  have hf : Int.fract |Real.goldenRatio + i| = Real.goldenRatio - 1 := by
    rw [abs_of_pos (by linarith), show Real.goldenRatio + i = (Real.goldenRatio - 1) + ((i + 1 : ℤ) : ℝ) by push_cast; ring, Int.fract_add_intCast,
      Int.fract_eq_self.2 ⟨by linarith, by linarith⟩]
  refine ⟨⟨fun k => ?_, by rw [hf]; norm_num at h1 ⊢; linarith⟩, hf⟩
  rw [abs_of_pos (show 0 < Real.goldenRatio + i by linarith)]
  rcases le_or_gt (k - 1000 * i) 1618 with hk | hk
  · have hk : (k : ℝ) - 1000 * i ≤ 1618 := by exact_mod_cast hk
    refine lt_of_lt_of_le ?_ (le_abs_self _)
    norm_num at h1 ⊢
    linarith
  · have hk : (1619 : ℝ) ≤ (k : ℝ) - 1000 * i := by exact_mod_cast hk
    refine lt_of_lt_of_le ?_ (neg_le_abs _)
    norm_num at h2 ⊢
    linarith

/-- The continued fraction `1 + 1/(1 + 1/(1 + …))` of the golden ratio `φ`, and an LHS for `φ²`: the search has a result by `C138_code`. -/
example : ∃ cs, search ulcdClass (exGoldenLong.withCode exAnalysis (fun _ _ => .ok 20) 20 20 20) none [] = (cs, .ok ()) ∧
    ∃ c ∈ cs, c.b = [[1]] ∧ c.post = 0 ∧ (c.a = [[1]] ∨ 0 = 0 ∧ c.a = [[-1]]) := by
  obtain ⟨b1, b2⟩ := golden_bounds
  norm_num at b1 b2
  obtain ⟨g1, g2⟩ := golden_clear 0 le_rfl
  obtain ⟨g3, g4⟩ := golden_clear 1 (by norm_num)
  have near : ∀ y : ℚ, |y - 1618034 / 10 ^ 6| ≤ 1 / 10 ^ 6 → |(y : ℝ) - (Real.goldenRatio + (0 : ℤ))| ≤ 1 / 10 ^ 5 := by
    intro y hy
    have hy' : |((y - 1618034 / 10 ^ 6 : ℚ) : ℝ)| ≤ ((1 / 10 ^ 6 : ℚ) : ℝ) := by exact_mod_cast hy
    push_cast at hy'
    obtain ⟨y1, y2⟩ := abs_le.1 hy'
    rw [abs_le]
    push_cast
    constructor <;> linarith
  have hos : ∀ o ∈ exGoldenLong.gen.1, UlcdOk (26180339887 / 10 ^ 10) o := (exSearch_hyps (w := 26180339887 / 10 ^ 10) (by norm_num) 0).2.1
  have hok : (search ulcdClass (exGoldenLong.withCode exAnalysis (fun _ _ => .ok 20) 20 20 20) none []).2.toOption.isSome = true := by decide +kernel
  rcases hr : search ulcdClass (exGoldenLong.withCode exAnalysis (fun _ _ => .ok 20) 20 20 20) none [] with ⟨cs, err | u⟩
  · rw [hr] at hok; cases hok
  obtain ⟨c, hc, e1, e2, e3, -, -⟩ := C138_code (x := 26180339887 / 10 ^ 10) (E := exGoldenLong) exAnalysis (fun _ _ => .ok 20) (n1 := 20) (by norm_num) 20 20
    (by rintro f hf x; cases hf; rfl) (by intro x; cases x <;> nofun) nofun
    (by intro f hf x; rw [List.mem_singleton.1 hf]; nofun) hos rfl (δ := 1 / 10 ^ 5) (by positivity) g1 g3 (g2.trans g4.symm)
    ⟨by decide, by decide, by decide, by decide⟩ (Prints.mono (cutEng_prints 12) (by norm_num)) (o := exUlcd (26180339887 / 10 ^ 10))
    (List.mem_cons_of_mem _ (List.mem_singleton.2 rfl))
    (by
      have : ((exUlcd (26180339887 / 10 ^ 10)).val : ℝ) = 26180339887 / 10 ^ 10 := by
        show ((26180339887 / 10 ^ 10 : ℚ) : ℝ) = _
        push_cast
        rfl
      rw [this, abs_le]
      push_cast
      constructor <;> norm_num <;> linarith)
    (by decide +kernel) (y := 10946 / 6765) (near _ (by norm_num [abs_le])) (s := "0.618033998521".toList) (by decide +kernel)
    (es := [(([[1]], [[1]]), 0), (([[2]], [[1]]), 0)]) (by decide +kernel) (a := [[1]]) (b := [[1]]) (post := 0) (by decide) (f := fun x => .ok x) rfl
    (t := exGoldenConv) (by decide +kernel) exGoldenConv_eq (by left; decide +kernel)
    ⟨.fin (10946 / 6765), 10946 / 6765, by decide +kernel, rfl, near _ (by norm_num [abs_le])⟩
    ⟨.fin (17711 / 10946), 17711 / 10946, by decide +kernel, rfl, near _ (by norm_num [abs_le])⟩
    ⟨.fin (17711 / 10946), 17711 / 10946, by decide +kernel, rfl, near _ (by norm_num [abs_le])⟩
    (by
      intro p _ z hz
      rw [List.mem_singleton.1 hz]
      rintro ⟨-, n, h1, h2, h3⟩
      rcases h3 with h3 | ⟨h3, hev⟩
      · have : (1 : ℚ) ≤ n := by exact_mod_cast h1
        norm_num at h3
        linarith
      · have : (n : ℚ) = 1 := by norm_num at h3; linarith
        have : n = 1 := by exact_mod_cast this
        rw [this] at hev
        exact absurd hev (by decide)) hr
  exact ⟨cs, rfl, c, hc, e1, e2, e3⟩

/-- The hypotheses of `C138_true` about the numbers, for the result of this search. -/
example : (search ulcdClass (exGoldenLong.withCode exAnalysis (fun _ _ => .ok 20) 20 20 20) none []).1.map (fun c => (c.a, c.b, c.post, c.lhs.val)) =
      [([[1]], [[1]], 0, 16180339887 / 10 ^ 10)] ∧
    (search ulcdClass (exGoldenLong.withCode exAnalysis (fun _ _ => .ok 20) 20 20 20) none []).1.map (fun c => c.conv == some exGoldenConv) = [true] ∧
    exGoldenLong.accuracy3 = 3 ∧ KeepsClear 3 (2 * (1 / 10 ^ 5)) (Real.goldenRatio + (0 : ℤ)) ∧ Prints exGoldenLong.eng (1 / 10 ^ 5) ∧
    evalInfo (fun _ _ => .ok 20) 20 3 [[1]] [[1]] (some exGoldenConv) = .ok (.fin (17711 / 10946)) ∧
    |((17711 / 10946 : ℚ) : ℝ) - (Real.goldenRatio + (0 : ℤ))| ≤ 1 / 10 ^ 5 ∧ |((16180339887 / 10 ^ 10 : ℚ) : ℝ) - (Real.goldenRatio + (0 : ℤ))| ≤ 1 / 10 ^ 5 := by
  obtain ⟨b1, b2⟩ := golden_bounds
  norm_num at b1 b2
  refine ⟨by decide +kernel, by decide +kernel, rfl, (golden_clear 0 le_rfl).1, Prints.mono (cutEng_prints 12) (by norm_num), by decide +kernel, ?_, ?_⟩ <;>
  · rw [abs_le]
    push_cast
    constructor <;> norm_num <;> linarith

/-- **C138 (violated).** The table has to have texts as keys.  A search in a table as `build_hashtable` makes it reports nothing, whatever identities there
are. -/
theorem C138_built_violated (bs : List (Env × Manip × Config × Bool × Ranges × Ranges)) (ho : ∀ b ∈ bs, Spec.IsSetOrder b.1.order) (n : ℤ)
    (C : LhsClass L) (E : SearchEnv L) (htab : E.table = builds bs (Table.init n)) {old cs : List (Click L)} (h : search C E none old = (cs, .ok ())) :
    cs = [] := by
  rw [search] at h
  obtain ⟨_, cs1, h1, h⟩ := bind_ok_inv h
  rw [htab] at h1
  obtain rfl := C55_matches_found_violated bs ho n C E.eng E.trunc E.gen.1 E.gen.2 old cs1 h1
  obtain ⟨_, cs2, h2, h⟩ := bind_ok_inv h
  cases h2
  obtain ⟨_, cs3, h3, h⟩ := bind_ok_inv h
  cases h3
  obtain ⟨_, cs4, h4, h⟩ := bind_ok_inv h
  obtain rfl : cs4 = [] := List.eq_nil_iff_forall_not_mem.2 fun c hc => by cases (filterExp_mem h4 c hc).1
  obtain ⟨_, cs5, h5, h⟩ := bind_ok_inv h
  obtain rfl : cs5 = [] := List.eq_nil_iff_forall_not_mem.2 fun c hc => by obtain ⟨c0, hc0, -⟩ := filterByApproach_mem h5 c hc; cases hc0
  obtain ⟨_, cs6, h6, h⟩ := bind_ok_inv h
  cases h6
  have hl : lastStage C E.refine3 E.roots none [] = ([], .ok ()) := rfl
  rw [hl] at h
  cases h
  rfl

end PiCF
