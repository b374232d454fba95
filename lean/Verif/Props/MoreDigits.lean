import Verif.Props.Monotone

/-!
# C140: comparing more digits only removes results
-/

namespace PiCF
open PiCF.Spec PiCF.Hashtable PiCF.Mitm PiCF.EnumPoly PiCF.Lhs PiCF.ContFrac

variable {L κ : Type}

/-- The second search differs from the first only in the numbers of digits compared in the three refinements; it never compares
fewer. -/
structure Spec.MoreDigits (E E' : SearchEnv L) : Prop where
  rest : { E' with accuracy1 := E.accuracy1, accuracy2 := E.accuracy2, accuracy3 := E.accuracy3 } = E
  first : 0 ≤ E.accuracy1 ∧ E.accuracy1 ≤ E'.accuracy1
  second : 0 ≤ E.accuracy2 ∧ E.accuracy2 ≤ E'.accuracy2
  third : 0 ≤ E.accuracy3 ∧ E.accuracy3 ≤ E'.accuracy3

theorem sliceTo_mono {α : Type} {s s' : List α} {m n : ℤ} (h0 : 0 ≤ m) (h : m ≤ n) (e : sliceTo s n = sliceTo s' n) :
    sliceTo s m = sliceTo s' m := by
  rw [sliceTo, sliceTo, if_pos (h0.trans h), if_pos (h0.trans h)] at e
  rw [sliceTo, sliceTo, if_pos h0, if_pos h0]
  have hm : m.toNat = min m.toNat n.toNat := (min_eq_left (Int.toNat_le_toNat h)).symm
  rw [hm, ← List.take_take, ← List.take_take, e]

theorem Agrees.fewer {env : RefineEnv} {m : ℤ} (h0 : 0 ≤ m) (hm : m ≤ env.accuracy) {a b : Polys} {post : ℕ} {k : ℚ} {t : Option Conv}
    (h : Agrees env a b post k t) : Agrees { env with accuracy := m } a b post k t := by
  obtain ⟨f, r, y, s, s', h1, h2, h3, h4, h5, h6, h7⟩ := h
  exact ⟨f, r, y, s, s', h1, h2, h3, h4, h5, h6, sliceTo_mono (by show 0 ≤ m + 2; omega) (by show m + 2 ≤ _; omega) h7⟩

theorem Spec.Passes.fewer {C : LhsClass L} {E E' : SearchEnv L} (hd : Spec.MoreDigits E E') {a b : Polys} {post : ℕ} {k : ℚ} {t : Conv}
    (h : Spec.Passes C E' a b post k t) : Spec.Passes C E a b post k t := by
  obtain ⟨found, r1, fast, est, type, r2, r3, roots⟩ := h
  obtain ⟨hr, h1, h2, h3⟩ := hd
  rw [← hr]
  exact ⟨found, r1.fewer h1.1 h1.2, fast, est, type, r2.fewer h2.1 h2.2, r3.fewer h3.1 h3.2, roots⟩

/-- **C140 (tests).** For both LHS classes: every result of an uninterrupted search passes all tests of every search that compares fewer digits. -/
theorem C140_tests {C : LhsClass L} {Inv : L → Prop} {key : Click L → κ} {out : κ → κ → Except PyErr Bool}
    (laws : SearchLaws C Inv key out) (hout : ∀ k k', out k k' ≠ .error .keyboardInterrupt) {E E' : SearchEnv L}
    (hd : Spec.MoreDigits E E') (hn : NoInterrupt E'.refine3) (hos : ∀ o ∈ E'.gen.1, Inv o) (htr : E'.trunc = true)
    {old cs : List (Click L)} (h : search C E' none old = (cs, .ok ())) {c : Click L} (hc : c ∈ cs) :
    ∃ k t v, c.conv = some t ∧ C.val c.lhs = .fin v ∧ Int.fract |v| = k ∧ Spec.Passes C E c.a c.b c.post k t := by
  obtain ⟨k, t, v, h1, h2, h3, h4⟩ := C136_sound laws hout hn hos htr h hc
  exact ⟨k, t, v, h1, h2, h3, h4.fewer hd⟩

/-- **C140 (partial).** With LHS classes whose test of equivalent clicks compares the values, and evaluators that do not depend on the
numbers of digits: whatever a search reports is reported by every search that compares fewer digits.
Missing: rational functions (only `C140_tests`, as for C136), and evaluators whose number of iterations grows with the number of digits
(`C140_violated`). -/
theorem C140_digits_partial {C : LhsClass L} {Inv : L → Prop} {key : Click L → κ} {out : κ → κ → Except PyErr Bool}
    (laws : SearchLaws C Inv key out) (hm : EquivMeans C Inv key out) (hout : ∀ k k', out k k' ≠ .error .keyboardInterrupt)
    {E E' : SearchEnv L} (hd : Spec.MoreDigits E E') (sym : SignFree E) (hn : NoInterrupt E.refine3) (hn' : NoInterrupt E'.refine3)
    (hos : ∀ o ∈ E.gen.1, Inv o) (hos' : ∀ o ∈ E'.gen.1, Inv o) (htr : E.trunc = true) (htr' : E'.trunc = true)
    {old old' cs cs' : List (Click L)} (h : search C E none old = (cs, .ok ())) (h' : search C E' none old' = (cs', .ok ()))
    {a b : Polys} {post : ℕ} {k : ℚ} {t : Conv} (hr : Spec.ReportsUpToSign C cs' a b post k t) :
    Spec.ReportsUpToSign C cs a b post k t := by
  have sound : ∀ a, Spec.Reports C cs' a b post k t → Spec.Passes C E a b post k t := by
    rintro a ⟨c, hc, rfl, rfl, rfl, ht, v, hv, hk⟩
    obtain ⟨k', t', v', ht', hv', hk', hp⟩ := C140_tests laws hout hd hn' hos' htr' h' hc
    rw [ht] at ht'; cases ht'
    rw [hv] at hv'; cases hv'
    rw [← hk, hk']
    exact hp
  exact (C136_exact_partial laws hm hout sym hn hos htr h a b post k t).2 (hr.imp (sound _) fun ⟨h0, hr⟩ => ⟨h0, sound _ hr⟩)

/-- What has to be shown for the code's own functions. -/
theorem digits_code {x : ℚ} {E E' : SearchEnv Ulcd} {A : Analysis} {required : ℚ → ℚ → Except PyErr ℤ} {n1 : ℕ} (h1 : 1 ≤ n1) {n2 n3 : ℤ}
    (hd : Spec.MoreDigits (E.withCode A required n1 n2 n3) (E'.withCode A required n1 n2 n3))
    (hid : ∀ f, E.funcs[0]? = some f → ∀ x, f x = .ok x) (heng : ∀ x, E.eng x ≠ .error .keyboardInterrupt)
    (hreq : ∀ x y, required x y ≠ .error .keyboardInterrupt) (hfun : ∀ f ∈ E.funcs, ∀ x, f x ≠ .error .keyboardInterrupt)
    (htr : E.trunc = true) (hos : ∀ o ∈ E.gen.1, UlcdOk x o) (eeng : E'.eng = E.eng) (efun : E'.funcs = E.funcs)
    (etr : E'.trunc = E.trunc) (egen : E'.gen = E.gen)
    {old old' cs cs' : List (Click Ulcd)} (h : search ulcdClass (E.withCode A required n1 n2 n3) none old = (cs, .ok ()))
    (h' : search ulcdClass (E'.withCode A required n1 n2 n3) none old' = (cs', .ok ())) {c : Click Ulcd} (hc : c ∈ cs') :
    ∃ c' ∈ cs, c'.b = c.b ∧ c'.post = c.post ∧ (c'.a = c.a ∨ c.post = 0 ∧ c'.a = c.a.map fun p => p.map fun x => -x) ∧
      c'.conv = c.conv ∧ Int.fract |c'.lhs.val| = Int.fract |c.lhs.val| := by
  have hn : NoInterrupt (E.withCode A required n1 n2 n3).refine3 := ⟨heng, evalInfo_calm hreq n3 E.accuracy3, hfun⟩
  have hn' : NoInterrupt (E'.withCode A required n1 n2 n3).refine3 :=
    ⟨by rw [← eeng] at heng; exact heng, evalInfo_calm hreq n3 E'.accuracy3, by rw [← efun] at hfun; exact hfun⟩
  have hos' : ∀ o ∈ (E'.withCode A required n1 n2 n3).gen.1, UlcdOk x o := by
    intro o ho
    exact hos o (by rw [← egen]; exact ho)
  have htr' : (E'.withCode A required n1 n2 n3).trunc = true := etr.trans htr
  obtain ⟨k, t, v, ht, hv, hk, -⟩ := C136_sound (ulcd_searchLaws x) ulcdIsEquiv_calm hn' hos' htr' h' hc
  have hr := C140_digits_partial (ulcd_searchLaws x) (ulcd_equivMeans x) ulcdIsEquiv_calm hd
    (signFree_code E A required h1 n2 n3 fun f hf x => by rw [hid f hf, hid f hf]; rfl) hn hn' hos hos' htr htr' h h'
    (.inl ⟨c, hc, rfl, rfl, rfl, ht, v, hv, hk⟩)
  have hcv : c.lhs.val = v := by
    have : Num.fin c.lhs.val = .fin v := hv
    injection this
  have fin : ∀ {c' : Click Ulcd} {v'}, ulcdClass.val c'.lhs = .fin v' → Int.fract |v'| = k → Int.fract |c'.lhs.val| = Int.fract |c.lhs.val| := by
    intro c' v' hv' hk'
    have : Num.fin c'.lhs.val = .fin v' := hv'
    injection this with this
    rw [this, hk', hcv, hk]
  rcases hr with ⟨c', hc', e1, e2, e3, e4, v', e5, e6⟩ | ⟨h0, c', hc', e1, e2, e3, e4, v', e5, e6⟩
  · exact ⟨c', hc', e2, e3, .inl e1, e4.trans ht.symm, fin e5 e6⟩
  · exact ⟨c', hc', e2, e3, .inr ⟨h0, e1⟩, e4.trans ht.symm, fin e5 e6⟩

/-- **C140 (first_filtering_precision).** For ULCD searches with the code's own evaluators and convergence tests, and the identity as the first
function: a larger `first_filtering_precision` adds no result. -/
theorem C140_first {x : ℚ} {E : SearchEnv Ulcd} (A : Analysis) (required : ℚ → ℚ → Except PyErr ℤ) {n1 : ℕ} (h1 : 1 ≤ n1) (n2 n3 : ℤ)
    (hid : ∀ f, E.funcs[0]? = some f → ∀ x, f x = .ok x) (heng : ∀ x, E.eng x ≠ .error .keyboardInterrupt)
    (hreq : ∀ x y, required x y ≠ .error .keyboardInterrupt) (hfun : ∀ f ∈ E.funcs, ∀ x, f x ≠ .error .keyboardInterrupt)
    (htr : E.trunc = true) (hos : ∀ o ∈ E.gen.1, UlcdOk x o) {m : ℤ} (hm1 : 0 ≤ E.accuracy1) (hm : E.accuracy1 ≤ m) (hm2 : 0 ≤ E.accuracy2)
    (hm3 : 0 ≤ E.accuracy3)
    {old old' cs cs' : List (Click Ulcd)} (h : search ulcdClass (E.withCode A required n1 n2 n3) none old = (cs, .ok ()))
    (h' : search ulcdClass (SearchEnv.withCode { E with accuracy1 := m } A required n1 n2 n3) none old' = (cs', .ok ()))
    {c : Click Ulcd} (hc : c ∈ cs') :
    ∃ c' ∈ cs, c'.b = c.b ∧ c'.post = c.post ∧ (c'.a = c.a ∨ c.post = 0 ∧ c'.a = c.a.map fun p => p.map fun x => -x) ∧
      c'.conv = c.conv ∧ Int.fract |c'.lhs.val| = Int.fract |c.lhs.val| :=
  digits_code (E := E) (E' := { E with accuracy1 := m }) (A := A) (required := required) (n2 := n2) (n3 := n3) h1 ⟨rfl, ⟨hm1, hm⟩, ⟨hm2, le_refl _⟩, ⟨hm3, le_refl _⟩⟩ hid heng hreq hfun htr hos rfl rfl rfl rfl h h' hc

theorem evalInfo_same {required : ℚ → ℚ → Except PyErr ℤ} (hreq : ∀ x x' y, required x y = required x' y) (n m m' : ℤ) :
    evalInfo required n m = evalInfo required n m' := by
  have hne : ∀ m : ℤ, (10 : ℚ) ^ (-(m + 100)) ≠ 0 := fun m => zpow_ne_zero _ (by norm_num)
  have key : ∀ s : CF, genIterationsAcc required n (10 ^ (-(m + 100))) true s = genIterationsAcc required n (10 ^ (-(m' + 100))) true s := by
    intro s
    rw [genIterationsAcc, genIterationsAcc]
    simp only [ne_eq, hne, not_false_eq_true, and_true]
    split
    · split
      · rfl
      · rw [hreq _ ((10 : ℚ) ^ (-(m' + 100)))]
    · rfl
  funext a b t
  rw [evalInfo, evalInfo]
  simp only [key]

/-- **C140 (partial), code.** The same for all three precisions, if the number of iterations that `gen_iterations` finds necessary does not
depend on the accuracy asked for (with `mpf` numbers its computation raises AttributeError, which is such a case). -/
theorem C140_code_partial {x : ℚ} {E : SearchEnv Ulcd} (A : Analysis) (required : ℚ → ℚ → Except PyErr ℤ) (hacc : ∀ x x' y, required x y = required x' y)
    {n1 : ℕ} (h1 : 1 ≤ n1) (n2 n3 : ℤ)
    (hid : ∀ f, E.funcs[0]? = some f → ∀ x, f x = .ok x) (heng : ∀ x, E.eng x ≠ .error .keyboardInterrupt)
    (hreq : ∀ x y, required x y ≠ .error .keyboardInterrupt) (hfun : ∀ f ∈ E.funcs, ∀ x, f x ≠ .error .keyboardInterrupt)
    (htr : E.trunc = true) (hos : ∀ o ∈ E.gen.1, UlcdOk x o) {m1 m2 m3 : ℤ} (hm1 : 0 ≤ E.accuracy1 ∧ E.accuracy1 ≤ m1)
    (hm2 : 0 ≤ E.accuracy2 ∧ E.accuracy2 ≤ m2) (hm3 : 0 ≤ E.accuracy3 ∧ E.accuracy3 ≤ m3)
    {old old' cs cs' : List (Click Ulcd)} (h : search ulcdClass (E.withCode A required n1 n2 n3) none old = (cs, .ok ()))
    (h' : search ulcdClass (SearchEnv.withCode { E with accuracy1 := m1, accuracy2 := m2, accuracy3 := m3 } A required n1 n2 n3) none old' =
      (cs', .ok ())) {c : Click Ulcd} (hc : c ∈ cs') :
    ∃ c' ∈ cs, c'.b = c.b ∧ c'.post = c.post ∧ (c'.a = c.a ∨ c.post = 0 ∧ c'.a = c.a.map fun p => p.map fun x => -x) ∧
      c'.conv = c.conv ∧ Int.fract |c'.lhs.val| = Int.fract |c.lhs.val| := by
  refine digits_code (E := E) (E' := { E with accuracy1 := m1, accuracy2 := m2, accuracy3 := m3 }) h1 ⟨?_, hm1, hm2, hm3⟩ hid heng hreq hfun htr hos
    rfl rfl rfl rfl h h' hc
  simp only [SearchEnv.withCode, evalInfo_same hacc n2 m2 E.accuracy2, evalInfo_same hacc n3 m3 E.accuracy3]

/-- The hypotheses of `C140_code_partial` and `C140_first` (and so of `C140_digits_partial` and `C140_tests`) for the search `exGolden` with two and three
digits after the point: both report the golden ratio. -/
example : (∀ o ∈ exGolden.gen.1, UlcdOk (26180 / 10000) o) ∧ exGolden.accuracy1 = 3 ∧ exGolden.accuracy2 = 3 ∧ exGolden.accuracy3 = 3 ∧
    (search ulcdClass (SearchEnv.withCode { exGolden with accuracy1 := 2, accuracy2 := 2, accuracy3 := 2 } exAnalysis (fun _ _ => .ok 20) 20 20 20)
      none []).2.toOption = some () ∧
    (search ulcdClass exGoldenCode none []).2.toOption = some () ∧
    (search ulcdClass exGoldenCode none []).1.map (fun c => (c.a, c.b, c.lhs.val)) = [([[1]], [[1]], 26180 / 10000)] :=
  ⟨(exSearch_hyps (w := 26180 / 10000) (by norm_num) 0).2.1, rfl, rfl, rfl, by decide +kernel, by decide +kernel, by decide +kernel⟩

/-- 20 iterations for an accuracy of 3 digits (and the 100 that the code adds), 4 for less. -/
def growing : ℚ → ℚ → Except PyErr ℤ := fun acc _ => .ok (if acc ≤ 10 ^ (-103 : ℤ) then 20 else 4)

/-- **C140 (violated).** If more iterations are found necessary for more digits, then a larger `third_filtering_precision` can add a result: with
two digits the golden ratio is evaluated with 4 iterations, which is not enough for them, and nothing is reported. -/
theorem C140_violated :
    (∀ x y b n n', x ≤ y → growing x b = .ok n → growing y b = .ok n' → n' ≤ n) ∧
    ∃ cs cs', search ulcdClass (SearchEnv.withCode { exGolden with accuracy3 := 2 } exAnalysis growing 20 20 20) none [] = (cs, .ok ()) ∧
      search ulcdClass (SearchEnv.withCode { exGolden with accuracy3 := 3 } exAnalysis growing 20 20 20) none [] = (cs', .ok ()) ∧
      cs = [] ∧ cs'.map (fun c => (c.a, c.b, c.lhs.val)) = [([[1]], [[1]], 26180 / 10000)] := by
  have ok : ∀ {σ : Type} {r : σ × Except PyErr Unit}, r.2.toOption = some () → r = (r.1, .ok ()) := by
    rintro σ ⟨s, e | ⟨⟩⟩ h
    · cases h
    · rfl
  refine ⟨?_, _, _, ok (by decide +kernel), ok (by decide +kernel), by decide +kernel, by decide +kernel⟩
  intro x y b n n' hxy h h'
  simp only [growing, Except.ok.injEq] at h h'
  subst h h'
  split <;> split <;> first | omega | (rename_i h1 h2; exact absurd (hxy.trans h1) h2)

end PiCF
