import Verif.Props.Complete

/-!
# C93 for rational functions: a verified result is lost
-/

namespace PiCF
open PiCF.Spec PiCF.Hashtable PiCF.Mitm PiCF.EnumPoly PiCF.Lhs PiCF.ContFrac Polynomial

/-- The objects which occur in the example: `1/(c + x)` at `x = 300`. -/
structure OneOver (c : ℤ) (s : RF) : Prop where
  inv : s.Inv
  num : s.num = [1]
  den : s.den = [c, 1]
  added : s.added = 0
  x : s.x = 300
  params : s.params = ([1], [c, 1], 0)

theorem OneOver.init (c : ℤ) : OneOver c (RF.init ([1], [c, 1], 0) 300) :=
  ⟨RF.init_inv (by simp) ⟨1, by simp, by decide⟩, rfl, rfl, rfl, rfl, rfl⟩

theorem OneOver.val {c : ℤ} {s : RF} (h : OneOver c s) : s.val = RF.calcVal [1] [c, 1] 0 300 := by
  rw [h.inv.val, h.num, h.den, h.added, h.x]

theorem linear_gcd (c : ℤ) : polyGcd (ofCoeffs [1]) (ofCoeffs [c, 1]) = 1 := by
  rw [show ofCoeffs [1] = 1 by simp [ofCoeffs]]
  exact polyGcd_eq_one isRelPrime_one_left

theorem linear_rrDiv (c : ℤ) : rrDiv (ofCoeffs [1]) (ofCoeffs [c, 1]) = .ok (0, 1) := by
  have c1 : ofCoeffs [1] = 1 := by simp [ofCoeffs]
  have c2 : ofCoeffs [c, 1] = X + C c := by simp [ofCoeffs, add_comm]
  rw [c1, c2, rrDiv, if_neg (X_add_C_ne_zero c), natDegree_one, rrDivLoop, if_pos]
  right; left
  rw [natDegree_one, natDegree_X_add_C]
  exact zero_lt_one

theorem OneOver.canon {c : ℤ} {s : RF} (h : OneOver c s) : ∃ s', RF.canonalizeParams s = (s', .ok ()) ∧ OneOver c s' := by
  obtain ⟨s', n, d, e, i, hx, hpar, hn, hd, hd0, h1, h2, h3⟩ := RF.canonalizeParams_eq h.inv
  rw [h.num, h.den, linear_gcd, one_mul] at hn hd
  have c1 : ofCoeffs [1] = 1 := by simp [ofCoeffs]
  have c2 : ofCoeffs [c, 1] = X + C c := by simp [ofCoeffs, add_comm]
  have hX : (X + C c : ℤ[X]) ≠ 0 := X_add_C_ne_zero c
  have hdiv : (toQ (1 : ℤ[X]) / toQ (X + C c)) = 0 := by
    rw [Polynomial.div_eq_zero_iff (toQ_ne_zero hX)]
    have : toQ (X + C c) = X + C (c : ℚ) := by rw [toQ_add, toQ_C]; simp [toQ]
    rw [this, degree_X_add_C, show toQ (1 : ℤ[X]) = 1 by simp [toQ], degree_one]
    exact zero_lt_one
  rw [← hn, ← hd, c1, c2, hdiv, coeff_zero, Int.ceil_zero] at h1 h2
  rw [h.added, add_zero] at h1
  rw [C_0, zero_mul, sub_zero, sympoly2poly, natDegree_one] at h2
  have h2 : s'.num = [1] := by rw [h2]; simp
  have h3 : s'.den = [c, 1] := by
    rw [h3, ← hd, c2, sympoly2poly, natDegree_X_add_C]
    simp [List.range_succ, coeff_X, coeff_C, -eq_intCast]
  exact ⟨s', e, i, h2, h3, h1, hx.trans h.x, by rw [hpar, h2, h3, h1]⟩

theorem OneOver.add {c : ℤ} {s : RF} (h : OneOver c s) : ∃ s', RF.addInt 0 s = (s', .ok ()) ∧ OneOver c s' := by
  refine ⟨_, RF.addInt_eq 0 s, ⟨nofun, nofun, rfl, rfl, h.inv.num_ne, h.inv.den_ne⟩, h.num, h.den, ?_, h.x, ?_⟩
  · show s.added + 0 = 0
    rw [h.added]; rfl
  · show (s.num, s.den, s.added + 0) = _
    rw [h.num, h.den, h.added]; rfl

theorem OneOver.degenerate {c : ℤ} {s : RF} (h : OneOver c s) : ∃ s', RF.isDegenerate s = (s', .ok false) ∧ OneOver c s' := by
  obtain ⟨s', e, h'⟩ := h.canon
  refine ⟨s', ?_, h'⟩
  rw [RF.isDegenerate, PyM.bind_ok e, PyM.bind_ok (show PyM.get s' = (s', .ok s') from rfl), h'.num, h'.den]
  rfl

theorem OneOver.sym {c : ℤ} {s : RF} (h : OneOver c s) : ∃ s' s'', RF.numeratorSym s = (s', .ok (ofCoeffs [1])) ∧
    RF.denominatorSym s' = (s'', .ok (ofCoeffs [c, 1])) ∧ OneOver c s'' := by
  obtain ⟨u, f, j, p, g, g', a, x, v⟩ := RF.numeratorSym_eq h.inv
  obtain ⟨w, f', j', p', m, m', a', x', v'⟩ := RF.denominatorSym_eq j
  rw [g', h.den] at f'
  rw [h.num] at f
  refine ⟨u, w, f, f', j', ?_, ?_, ?_, ?_, ?_⟩
  · rw [m, g, h.num]
  · rw [m', g', h.den]
  · rw [a', a, h.added]
  · rw [x', x, h.x]
  · rw [p', p, h.params]

theorem OneOver.equiv {c c' : ℤ} {s s' : RF} (h : OneOver c s) (h' : OneOver c' s') :
    ∃ t t', rfIsEquiv [[1]] [[1]] s 0 [[1]] [[1]] s' 0 = (t, t', .ok true) ∧ OneOver c t ∧ OneOver c' t' := by
  obtain ⟨s1, e1, h1⟩ := h.canon
  obtain ⟨s2, e2, h2⟩ := h'.canon
  obtain ⟨u1, w1, f1, g1, k1⟩ := h1.sym
  obtain ⟨u2, w2, f2, g2, k2⟩ := h2.sym
  refine ⟨w1, w2, ?_, k1, k2⟩
  rw [rfIsEquiv, if_neg (by simp)]
  simp only [e1, e2, f1, g1, linear_rrDiv, f2, g2]
  simp [inversePair]

/-- A search with the functions `1/(1 + x)` and `1/(2 + x)` at `x = 300`, and one stored continued fraction, whose value is
`1/302`, up to the sign of `a`. -/
def exRfSearch : SearchEnv RF where
  table := ⟨4, [], [(.str "0.003".toList, .list [(([[1]], [[1]]), 0)])]⟩
  gen := ([RF.init ([1], [1, 1], 0) 300, RF.init ([1], [2, 1], 0) 300], .ok ())
  eng := exEng4
  trunc := true
  funcs := [fun x => .ok x]
  accuracy1 := 3
  eval1 := fun a _ _ => .ok (.fin (((a.headD []).headD 0 : ℤ) * (1 / 302)))
  accuracy2 := 3
  eval2 := fun a _ _ => .ok (.fin (((a.headD []).headD 0 : ℤ) * (1 / 302)))
  accuracy3 := 3
  eval3 := fun a _ _ => .ok (.fin (((a.headD []).headD 0 : ℤ) * (1 / 302)))
  fast := fun _ _ => .ok true
  report := fun _ _ => .ok ()
  printSlow := true
  build := fun _ _ => .ok ()
  estimate := fun _ _ => .ok (.exp, some (2, 3))
  roots := fun _ => [(1 / 2, 0)]

/-- The environment of the three refinements. -/
def exRfRefine : RefineEnv := exRfSearch.refine1

/-- A click of the example. -/
structure ExClick (c : ℤ) (t : Option Conv) (k : Click RF) : Prop where
  a : k.a = [[1]]
  b : k.b = [[1]]
  post : k.post = 0
  conv : k.conv = t
  lhs : OneOver c k.lhs

theorem refineOne_ex {c : ℤ} (hc : c = 1 ∨ c = 2) {t : Option Conv} {k : Click RF} (h : ExClick c t k) :
    ∃ k', refineOne rfClass exRfRefine ⟨none, k⟩ = (⟨none, k'⟩, .ok true) ∧ ExClick c t k' := by
  obtain ⟨l1, e1, h1⟩ := h.lhs.add
  obtain ⟨l2, e2, h2⟩ := h1.canon
  have e1 : rfClass.addInt 0 k.lhs = (l1, .ok ()) := e1
  have e2 : rfClass.canon l1 = (l2, .ok ()) := e2
  have hv : rfClass.val k.lhs = RF.calcVal [1] [c, 1] 0 300 := h.lhs.val
  have hr : rhsValue exRfRefine k = .ok (.fin (1 / 302)) := by
    have : exRfRefine.eval k.a k.b k.conv = .ok (.fin (1 / 302)) := by
      rw [h.a]
      show Except.ok (Num.fin (((1 : ℤ) : ℚ) * (1 / 302))) = _
      norm_num
    rw [rhsValue, h.post]
    simp only [this]
    rfl
  obtain ⟨q, hq⟩ : ∃ q, q = 1 / (300 + (c : ℚ)) := ⟨_, rfl⟩
  have hvq : rfClass.val k.lhs = .fin q := by
    rw [hv, hq]
    rcases hc with rfl | rfl <;> decide +kernel
  have t1 : truncate exRfRefine.trunc (absNum (.fin (1 / 302))) = .ok (.fin (1 / 302)) := by decide +kernel
  have t2 : truncate exRfRefine.trunc (absNum (.fin q)) = .ok (.fin q) := by
    rw [hq]
    rcases hc with rfl | rfl <;> decide +kernel
  have t3 : compareDec exRfRefine.eng (.fin (1 / 302)) (.fin q) exRfRefine.accuracy = .ok true := by
    rw [hq]
    rcases hc with rfl | rfl <;> decide +kernel
  have t4 : signsDiffer (.fin (1 / 302)) (.fin q) = false := by
    rw [hq]
    rcases hc with rfl | rfl <;> decide +kernel
  have t5 : toInt (subNum (.fin (1 / 302)) (.fin q)) = .ok 0 := by
    rw [hq]
    rcases hc with rfl | rfl <;> decide +kernel
  have hadd : asRuntimeError (toInt (subNum (.fin (1 / 302)) (.fin q))) (addDifference rfClass (.fin (1 / 302)) (.fin q)) ⟨none, k⟩ =
      (⟨none, { k with lhs := l1 }⟩, .ok ()) := by
    have : addDifference rfClass (.fin (1 / 302)) (.fin q) ⟨none, k⟩ = (⟨none, { k with lhs := l1 }⟩, .ok ()) := by
      rw [addDifference, PyM.bind_ok (show tick _ = (_, .ok ()) from rfl), t5,
        PyM.bind_ok (show Mitm.lift (.ok (0 : ℤ)) (⟨none, k⟩ : RSt RF) = (_, .ok 0) from rfl), onLhs]
      simp only [e1]
    rw [asRuntimeError, this]
  have hadj : adjust rfClass (.fin (1 / 302)) (.fin q) ⟨none, k⟩ = (⟨none, { k with lhs := l2 }⟩, .ok ()) := by
    rw [adjust, PyM.bind_ok (show tick _ = (_, .ok ()) from rfl), t4,
      PyM.bind_ok (show flipIf rfClass false (⟨none, k⟩ : RSt RF) = (_, .ok ()) from rfl),
      PyM.bind_ok (show tick _ = (_, .ok ()) from rfl)]
    simp only [Bool.false_eq_true, if_false]
    rw [PyM.bind_ok hadd, PyM.bind_ok (show tick _ = (_, .ok ()) from rfl),
      PyM.bind_ok (show onLhs rfClass.canon (⟨none, { k with lhs := l1 }⟩ : RSt RF) = (⟨none, { k with lhs := l2 }⟩, .ok ()) by
        rw [onLhs]; simp only [e2])]
    rfl
  refine ⟨{ k with lhs := l2 }, ?_, h.a, h.b, h.post, h.conv, h2⟩
  rw [refineOne, PyM.bind_ok (show tick _ = (_, .ok ()) from rfl), PyM.bind_ok (show PyM.get _ = (_, .ok _) from rfl)]
  simp only [hr, hvq]
  rw [PyM.bind_ok (show tick _ = (_, .ok ()) from rfl), if_pos (by decide +kernel), t1, t2,
    PyM.bind_ok (show Mitm.lift (.ok (Num.fin (1 / 302))) (⟨none, k⟩ : RSt RF) = (_, .ok _) from rfl),
    PyM.bind_ok (show Mitm.lift (.ok (Num.fin q)) (⟨none, k⟩ : RSt RF) = (_, .ok _) from rfl), t3,
    PyM.bind_ok (show Mitm.lift (.ok true) (⟨none, k⟩ : RSt RF) = (_, .ok true) from rfl), if_pos rfl, PyM.bind_ok hadj]
  rfl

theorem refine_one {t : Option Conv} {k : Click RF} (h : ExClick 1 t k) :
    ∃ k', refineClicks rfClass exRfRefine (none, [k]) = ((none, [k']), .ok ()) ∧ ExClick 1 t k' := by
  obtain ⟨k', e, h'⟩ := refineOne_ex (.inl rfl) h
  exact ⟨k', by rw [refineClicks]; simp only [refineLoop, e, if_true], h'⟩

theorem refine_two {t : Option Conv} {k l : Click RF} (h : ExClick 1 t k) (hl : ExClick 2 t l) :
    ∃ k' l', refineClicks rfClass exRfRefine (none, [k, l]) = ((none, [k', l']), .ok ()) ∧ ExClick 1 t k' ∧ ExClick 2 t l' := by
  obtain ⟨k', e, h'⟩ := refineOne_ex (.inl rfl) h
  obtain ⟨l', f, i'⟩ := refineOne_ex (.inr rfl) hl
  exact ⟨k', l', by rw [refineClicks]; simp only [refineLoop, e, f, if_true], h', i'⟩

theorem uniq_two {t : Option Conv} {k l : Click RF} (h : ExClick 1 t k) (hl : ExClick 2 t l) :
    ∃ k', filterUniq rfClass [k, l] = ([k'], .ok ()) ∧ ExClick 1 t k' := by
  obtain ⟨u, u', e, hu, -⟩ := h.lhs.equiv hl.lhs
  have e : rfClass.equiv k l = (u, u', .ok true) := by
    show rfIsEquiv k.a k.b k.lhs k.post l.a l.b l.lhs l.post = _
    rw [h.a, h.b, h.post, hl.a, hl.b, hl.post, e]
  refine ⟨{ k with lhs := u }, ?_, h.a, h.b, h.post, h.conv, hu⟩
  rw [filterUniq]
  simp [uniqLoop, uniqInner, e]

theorem uniq_one (k : Click RF) : filterUniq rfClass [k] = ([k], .ok ()) := rfl

/-- What the search finds first: both functions. -/
theorem exRf_find : ∃ k l, findClicks rfClass exRfSearch.eng exRfSearch.trunc exRfSearch.table exRfSearch.gen [] =
    ([k, l], .ok ()) ∧ ExClick 1 none k ∧ ExClick 2 none l := by
  have key : ∀ c : ℤ, c = 1 ∨ c = 2 → ∃ k, clicksOf rfClass exRfSearch.eng exRfSearch.trunc exRfSearch.table
      (RF.init ([1], [c, 1], 0) 300) = .ok [k] ∧ ExClick c none k := by
    intro c hc
    obtain ⟨s', e, h⟩ := (OneOver.init c).degenerate
    have e : rfClass.isDegenerate (RF.init ([1], [c, 1], 0) 300) = (s', .ok false) := e
    obtain ⟨r, hr, s, hs, hin, hget⟩ : ∃ r, truncate exRfSearch.trunc (absNum (RF.calcVal [1] [c, 1] 0 300)) = .ok r ∧
        ∃ s, exRfSearch.eng r = .ok s ∧ exRfSearch.table.containsItem (fun q => exRfSearch.eng (.fin q)) (.str s) = .ok true ∧
          exRfSearch.table.getItem (fun q => exRfSearch.eng (.fin q)) (.str s) = .ok (.list [(([[1]], [[1]]), 0)]) := by
      refine ⟨.fin (1 / (300 + c)), ?_, "0.0033".toList, ?_, by decide +kernel, by decide +kernel⟩ <;>
        rcases hc with rfl | rfl <;> decide +kernel
    refine ⟨⟨[[1]], [[1]], RF.copy s', 0, none⟩, ?_, rfl, rfl, rfl, rfl, ?_⟩
    · have hr : truncate exRfSearch.trunc (absNum (rfClass.val (RF.init ([1], [c, 1], 0) 300))) = .ok r := hr
      rw [clicksOf]
      simp only [hr, hs, hin, e, hget]
      rfl
    · show OneOver c (RF.copy s')
      rw [RF.copy, h.params, h.x]
      exact OneOver.init c
  obtain ⟨k, e, h⟩ := key 1 (.inl rfl)
  obtain ⟨l, f, i⟩ := key 2 (.inr rfl)
  refine ⟨k, l, ?_, h, i⟩
  have : clicksLoop rfClass exRfSearch.eng exRfSearch.trunc exRfSearch.table exRfSearch.gen.1 = .ok [k, l] := by
    show clicksLoop rfClass exRfSearch.eng exRfSearch.trunc exRfSearch.table [_, _] = _
    simp only [clicksLoop, e, f]
    rfl
  rw [findClicks, this]
  rfl

/-- The search returns one result, with the LHS `1/(1 + x)`. -/
theorem exRf_search : ∃ k, search rfClass exRfSearch none [] = ([k], .ok ()) ∧ ExClick 1 (some (.exp, some (2, 3))) k := by
  obtain ⟨k1, l1, e1, h1, i1⟩ := exRf_find
  obtain ⟨k2, l2, e2, h2, i2⟩ := refine_two h1 i1
  obtain ⟨k3, e3, h3⟩ := uniq_two h2 i2
  have h5 : ExClick 1 (some (.exp, some (2, 3))) { k3 with conv := some (.exp, some (2, 3)) } := ⟨h3.a, h3.b, h3.post, rfl, h3.lhs⟩
  obtain ⟨k6, e6, h6⟩ := refine_one h5
  obtain ⟨k7, e7, h7⟩ := refine_one h6
  refine ⟨k7, ?_, h7⟩
  rw [search, PyM.bind_ok e1,
    PyM.bind_ok (show refineAll rfClass exRfSearch.refine1 [k1, l1] = ([k2, l2], .ok ()) by
      rw [refineAll, show exRfSearch.refine1 = exRfRefine from rfl, e2]),
    PyM.bind_ok e3,
    PyM.bind_ok (show filterExp exRfSearch.fast exRfSearch.report exRfSearch.printSlow [k3] = ([k3], .ok ()) from rfl),
    PyM.bind_ok (show filterByApproach exRfSearch.build exRfSearch.estimate (some [.exp, .superExp]) none [k3] =
      ([{ k3 with conv := some (.exp, some (2, 3)) }], .ok ()) from rfl),
    PyM.bind_ok (show refineAll rfClass exRfSearch.refine2 [{ k3 with conv := some (.exp, some (2, 3)) }] = ([k6], .ok ()) by
      rw [refineAll, show exRfSearch.refine2 = exRfRefine from rfl, e6])]
  rw [lastStage, show exRfSearch.refine3 = exRfRefine from rfl, e7]
  simp only
  rw [PyM.bind_ok (uniq_one k7), PyM.bind_ok (uniq_one k7)]
  have hk : filterPosIntRoots exRfSearch.roots [k7] = ([k7], .ok ()) := by
    rw [filterPosIntRoots, List.filter_cons_of_pos (by rw [h7.b]; decide +kernel)]
    rfl
  rw [hk]

theorem exRf_signFree : SignFree exRfSearch := by
  have ev : ∀ a : Polys, (.ok (.fin ((((negTuple a).headD []).headD 0 : ℤ) * (1 / 302))) : Except PyErr Num) =
      (.ok (.fin (((a.headD []).headD 0 : ℤ) * (1 / 302))) : Except PyErr Num).map negRes := by
    intro a
    have : ((negTuple a).headD []).headD 0 = -((a.headD []).headD 0) := by
      rcases a with _ | ⟨_ | ⟨c, p⟩, a⟩ <;> rfl
    rw [this]
    show _ = Except.ok (Num.fin _)
    push_cast
    rw [neg_mul]
  exact ⟨fun _ _ => rfl, fun _ _ => rfl, fun a _ _ => ev a, fun a _ _ => ev a, fun a _ _ => ev a, fun f hf x => by cases hf; rfl⟩

/-- **C93 (violated) for rational functions.** The LHS `1/(2 + x)` at `x = 300` and the stored continued fraction of value
`1/302` pass every test of the search (and they are equal), and the search returns; but its only result states that this
continued fraction is `1/(1 + x) = 1/301`: `is_equiv` does not compare the denominators (C47), and the function enumerated
first is kept. -/
theorem C93_rf_violated :
    SignFree exRfSearch ∧ NoInterrupt exRfSearch.refine3 ∧ (∀ o ∈ exRfSearch.gen.1, RfFine o) ∧ exRfSearch.trunc = true ∧
    RF.init ([1], [2, 1], 0) 300 ∈ exRfSearch.gen.1 ∧ (RF.init ([1], [2, 1], 0) 300).val = .fin (1 / 302) ∧
    (RF.init ([1], [2, 1], 0) 300).isDegenerate.2 = .ok false ∧
    exRfSearch.eng (.fin (Int.fract |1 / 302|)) = .ok "0.0033".toList ∧
    stored exRfSearch.table "0.0033".toList = some (.list [(([[1]], [[1]]), 0)]) ∧
    Agrees exRfSearch.refine1 [[1]] [[1]] 0 (Int.fract |1 / 302|) none ∧ exRfSearch.fast [[1]] [[1]] = .ok true ∧
    exRfSearch.estimate [[1]] [[1]] = .ok (.exp, some (2, 3)) ∧
    Agrees exRfSearch.refine2 [[1]] [[1]] 0 (Int.fract |1 / 302|) (some (.exp, some (2, 3))) ∧
    Agrees exRfSearch.refine3 [[1]] [[1]] 0 (Int.fract |1 / 302|) (some (.exp, some (2, 3))) ∧
    (∀ p ∈ ([[1]] : Polys), ∀ z ∈ exRfSearch.roots p.reverse, ¬ TakenForPosInt z) ∧
    ∃ cs, search rfClass exRfSearch none [] = (cs, .ok ()) ∧ cs.map (fun c => (c.a, c.b, c.lhs.val)) = [([[1]], [[1]], .fin (1 / 301))] ∧
      ¬ ∃ c ∈ cs, c.b = [[1]] ∧ ∃ v, c.lhs.val = .fin v ∧ Int.fract |v| = Int.fract |1 / 302| := by
  have hag : ∀ t, Agrees exRfRefine [[1]] [[1]] 0 (Int.fract |1 / 302|) t := fun t =>
    ⟨_, _, 1 / 302, "0.0033".toList, "0.0033".toList, rfl, rfl, by decide +kernel, by norm_num, by decide +kernel, by decide +kernel, rfl⟩
  obtain ⟨k, hk, h⟩ := exRf_search
  have hv : k.lhs.val = .fin (1 / 301) := by rw [h.lhs.val]; decide +kernel
  refine ⟨exRf_signFree, ⟨?_, nofun, ?_⟩, ?_, rfl, ?_, ?_, ?_, by decide +kernel, by decide +kernel, hag _, rfl, rfl, hag _, hag _, ?_,
    [k], hk, ?_, ?_⟩
  · intro x; cases x <;> nofun
  · intro f hf x
    rw [List.mem_singleton.1 hf]
    nofun
  · intro o ho
    have hnot : ∀ q : ℚ, 0 < q → q < 1 → ¬ IsInteger q := by
      rintro q h0 h1 ⟨n, rfl⟩
      have h0 : 0 < n := by exact_mod_cast h0
      have h1 : n < 1 := by exact_mod_cast h1
      omega
    rcases List.mem_cons.1 ho with rfl | ho
    · exact ⟨(OneOver.init 1).inv, 1 / 301, by show RF.calcVal _ _ _ _ = _; decide +kernel, hnot _ (by norm_num) (by norm_num)⟩
    · rw [List.mem_singleton.1 ho]
      exact ⟨(OneOver.init 2).inv, 1 / 302, by show RF.calcVal _ _ _ _ = _; decide +kernel, hnot _ (by norm_num) (by norm_num)⟩
  · exact List.mem_cons_of_mem _ (List.mem_singleton.2 rfl)
  · show RF.calcVal _ _ _ _ = _
    decide +kernel
  · obtain ⟨s', e, -⟩ := (OneOver.init 2).degenerate
    rw [e]
  · rintro p - z hz ⟨-, n, h1, -, h3⟩
    rw [List.mem_singleton.1 hz] at h3
    rcases h3 with h3 | ⟨h3, h4⟩
    · have : (n : ℚ) < 1 := by linarith
      have : n < 1 := by exact_mod_cast this
      omega
    · have : (n : ℚ) = 1 := by linarith
      obtain rfl : n = 1 := by exact_mod_cast this
      exact absurd h4 (by decide)
  · rw [List.map_cons, List.map_nil, h.a, h.b, hv]
  · rintro ⟨c, hc, -, v, hcv, hf⟩
    rw [List.mem_singleton.1 hc, hv] at hcv
    obtain rfl : 1 / 301 = v := by injection hcv
    revert hf
    decide +kernel

end PiCF
