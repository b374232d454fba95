import Verif.Props.Pipeline
import Verif.Props.Mirror
import Verif.Props.Estimator

/-!
# C93: what a search finds is not lost on the way
-/

namespace PiCF
open PiCF.Spec PiCF.Hashtable PiCF.Mitm PiCF.EnumPoly PiCF.Lhs PiCF.ContFrac

variable {L κ : Type}

/-- The external functions do not distinguish a continued fraction from the one with negated `a`, except for the sign of its
value, and the first post-processing function (the identity) is odd. -/
structure SignFree (E : SearchEnv L) : Prop where
  fast : ∀ a b, E.fast (negTuple a) b = E.fast a b
  estimate : ∀ a b, E.estimate (negTuple a) b = E.estimate a b
  eval1 : ∀ a b t, E.eval1 (negTuple a) b t = (E.eval1 a b t).map negRes
  eval2 : ∀ a b t, E.eval2 (negTuple a) b t = (E.eval2 a b t).map negRes
  eval3 : ∀ a b t, E.eval3 (negTuple a) b t = (E.eval3 a b t).map negRes
  odd : ∀ f, E.funcs[0]? = some f → ∀ x, f (negRes x) = (f x).map negRes

/-- The test of equivalent clicks: it identifies clicks with the same `b`, function and, for the identity up to sign, the same
`a`, whose LHS have the same absolute value. -/
def EquivMeans (C : LhsClass L) (Inv : L → Prop) (key : Click L → κ) (out : κ → κ → Except PyErr Bool) : Prop :=
  ∀ u p, Inv u.lhs → Inv p.lhs → out (key u) (key p) = .ok true → u.b = p.b ∧ u.post = p.post ∧
    (u.a = p.a ∨ p.post = 0 ∧ u.a = negTuple p.a) ∧ ∀ v w, C.val u.lhs = .fin v → C.val p.lhs = .fin w → |v| = |w|

theorem ulcd_equivMeans (x : ℚ) : EquivMeans ulcdClass (UlcdOk x) ulcdKey ulcdIsEquiv := by
  intro u p hu hp h
  have hv : ∀ v w, ulcdClass.val u.lhs = .fin v → ulcdClass.val p.lhs = .fin w → |v| = |w| := by
    intro v w hv hw
    have := (C46_sound (ulcdKey u) (ulcdKey p) hu.2.2.1 hp.2.2.1 h).1 x hu.2.1
    have hv : u.lhs.val = v := by injection hv
    have hw : p.lhs.val = w := by injection hw
    rw [← hv, ← hw, hu.2.2.2, hp.2.2.2]
    exact this
  obtain ⟨b, hb, hiff⟩ := ulcdIsEquiv_iff (ulcdKey u) (ulcdKey p) hu.2.2.1.2 hp.2.2.1.2
  rw [h] at hb
  cases Except.ok.inj hb
  rcases hiff.1 rfl with ⟨e, -⟩ | ⟨e1, e2, hb', ha, -⟩
  · have e1 : u.a = p.a := congrArg UlcdResult.a e
    have e2 : u.b = p.b := congrArg UlcdResult.b e
    have e3 : u.post = p.post := congrArg UlcdResult.post e
    exact ⟨e2, e3, .inl e1, hv⟩
  · have e1 : u.post = 0 := e1
    have e2 : p.post = 0 := e2
    exact ⟨hb', by rw [e1, e2], ha.imp id fun h => ⟨e2, h⟩, hv⟩

/-- The click states what is to be found: the LHS has the key `k`, up to sign and an integer, and the continued fraction is `a`,
`b`, or for the identity the one with negated `a`. -/
structure Rep (C : LhsClass L) (Inv : L → Prop) (a b : Polys) (post : ℕ) (k : ℚ) (t : Option Conv) (c : Click L) : Prop where
  inv : Inv c.lhs
  bEq : c.b = b
  postEq : c.post = post
  aEq : c.a = a ∨ post = 0 ∧ c.a = negTuple a
  val : ∃ v, C.val c.lhs = .fin v ∧ Int.fract |v| = k
  conv : c.conv = t

/-- The re-evaluated continued fraction agrees with the key `k` in the digits compared. -/
def Agrees (env : RefineEnv) (a b : Polys) (post : ℕ) (k : ℚ) (t : Option Conv) : Prop :=
  ∃ f r y s s', env.funcs[post]? = some f ∧ env.eval a b t = .ok r ∧ f r = .ok (.fin y) ∧ y ≠ 0 ∧
    env.eng (.fin (Int.fract |y|)) = .ok s ∧ env.eng (.fin k) = .ok s' ∧ sliceTo s (env.accuracy + 2) = sliceTo s' (env.accuracy + 2)

theorem Agrees.neg {env : RefineEnv} {a b : Polys} {k : ℚ} {t : Option Conv} (h : Agrees env a b 0 k t)
    (he : ∀ a b t, env.eval (negTuple a) b t = (env.eval a b t).map negRes)
    (ho : ∀ f, env.funcs[0]? = some f → ∀ x, f (negRes x) = (f x).map negRes) : Agrees env (negTuple a) b 0 k t := by
  obtain ⟨f, r, y, s, s', hf, hr, hy, h0, hs, hs', heq⟩ := h
  refine ⟨f, negRes r, -y, s, s', hf, by rw [he, hr]; rfl, by rw [ho f hf, hy]; rfl, neg_ne_zero.2 h0, by rwa [abs_neg], hs', heq⟩

theorem Rep.sides {C : LhsClass L} {Inv : L → Prop} {a b : Polys} {post : ℕ} {k : ℚ} {t : Option Conv} {c : Click L}
    (h : Rep C Inv a b post k t c) {env : RefineEnv} (ht : env.trunc = true)
    (he : ∀ a b t, env.eval (negTuple a) b t = (env.eval a b t).map negRes)
    (ho : ∀ f, env.funcs[0]? = some f → ∀ x, f (negRes x) = (f x).map negRes) (hg : Agrees env a b post k t) :
    SidesAgree C env c := by
  have hg' : Agrees env c.a c.b c.post k c.conv := by
    rw [h.bEq, h.postEq, h.conv]
    rcases h.aEq with ha | ⟨h0, ha⟩
    · rw [ha]; exact hg
    · rw [ha, h0]
      rw [h0] at hg
      exact hg.neg he ho
  obtain ⟨f, r, y, s, s', hf, hr, hy, h0, hs, hs', heq⟩ := hg'
  obtain ⟨v, hv, hk⟩ := h.val
  refine ⟨f, r, y, s, .fin k, s', hf, hr, hy, h0, by rw [ht]; exact hs, ?_, hs', heq⟩
  rw [hv, ht]
  show Num.fin k = .fin (Int.fract |v|)
  rw [hk]

theorem fract_abs_adjust {y w : ℚ} (hy : y ≠ 0) : Int.fract |signed y w + truncZ (y - signed y w)| = Int.fract |w| := by
  have habs : |signed y w| = |w| := by
    rw [signed]; split
    · exact abs_neg w
    · rfl
  rw [← habs]
  have hs : (0 < y → 0 ≤ signed y w) ∧ (y < 0 → signed y w ≤ 0) := by
    rw [signed]
    constructor
    · intro h
      split
      · rename_i hc; rcases hc with ⟨_, h'⟩ | ⟨h', _⟩ <;> linarith
      · rename_i hc; push Not at hc
        by_contra hn
        exact absurd (hc.2 (by linarith)) (by linarith)
    · intro h
      split
      · rename_i hc; rcases hc with ⟨h', _⟩ | ⟨_, h'⟩ <;> linarith
      · rename_i hc; push Not at hc
        by_contra hn
        exact absurd (hc.1 (by linarith)) (by linarith)
  generalize signed y w = u at *
  rw [truncZ]
  rcases lt_or_gt_of_ne hy with h | h
  · have hu := hs.2 h
    have key : ∀ n : ℤ, u + n ≤ 0 → Int.fract |u + n| = Int.fract |u| := by
      intro n hn
      rw [abs_of_nonpos hn, abs_of_nonpos hu, show -(u + n) = -u - (n : ℚ) by ring, Int.fract_sub_intCast]
    apply key
    split
    · linarith [Int.floor_le (y - u)]
    · rename_i hn
      have : ⌈y - u⌉ ≤ 0 := Int.ceil_le.2 (by push_cast; linarith)
      have : (⌈y - u⌉ : ℚ) ≤ 0 := by exact_mod_cast this
      linarith
  · have hu := hs.1 h
    have key : ∀ n : ℤ, 0 ≤ u + n → Int.fract |u + n| = Int.fract |u| := by
      intro n hn
      rw [abs_of_nonneg hn, abs_of_nonneg hu, Int.fract_add_intCast]
    apply key
    split
    · have : 0 ≤ ⌊y - u⌋ := Int.floor_nonneg.2 (by assumption)
      have : (0 : ℚ) ≤ (⌊y - u⌋ : ℚ) := by exact_mod_cast this
      linarith
    · linarith [Int.le_ceil (y - u)]

/-- A refinement keeps the click. -/
theorem Rep.refine {C : LhsClass L} {Inv : L → Prop} {key : Click L → κ} {out : κ → κ → Except PyErr Bool}
    (laws : SearchLaws C Inv key out) {a b : Polys} {post : ℕ} {k : ℚ} {t : Option Conv} {c : Click L}
    (h : Rep C Inv a b post k t c) {env : RefineEnv} {s s' : RSt L} {keep : Bool} (hs : s.click = c) (hc : SidesAgree C env c)
    (hr : refineOne C env s = (s', .ok keep)) : keep = true ∧ Rep C Inv a b post k t s'.click := by
  subst hs
  obtain ⟨h1, h2⟩ := refineOne_ok hr
  have hk := h1.2 hc
  refine ⟨hk, ?_⟩
  obtain ⟨e1, e2, e3, e4⟩ : SameClick s.click s'.click := by
    have := refineOne_same C env s
    rw [hr] at this
    exact this
  obtain ⟨y, s1, s2, hy, hcl, rfl, ha⟩ := h2 hk
  obtain ⟨v, hv, hf⟩ := h.val
  rw [hv] at ha
  obtain ⟨hi, hval⟩ := adjust_ok laws.lhs (by rw [hcl]; exact h.inv) (by rw [hcl]; exact hv) ha
  obtain ⟨v', hv'⟩ := laws.finite _ hi
  have hval := hval.resolve_right fun h => by rw [hv'] at h; cases h.1
  obtain ⟨f, r, y', -, -, -, hf1, hf2, hf3, h0, -⟩ := hc
  obtain ⟨f', r', hf1', hf2', hf3'⟩ := rhsValue_ok hy
  rw [hf1] at hf1'; cases hf1'
  rw [hf2] at hf2'; cases hf2'
  rw [hf3] at hf3'; cases hf3'
  exact ⟨hi, e2.trans h.bEq, e3.trans h.postEq, by rw [e1]; exact h.aEq, ⟨_, hval, by rw [fract_abs_adjust h0, hf]⟩, e4.trans h.conv⟩

theorem Rep.refineClicks {C : LhsClass L} {Inv : L → Prop} {key : Click L → κ} {out : κ → κ → Except PyErr Bool}
    (laws : SearchLaws C Inv key out) {a b : Polys} {post : ℕ} {k : ℚ} {t : Option Conv} {env : RefineEnv} {cs cs' : List (Click L)}
    (hc : ∀ c, Rep C Inv a b post k t c → SidesAgree C env c) {b0 b1 : Option ℕ} (hr : refineClicks C env (b0, cs) = ((b1, cs'), .ok ()))
    (h : ∃ c ∈ cs, Rep C Inv a b post k t c) : ∃ c ∈ cs', Rep C Inv a b post k t c := by
  have loop : ∀ (cs : List (Click L)) (b0 b1 : Option ℕ) (all kept : List (Click L)),
      refineLoop C env b0 cs = (b1, all, kept, .ok ()) → (∃ c ∈ cs, Rep C Inv a b post k t c) → ∃ c ∈ kept, Rep C Inv a b post k t c := by
    intro cs
    induction cs with
    | nil => rintro b0 b1 all kept - ⟨c, hc, -⟩; cases hc
    | cons c0 cs ih =>
      rintro b0 b1 all kept h ⟨c, hm, hR⟩
      rw [refineLoop] at h
      rcases e1 : refineOne C env ⟨b0, c0⟩ with ⟨s, err | keep⟩
      · rw [e1] at h; cases h
      rw [e1] at h
      rcases e2 : refineLoop C env s.budget cs with ⟨b2, all2, kept2, r2⟩
      simp only [e2] at h
      cases h
      rcases List.mem_cons.1 hm with rfl | hm
      · obtain ⟨hk, hR'⟩ := hR.refine laws rfl (hc c hR) e1
        rw [if_pos hk]
        exact ⟨_, List.mem_cons_self, hR'⟩
      · obtain ⟨c', hm', hR'⟩ := ih _ _ _ _ e2 ⟨c, hm, hR⟩
        refine ⟨c', ?_, hR'⟩
        split
        · exact List.mem_cons_of_mem _ hm'
        · exact hm'
  rw [Mitm.refineClicks] at hr
  split at hr
  · rename_i e
    cases hr
    exact loop _ _ _ _ _ e h
  · cases hr

/-- The uniqueness filter keeps the click or an equivalent one. -/
theorem Rep.uniq {C : LhsClass L} {Inv : L → Prop} {key : Click L → κ} {out : κ → κ → Except PyErr Bool}
    (laws : SearchLaws C Inv key out) (hm : EquivMeans C Inv key out) {a b : Polys} {post : ℕ} {k : ℚ} {t : Option Conv}
    {cs cs' : List (Click L)} (hcs : ∀ c ∈ cs, Inv c.lhs)
    (ht : ∀ c ∈ cs, c.b = b → (c.a = a ∨ post = 0 ∧ c.a = negTuple a) → c.conv = t)
    (hu : filterUniq C cs = (cs', .ok ())) (h : ∃ c ∈ cs, Rep C Inv a b post k t c) : ∃ c ∈ cs', Rep C Inv a b post k t c := by
  obtain ⟨fs, e, hr, hf⟩ := C59_unique laws.equiv hcs hu
  obtain ⟨c, hc, hR⟩ := h
  have hcs' := hcs
  rw [← e] at hc
  obtain ⟨⟨c, flag⟩, hx, rfl⟩ := List.mem_map.1 hc
  obtain ⟨l1, l2, hl⟩ := List.append_of_mem hx
  have main : ∃ u, (u, true) ∈ fs ∧ Rep C Inv a b post k t u := by
    cases flag with
    | true => exact ⟨c, hx, hR⟩
    | false =>
      obtain ⟨⟨u, fl⟩, hu1, hu2, hu3⟩ := (hr l1 c false l2 hl).2 rfl
      have hu2 : fl = true := hu2
      subst hu2
      have humem : (u, true) ∈ fs := by rw [hl]; exact List.mem_append_left _ hu1
      have hucs : u ∈ cs := by rw [← e]; exact List.mem_map.2 ⟨_, humem, rfl⟩
      obtain ⟨m1, m2, m3, m4⟩ := hm u c (hcs u hucs) hR.inv hu3
      have hb : u.b = b := m1.trans hR.bEq
      have ha : u.a = a ∨ post = 0 ∧ u.a = negTuple a := by
        rcases m3 with m3 | ⟨m0, m3⟩
        · rw [m3]; exact hR.aEq
        · have h0 : post = 0 := hR.postEq.symm.trans m0
          rcases hR.aEq with h | ⟨-, h⟩
          · exact .inr ⟨h0, by rw [m3, h]⟩
          · exact .inl (by rw [m3, h, negTuple_negTuple])
      obtain ⟨w, hw, hk⟩ := hR.val
      obtain ⟨v, hv⟩ := laws.finite _ (hcs u hucs)
      exact ⟨u, humem, hcs u hucs, hb, m2.trans hR.postEq, ha, ⟨v, hv, by rw [m4 v w hv hw, hk]⟩, ht u hucs hb ha⟩
  obtain ⟨u, hu1, hu2⟩ := main
  obtain ⟨c', hc', hk⟩ := forall₂_mem_left hf (List.mem_map.2 ⟨(u, true), List.mem_filter.2 ⟨hu1, rfl⟩, rfl⟩ : u ∈ _)
  obtain ⟨e1, e2, e3, e4⟩ := hk.click
  obtain ⟨v, hv, hkey⟩ := hu2.val
  have hval : C.val c'.lhs = C.val u.lhs := congrArg Prod.snd hk.key_eq
  exact ⟨c', hc', hk.inv hu2.inv, e2.trans hu2.bEq, e3.trans hu2.postEq, by rw [e1]; exact hu2.aEq, ⟨v, hval.trans hv, hkey⟩,
    e4.trans hu2.conv⟩

theorem approachLoop_keeps {build : Polys → Polys → Except PyErr Unit} {estimate : Polys → Polys → Except PyErr Conv}
    {white : List ApproachType} : ∀ {cs cs' : List (Click L)}, approachLoop build estimate white [] cs = .ok cs' →
      ∀ c ∈ cs, ∀ t, estimate c.a c.b = .ok t → t.1 ∈ white → { c with conv := some t } ∈ cs'
  | [], _, _, c, hc, _, _, _ => by cases hc
  | c0 :: cs, cs', h, c, hc, t, ht, hw => by
    rw [approachLoop] at h
    split at h
    · cases h
    · split at h
      · cases h
      · rename_i he
        rcases List.mem_cons.1 hc with rfl | hc
        · rw [ht] at he; cases he
        · exact approachLoop_keeps h c hc t ht hw
      · rename_i t0 ht0
        split at h
        · cases h
        · rename_i r hr
          rcases List.mem_cons.1 hc with rfl | hc
          · rw [ht] at ht0
            cases ht0
            rw [if_pos (.inl ⟨List.ne_nil_of_mem hw, hw⟩)] at h
            cases h
            exact List.mem_cons_self
          · have := approachLoop_keeps hr c hc t ht hw
            split at h
            · cases h; exact List.mem_cons_of_mem _ this
            · cases h; exact this

theorem filterByApproach_keeps {build : Polys → Polys → Except PyErr Unit} {estimate : Polys → Polys → Except PyErr Conv}
    {white : List ApproachType} {cs cs' : List (Click L)} (h : filterByApproach build estimate (some white) none cs = (cs', .ok ())) :
    ∀ c ∈ cs, ∀ t, estimate c.a c.b = .ok t → t.1 ∈ white → { c with conv := some t } ∈ cs' := by
  rw [filterByApproach] at h
  simp only [Option.getD_some, Option.getD_none] at h
  split at h
  · cases h
  · split at h
    · cases h
    · split at h
      · cases h
      · rename_i r hr
        cases h
        exact approachLoop_keeps hr

/-- The click found for an entry. -/
theorem findClicks_finds {C : LhsClass L} {Inv : L → Prop} {key : Click L → κ} {out : κ → κ → Except PyErr Bool}
    (laws : SearchLaws C Inv key out) {E : SearchEnv L} (ht : E.trunc = true) {old cs : List (Click L)}
    (h : findClicks C E.eng E.trunc E.table E.gen old = (cs, .ok ())) {o : L} (ho : o ∈ E.gen.1) (hi : Inv o) {w : ℚ}
    (hw : C.val o = .fin w) (hd : (C.isDegenerate o).2 = .ok false) {s : Str} (hs : E.eng (.fin (Int.fract |w|)) = .ok s)
    {es : List Entry} (hes : stored E.table s = some (.list es)) {a b : Polys} {post : ℕ} (he : ((a, b), post) ∈ es) :
    ∃ c ∈ cs, Rep C Inv a b post (Int.fract |w|) none c := by
  obtain ⟨-, css, hf, rfl⟩ := (C54_clicks_exact_partial C E.eng E.trunc E.table E.gen.1 old cs E.gen.2).1 h
  obtain ⟨cs', hm, hcl⟩ := forall₂_mem_left hf ho
  have hkey : ∀ r, HasSearchKey E.trunc (C.val o) r → r = .fin (Int.fract |w|) := by
    intro r hr
    rw [hw, ht] at hr
    exact hr
  cases hcl with
  | absent hr hs' ht' => rw [hkey _ hr, hs] at hs'; cases hs'; rw [hes] at ht'; cases ht'
  | degenerate hr hs' ht' hd' => rw [hd'] at hd; cases hd
  | @found r s' es' o' _ hr hs' ht' hd' hcs =>
    rw [hkey _ hr, hs] at hs'; cases hs'
    rw [hes] at ht'; cases ht'
    obtain ⟨c, hc, h1, h2, h3, h4, h5⟩ := forall₂_mem_left hcs he
    obtain ⟨hi', hv⟩ := laws.copies o o' c.lhs hi hd' h5
    exact ⟨c, List.mem_flatten.2 ⟨_, hm, hc⟩, hi', h2, h3, .inl h1, ⟨w, hv.trans hw, rfl⟩, h4⟩

theorem findClicks_conv {C : LhsClass L} {eng : EngN} {trunc : Bool} {t : Table (Val Entry)} {gen : List L × Except PyErr Unit}
    {old cs : List (Click L)} (h : findClicks C eng trunc t gen old = (cs, .ok ())) : ∀ c ∈ cs, c.conv = none := by
  obtain ⟨-, css, hf, rfl⟩ := (C54_clicks_exact_partial C eng trunc t gen.1 old cs gen.2).1 h
  intro c hc
  obtain ⟨cs', h1, h2⟩ := List.mem_flatten.1 hc
  obtain ⟨o, -, hcl⟩ := forall₂_mem_right hf h1
  cases hcl with
  | absent => cases h2
  | degenerate => cases h2
  | found _ _ _ _ hcs =>
    obtain ⟨e, -, -, -, -, h4, -⟩ := forall₂_mem_right hcs h2
    exact h4

/-- **C93.** If a search (with the integer part removed) that is not interrupted returns, nothing that passes all its tests is
lost: let `o` be an enumerated, non-degenerate LHS with value `w`, and `(a, b)` with the post-processing function
`post` an entry stored under its key.  If the digits agree in all three refinements, the convergence is fast and of
type `exp` or `super_exp`, and no `b` polynomial has a root taken for a positive integer, then there is a result for
the continued fraction `(a, b)` and this function (for the identity, maybe for `(-a, b)`), whose LHS value agrees
with `w` after the point up to sign.  For any LHS class whose test of equivalent clicks compares the values (`EquivMeans`).
Missing: rational functions, whose test ignores the denominators (C47), so that the wrong one of two clicks may be kept
(`C93_rf_violated`). -/
theorem C93_complete_partial {C : LhsClass L} {Inv : L → Prop} {key : Click L → κ} {out : κ → κ → Except PyErr Bool}
    (laws : SearchLaws C Inv key out) (hm : EquivMeans C Inv key out) (hout : ∀ k k', out k k' ≠ .error .keyboardInterrupt)
    {E : SearchEnv L} (sym : SignFree E) (hn : NoInterrupt E.refine3) (hos : ∀ o ∈ E.gen.1, Inv o) (htr : E.trunc = true)
    {old cs : List (Click L)} (h : search C E none old = (cs, .ok ()))
    {o : L} (ho : o ∈ E.gen.1) {w : ℚ} (hw : C.val o = .fin w) (hd : (C.isDegenerate o).2 = .ok false) {s : Str}
    (hs : E.eng (.fin (Int.fract |w|)) = .ok s) {es : List Entry} (hes : stored E.table s = some (.list es)) {a b : Polys}
    {post : ℕ} (he : ((a, b), post) ∈ es) {t : Conv}
    (hr1 : Agrees E.refine1 a b post (Int.fract |w|) none) (hfast : E.fast a b = .ok true)
    (hest : E.estimate a b = .ok t) (ht : t.1 = .exp ∨ t.1 = .superExp)
    (hr2 : Agrees E.refine2 a b post (Int.fract |w|) (some t)) (hr3 : Agrees E.refine3 a b post (Int.fract |w|) (some t))
    (hroots : ∀ p ∈ b, ∀ z ∈ E.roots p.reverse, ¬ TakenForPosInt z) :
    ∃ c ∈ cs, c.b = b ∧ c.post = post ∧ (c.a = a ∨ post = 0 ∧ c.a = a.map fun p => p.map fun x => -x) ∧ c.conv = some t ∧
      ∃ v, C.val c.lhs = .fin v ∧ Int.fract |v| = Int.fract |w| := by
  generalize hk : Int.fract |w| = k at *
  have hall := search_before laws hos h
  rw [search] at h
  obtain ⟨_, cs1, h1, h⟩ := bind_ok_inv h
  obtain ⟨_, cs2, h2, h⟩ := bind_ok_inv h
  obtain ⟨_, cs3, h3, h⟩ := bind_ok_inv h
  obtain ⟨_, cs4, h4, h⟩ := bind_ok_inv h
  obtain ⟨_, cs5, h5, h⟩ := bind_ok_inv h
  obtain ⟨_, cs6, h6, h⟩ := bind_ok_inv h
  clear hall
  have k1 := findClicks_known laws hos h1
  have v1 := findClicks_conv h1
  obtain ⟨b2, h2⟩ := refineAll_ok h2
  have k2 : ∀ c ∈ cs2, Known C Inv E c ∧ c.conv = none := fun c hc => by
    obtain ⟨hk, c0, hc0, hs⟩ := refineAll_known laws k1 h2 c hc
    exact ⟨hk, hs.2.2.2.trans (v1 c0 hc0)⟩
  have k3 : ∀ c ∈ cs3, Known C Inv E c := fun c hc => by
    obtain ⟨c0, hc0, hs⟩ := (filterUniq_known laws (fun c hc => (k2 c hc).1.inv) h3).1 c hc
    exact hs.known (k2 c0 hc0).1
  have k5 : ∀ c ∈ cs5, Known C Inv E c ∧ ∃ t, E.estimate c.a c.b = .ok t ∧ c.conv = some t := by
    intro c hc
    obtain ⟨c0, hc0, t, ht, hw, rfl⟩ := filterByApproach_mem h5 c hc
    have hk := k3 c0 (filterExp_mem h4 c0 hc0).1
    obtain ⟨o, w, v, hfo, hv, hu⟩ := hk.found
    exact ⟨⟨hk.inv, o, w, v, hfo.same rfl rfl rfl, hv, hu⟩, t, ht, rfl⟩
  obtain ⟨b6, h6⟩ := refineAll_ok h6
  have k6 : ∀ c ∈ cs6, Known C Inv E c ∧ ∃ t, E.estimate c.a c.b = .ok t ∧ c.conv = some t := by
    intro c hc
    obtain ⟨hk, c0, hc0, e1, e2, e3, e4⟩ := refineAll_known laws (fun c hc => (k5 c hc).1) h6 c hc
    rw [e1, e2, e4]
    exact ⟨hk, (k5 c0 hc0).2⟩
  -- the click, stage by stage
  have r1 : ∃ c ∈ cs1, Rep C Inv a b post k none c := by
    rw [← hk] at hs ⊢
    exact findClicks_finds laws htr h1 ho (hos o ho) hw hd hs hes he
  have r2 := Rep.refineClicks laws (fun c hc => hc.sides htr sym.eval1 sym.odd hr1) h2 r1
  have r3 := Rep.uniq laws hm (fun c hc => (k2 c hc).1.inv) (fun c hc _ _ => (k2 c hc).2) h3 r2
  have r4 : ∃ c ∈ cs4, Rep C Inv a b post k none c := by
    obtain ⟨c, hc, hR⟩ := r3
    refine ⟨c, ?_, hR⟩
    rw [filterExp_ok h4]
    refine List.mem_filter.2 ⟨hc, ?_⟩
    have : E.fast c.a c.b = .ok true := by
      rw [hR.bEq]
      rcases hR.aEq with e | ⟨-, e⟩ <;> rw [e]
      · exact hfast
      · rw [sym.fast]; exact hfast
    rw [this]
  have hestc : ∀ c : Click L, c.b = b → (c.a = a ∨ post = 0 ∧ c.a = negTuple a) → E.estimate c.a c.b = .ok t := by
    intro c hb ha
    rw [hb]
    rcases ha with e | ⟨-, e⟩ <;> rw [e]
    · exact hest
    · rw [sym.estimate]; exact hest
  have r5 : ∃ c ∈ cs5, Rep C Inv a b post k (some t) c := by
    obtain ⟨c, hc, hR⟩ := r4
    exact ⟨_, filterByApproach_keeps h5 c hc t (hestc c hR.bEq hR.aEq) (by rcases ht with e | e <;> simp [e]),
      hR.inv, hR.bEq, hR.postEq, hR.aEq, hR.val, rfl⟩
  have r6 := Rep.refineClicks laws (fun c hc => hc.sides htr sym.eval2 sym.odd hr2) h6 r5
  rw [lastStage] at h
  have n7 := refineClicks_calm laws.lhs hn fun c hc => (k6 c hc).1.inv
  rcases e7 : refineClicks C E.refine3 (none, cs6) with ⟨⟨b7, cs7⟩, err | u⟩
  · rw [e7] at h n7
    cases err <;> first | exact absurd rfl n7 | cases h
  rw [e7] at h
  have k7 : ∀ c ∈ cs7, Known C Inv E c ∧ ∃ t, E.estimate c.a c.b = .ok t ∧ c.conv = some t := by
    intro c hc
    obtain ⟨hk, c0, hc0, e1, e2, e3, e4⟩ := refineAll_known laws (fun c hc => (k6 c hc).1) e7 c hc
    rw [e1, e2, e4]
    exact ⟨hk, (k6 c0 hc0).2⟩
  have r7 := Rep.refineClicks laws (fun c hc => hc.sides htr sym.eval3 sym.odd hr3) e7 r6
  simp only at h
  have n8 := filterUniq_calm laws.equiv (fun k k' => hout k.1 k'.1) fun c hc => (k7 c hc).1.inv
  rcases e8 : filterUniq C cs7 with ⟨cs8, err | u⟩
  · rw [e8] at n8
    rw [PyM.bind_error e8] at h
    cases err <;> first | exact absurd rfl n8 | cases h
  rw [PyM.bind_ok e8] at h
  obtain ⟨s8, -⟩ := filterUniq_known laws (fun c hc => (k7 c hc).1.inv) e8
  have k8 : ∀ c ∈ cs8, Inv c.lhs ∧ ∃ t, E.estimate c.a c.b = .ok t ∧ c.conv = some t := fun c hc => by
    obtain ⟨c0, hc0, ⟨e1, e2, e3, e4⟩, -, -, hi⟩ := s8 c hc
    rw [e1, e2, e4]
    exact ⟨hi (k7 c0 hc0).1.inv, (k7 c0 hc0).2⟩
  have conv : ∀ c : Click L, (∃ t, E.estimate c.a c.b = .ok t ∧ c.conv = some t) → c.b = b →
      (c.a = a ∨ post = 0 ∧ c.a = negTuple a) → c.conv = some t := by
    rintro c ⟨t', ht', hc⟩ hb ha
    rw [hestc c hb ha] at ht'
    cases ht'
    exact hc
  have r8 := Rep.uniq laws hm (fun c hc => (k7 c hc).1.inv) (fun c hc => conv c (k7 c hc).2) e8 r7
  have n9 := filterUniq_calm laws.equiv (fun k k' => hout k.1 k'.1) fun c hc => (k8 c hc).1
  rcases e9 : filterUniq C cs8 with ⟨cs9, err | u⟩
  · rw [e9] at n9
    rw [PyM.bind_error e9] at h
    cases err <;> first | exact absurd rfl n9 | cases h
  rw [PyM.bind_ok e9] at h
  have r9 := Rep.uniq laws hm (fun c hc => (k8 c hc).1) (fun c hc => conv c (k8 c hc).2) e9 r8
  obtain ⟨keep, e, hkeep, -⟩ := C60_roots_partial E.roots cs9
  have h : filterPosIntRoots E.roots cs9 = (cs, .ok ()) := h
  rw [h] at e
  cases e
  obtain ⟨c, hc, hR⟩ := r9
  refine ⟨c, List.mem_filter.2 ⟨hc, ?_⟩, hR.bEq, hR.postEq, hR.aEq, hR.conv, hR.val⟩
  by_contra hf
  obtain ⟨p, hp, z, hz, htk⟩ := (hkeep c).1 (by simpa using hf)
  rw [hR.bEq] at hp
  exact hroots p hp z hz htk

/-- C93 for ULCD searches. -/
theorem C93_ulcd {x : ℚ} {E : SearchEnv Ulcd} (sym : SignFree E) (hn : NoInterrupt E.refine3) (hos : ∀ o ∈ E.gen.1, UlcdOk x o)
    (htr : E.trunc = true) {old cs : List (Click Ulcd)} (h : search ulcdClass E none old = (cs, .ok ()))
    {o : Ulcd} (ho : o ∈ E.gen.1) (hd : o.isDegenerate = false) {s : Str} (hs : E.eng (.fin (Int.fract |o.val|)) = .ok s)
    {es : List Entry} (hes : stored E.table s = some (.list es)) {a b : Polys} {post : ℕ} (he : ((a, b), post) ∈ es) {t : Conv}
    (hr1 : Agrees E.refine1 a b post (Int.fract |o.val|) none) (hfast : E.fast a b = .ok true)
    (hest : E.estimate a b = .ok t) (ht : t.1 = .exp ∨ t.1 = .superExp)
    (hr2 : Agrees E.refine2 a b post (Int.fract |o.val|) (some t)) (hr3 : Agrees E.refine3 a b post (Int.fract |o.val|) (some t))
    (hroots : ∀ p ∈ b, ∀ z ∈ E.roots p.reverse, ¬ TakenForPosInt z) :
    ∃ c ∈ cs, c.b = b ∧ c.post = post ∧ (c.a = a ∨ post = 0 ∧ c.a = a.map fun p => p.map fun x => -x) ∧ c.conv = some t ∧
      Int.fract |c.lhs.val| = Int.fract |o.val| := by
  obtain ⟨c, hc, h1, h2, h3, h4, v, hv, hk⟩ := C93_complete_partial (ulcd_searchLaws x) (ulcd_equivMeans x) ulcdIsEquiv_calm sym hn hos htr h
    ho (w := o.val) rfl (by show Except.ok o.isDegenerate = _; rw [hd]) hs hes he hr1 hfast hest ht hr2 hr3 hroots
  have hv : Num.fin c.lhs.val = .fin v := hv
  cases hv
  exact ⟨c, hc, h1, h2, h3, h4, hk⟩

/-! ### The code's own functions -/

theorem mirror_init {a b : Polys} {s s' : CF} (h : init a b = .ok s) (h' : init (negTuple a) b = .ok s') :
    Mirror s s' ∧ s.logging = false := by
  have hi := init_mirror a b true false
  rw [show mirrorCoeffs a = negTuple a from rfl, h, h'] at hi
  cases hi with
  | ok hm =>
    refine ⟨hm, ?_⟩
    rw [init] at h
    split at h
    · cases h
    · dsimp only at h
      split at h
      · cases h
      · cases h; rfl

theorem init_error {a b : Polys} : (∃ e, init a b = .error e ∧ init (negTuple a) b = .error e) ∨
    ∃ s s', init a b = .ok s ∧ init (negTuple a) b = .ok s' := by
  have hi := init_mirror a b true false
  rw [show mirrorCoeffs a = negTuple a from rfl] at hi
  rcases e : init a b with err | s <;> rcases e' : init (negTuple a) b with err' | s' <;> rw [e, e'] at hi
  · cases hi; exact .inl ⟨err, rfl, rfl⟩
  · cases hi
  · cases hi
  · exact .inr ⟨s, s', rfl, rfl⟩

theorem evalInfo_neg (required : ℚ → ℚ → Except PyErr ℤ) (n acc : ℤ) (a b : Polys) (t : Option Conv) :
    evalInfo required n acc (negTuple a) b t = (evalInfo required n acc a b t).map negRes := by
  rw [evalInfo, evalInfo]
  rcases init_error (a := a) (b := b) with ⟨e, h, h'⟩ | ⟨s, s', h, h'⟩
  · rw [h, h']; rfl
  · rw [h, h']
    obtain ⟨hm, hl⟩ := mirror_init h h'
    simp only
    have key : ∀ s s' : CF, Mirror s s' → s.logging = false →
        (match genIterationsAcc required n (10 ^ (-(acc + 100))) true s' with
          | (_, .error e) => Except.error e
          | (s, .ok ()) => .ok (getResult s)) =
        (match genIterationsAcc required n (10 ^ (-(acc + 100))) true s with
          | (_, .error e) => Except.error e
          | (s, .ok ()) => .ok (getResult s)).map negRes := by
      intro s s' hm hl
      obtain ⟨-, h2, h3⟩ := genAcc_simS required n (10 ^ (-(acc + 100))) s s' ⟨hm, hl⟩
      rcases e : genIterationsAcc required n (10 ^ (-(acc + 100))) true s with ⟨u, r⟩
      rcases e' : genIterationsAcc required n (10 ^ (-(acc + 100))) true s' with ⟨u', r'⟩
      rw [e, e'] at h2 h3
      cases h2 with
      | error err => rfl
      | ok _ => exact congrArg Except.ok (h3 _ rfl).res
    cases t with
    | none => exact key s s' hm hl
    | some t => exact key _ _ { hm with approachType := rfl, approachParams := rfl } hl

/-- The code's own functions do not distinguish the two signs (C92). -/
theorem signFree_code (E : SearchEnv L) (A : Analysis) (required : ℚ → ℚ → Except PyErr ℤ) {n1 : ℕ} (h1 : 1 ≤ n1) (n2 n3 : ℤ)
    (odd : ∀ f, E.funcs[0]? = some f → ∀ x, f (negRes x) = (f x).map negRes) : SignFree (E.withCode A required n1 n2 n3) where
  fast a b := by
    have := C92_fast a b true 600 200 50
    have e : ∀ a b, fastNew a b = fastOf a b true 600 200 50 := by
      intro a b
      rw [fastNew, fastOf]
      cases init a b <;> rfl
    show fastNew _ _ = fastNew _ _
    rw [e, e]
    exact this
  estimate a b := by
    have := C92_approach A a b true 600 200 50
    have e : ∀ a b, estimateNew A a b = approachOf A a b true 600 200 50 := by
      intro a b
      rw [estimateNew, approachOf]
      cases init a b with
      | error e => rfl
      | ok s =>
        show _ = Except.map _ (estimateApproachObj A 600 200 50 s).2
        simp only
        rcases estimateApproachObj A 600 200 50 s with ⟨u, _ | _⟩ <;> rfl
    show estimateNew _ _ _ = estimateNew _ _ _
    rw [e, e]
    exact this
  eval1 a b t := by
    show evalConst n1 (negTuple a) b t = (evalConst n1 a b t).map negRes
    rw [evalConst, evalConst, show negTuple a = a.map (fun p => p.map fun k => -k) from rfl, C92_eval a b n1 h1]
    cases evalByPolys a b n1 <;> rfl
  eval2 := evalInfo_neg required n2 E.accuracy2
  eval3 := evalInfo_neg required n3 E.accuracy3
  odd := odd

theorem coeffAt_calm (cs : Coeffs) (i : ℤ) : coeffAt cs i ≠ .error .keyboardInterrupt := by
  rw [coeffAt]
  split <;> nofun

theorem promoMatGen_calm (z : Bool) (i : ℤ) (a b : Coeffs) : promoMatGen z i a b ≠ .error .keyboardInterrupt := by
  rw [promoMatGen]
  have ha := coeffAt_calm a i
  have hb := coeffAt_calm b i
  cases ea : coeffAt a i with
  | error e => rw [ea] at ha; exact fun h' => ha (congrArg _ (by injection h'))
  | ok x =>
    cases eb : coeffAt b i with
    | error e => rw [eb] at hb; exact fun h' => hb (congrArg _ (by injection h'))
    | ok y =>
      simp only
      split <;> nofun

theorem iterationAlgorithm_calm (z l : Bool) (ps : Params) (m : Mat) (i : ℤ) :
    iterationAlgorithm z l ps m i ≠ .error .keyboardInterrupt := by
  rw [iterationAlgorithm]
  have h := promoMatGen_calm z (i + 1) ps.a ps.b
  cases e : promoMatGen z (i + 1) ps.a ps.b with
  | error e' => rw [e] at h; simp only; exact fun h' => h (congrArg _ (by injection h'))
  | ok x => simp only; nofun

theorem addLoop_calm : ∀ (k i : ℕ) (ps : Params) (m : Mat) (s : CF), (addLoop k i ps m s).2 ≠ .error .keyboardInterrupt
  | 0, _, _, _, _ => by rw [addLoop]; nofun
  | k + 1, i, ps, m, s => by
    rw [addLoop]
    have h := iterationAlgorithm_calm s.avoidZeroB s.logging ps m (i + s.executed)
    cases e : iterationAlgorithm s.avoidZeroB s.logging ps m (i + s.executed) with
    | error e' => rw [e] at h; exact fun h' => h (congrArg _ (by injection h'))
    | ok x => exact addLoop_calm k (i + 1) x.1 x.2 _

theorem genIterations_calm (n : ℤ) (f : Bool) (s : CF) : (genIterations n f s).2 ≠ .error .keyboardInterrupt := by
  rw [genIterations, addIterations]
  simp only
  generalize he : addLoop _ _ _ _ _ = r
  obtain ⟨u, v⟩ := r
  cases v with
  | error e =>
    intro h
    obtain rfl : e = PyErr.keyboardInterrupt := by injection h
    exact addLoop_calm _ _ _ _ _ (congrArg Prod.snd he)
  | ok v => nofun

theorem genIterationsAcc_calm {required : ℚ → ℚ → Except PyErr ℤ} (hreq : ∀ x y, required x y ≠ .error .keyboardInterrupt)
    (n : ℤ) (acc : ℚ) (s : CF) : (genIterationsAcc required n acc true s).2 ≠ .error .keyboardInterrupt := by
  rw [genIterationsAcc]
  split
  · split
    · exact genIterations_calm _ _ _
    · rename_i base _ _
      have h := hreq acc base
      cases e : required acc base with
      | error e' => rw [e] at h; exact fun h' => h (congrArg _ (by injection h'))
      | ok r => exact genIterations_calm _ _ _
  · exact genIterations_calm _ _ _

theorem init_calm (a b : Polys) : init a b ≠ .error .keyboardInterrupt := by
  rw [init]
  split
  · nofun
  · have h : autogenFirst a ≠ .error .keyboardInterrupt := by
      unfold autogenFirst
      split <;> nofun
    simp only
    cases e : autogenFirst a with
    | error e' => rw [e] at h; exact fun h' => h (congrArg _ (by injection h'))
    | ok m => nofun

theorem evalInfo_calm {required : ℚ → ℚ → Except PyErr ℤ} (hreq : ∀ x y, required x y ≠ .error .keyboardInterrupt)
    (n acc : ℤ) (a b : Polys) (t : Option Conv) : evalInfo required n acc a b t ≠ .error .keyboardInterrupt := by
  rw [evalInfo]
  have hi := init_calm a b
  have key : ∀ s : CF, (match genIterationsAcc required n (10 ^ (-(acc + 100))) true s with
      | (_, .error e) => Except.error e
      | (s, .ok ()) => .ok (getResult s)) ≠ .error .keyboardInterrupt := by
    intro s
    have := genIterationsAcc_calm hreq n (10 ^ (-(acc + 100))) s
    rcases e : genIterationsAcc required n (10 ^ (-(acc + 100))) true s with ⟨u, err | _⟩
    · rw [e] at this
      exact fun h' => this (congrArg _ (by injection h'))
    · nofun
  cases e : init a b with
  | error e' => rw [e] at hi; exact fun h' => hi (congrArg _ (by injection h'))
  | ok s => exact key _

/-- C93 with the code's own evaluators and convergence tests, for the identity as the first function; no assumption about the
continued fractions is left. -/
theorem C93_code {x : ℚ} {E : SearchEnv Ulcd} (A : Analysis) (required : ℚ → ℚ → Except PyErr ℤ) {n1 : ℕ} (h1 : 1 ≤ n1) (n2 n3 : ℤ)
    (hid : ∀ f, E.funcs[0]? = some f → ∀ x, f x = .ok x) (heng : ∀ x, E.eng x ≠ .error .keyboardInterrupt)
    (hreq : ∀ x y, required x y ≠ .error .keyboardInterrupt) (hfun : ∀ f ∈ E.funcs, ∀ x, f x ≠ .error .keyboardInterrupt)
    (hos : ∀ o ∈ E.gen.1, UlcdOk x o) (htr : E.trunc = true) {old cs : List (Click Ulcd)}
    (h : search ulcdClass (E.withCode A required n1 n2 n3) none old = (cs, .ok ()))
    {o : Ulcd} (ho : o ∈ E.gen.1) (hd : o.isDegenerate = false) {s : Str} (hs : E.eng (.fin (Int.fract |o.val|)) = .ok s)
    {es : List Entry} (hes : stored E.table s = some (.list es)) {a b : Polys} {post : ℕ} (he : ((a, b), post) ∈ es) {t : Conv}
    (hr1 : Agrees (E.withCode A required n1 n2 n3).refine1 a b post (Int.fract |o.val|) none) (hfast : fastNew a b = .ok true)
    (hest : estimateNew A a b = .ok t) (ht : t.1 = .exp ∨ t.1 = .superExp)
    (hr2 : Agrees (E.withCode A required n1 n2 n3).refine2 a b post (Int.fract |o.val|) (some t))
    (hr3 : Agrees (E.withCode A required n1 n2 n3).refine3 a b post (Int.fract |o.val|) (some t))
    (hroots : ∀ p ∈ b, ∀ z ∈ E.roots p.reverse, ¬ TakenForPosInt z) :
    ∃ c ∈ cs, c.b = b ∧ c.post = post ∧ (c.a = a ∨ post = 0 ∧ c.a = a.map fun p => p.map fun x => -x) ∧ c.conv = some t ∧
      Int.fract |c.lhs.val| = Int.fract |o.val| :=
  C93_ulcd (E := E.withCode A required n1 n2 n3)
    (signFree_code E A required h1 n2 n3 fun f hf x => by rw [hid f hf, hid f hf]; rfl)
    ⟨heng, evalInfo_calm hreq n3 E.accuracy3, hfun⟩ hos htr h ho hd hs hes he hr1 hfast hest ht hr2 hr3 hroots

/-! ### A search which finds the golden ratio -/

/-- Numerical functions for the example: the base of every exponential approach is 2. -/
def exAnalysis : Analysis := { roughAnalysis with root := fun _ => 2, effZero := 1 / 10 ^ 1000 }

/-- The search of `exSearch` with the code's own functions; the enumerated LHS are 1.309 and 2.618, and two continued fractions
are stored under the key 0.618. -/
def exGolden : SearchEnv Ulcd :=
  { exSearch (26180 / 10000) 0 with
    table := ⟨4, [], [(.str "0.618".toList, .list [(([[1]], [[1]]), 0), (([[2]], [[1]]), 0)])]⟩ }

/-- `exGolden` with 20 iterations. -/
def exGoldenCode : SearchEnv Ulcd := exGolden.withCode exAnalysis (fun _ _ => .ok 20) 20 20 20

/-- The estimated convergence of `1 + 1/(1 + 1/(1 + …))`. -/
def exGoldenConv : Conv := (estimateNew exAnalysis [[1]] [[1]]).toOption.getD (.none, none)

theorem exGoldenConv_eq : estimateNew exAnalysis [[1]] [[1]] = .ok exGoldenConv := by
  have h : (estimateNew exAnalysis [[1]] [[1]]).toOption.isSome = true := by decide +kernel
  rw [exGoldenConv]
  cases e : estimateNew exAnalysis [[1]] [[1]] with
  | error err => rw [e] at h; cases h
  | ok t => rfl

theorem exGolden_agrees (env : RefineEnv) (t : Option Conv) (hf : env.funcs[0]? = some fun x => .ok x)
    (he : env.eval [[1]] [[1]] t = .ok (.fin (10946 / 6765)) ∨ env.eval [[1]] [[1]] t = .ok (.fin (17711 / 10946)))
    (heng : env.eng = exEng4) (hacc : env.accuracy = 3) :
    Agrees env [[1]] [[1]] 0 (Int.fract |(26180 / 10000 : ℚ)|) t := by
  rcases he with he | he
  · refine ⟨_, _, 10946 / 6765, "0.6180".toList, "0.6180".toList, hf, he, rfl, by norm_num, ?_, ?_, by rw [hacc]⟩
    · rw [heng]; decide +kernel
    · rw [heng]; decide +kernel
  · refine ⟨_, _, 17711 / 10946, "0.6180".toList, "0.6180".toList, hf, he, rfl, by norm_num, ?_, ?_, by rw [hacc]⟩
    · rw [heng]; decide +kernel
    · rw [heng]; decide +kernel

/-- The hypotheses of `C93_code`, and with them those of `C93_ulcd` and `C93_complete_partial`, for `1 + 1/(1 + 1/(1 + …))` and the LHS 2.618. -/
example : 1 ≤ 20 ∧ (∀ f, exGolden.funcs[0]? = some f → ∀ x, f x = .ok x) ∧ (∀ x, exGolden.eng x ≠ .error .keyboardInterrupt) ∧
    (∀ f ∈ exGolden.funcs, ∀ x, f x ≠ .error .keyboardInterrupt) ∧ (∀ o ∈ exGolden.gen.1, UlcdOk (26180 / 10000) o) ∧ exGolden.trunc = true ∧
    (search ulcdClass exGoldenCode none []).2 = .ok () ∧
    exUlcd (26180 / 10000) ∈ exGolden.gen.1 ∧ (exUlcd (26180 / 10000)).isDegenerate = false ∧
    exGolden.eng (.fin (Int.fract |(exUlcd (26180 / 10000)).val|)) = .ok "0.6180".toList ∧
    stored exGolden.table "0.6180".toList = some (.list [(([[1]], [[1]]), 0), (([[2]], [[1]]), 0)]) ∧
    fastNew [[1]] [[1]] = .ok true ∧ estimateNew exAnalysis [[1]] [[1]] = .ok exGoldenConv ∧ exGoldenConv.1 = .exp ∧
    Agrees exGoldenCode.refine1 [[1]] [[1]] 0 (Int.fract |(exUlcd (26180 / 10000)).val|) none ∧
    Agrees exGoldenCode.refine2 [[1]] [[1]] 0 (Int.fract |(exUlcd (26180 / 10000)).val|) (some exGoldenConv) ∧
    Agrees exGoldenCode.refine3 [[1]] [[1]] 0 (Int.fract |(exUlcd (26180 / 10000)).val|) (some exGoldenConv) ∧
    (∀ p ∈ ([[1]] : Polys), ∀ z ∈ exGolden.roots p.reverse, ¬ TakenForPosInt z) := by
  refine ⟨by decide, ?_, ?_, ?_, ?_, rfl, ?_, ?_, by decide +kernel, by decide +kernel, by decide +kernel,
    by decide +kernel, exGoldenConv_eq, by decide +kernel, ?_, ?_, ?_, ?_⟩
  · rintro f hf x
    cases hf
    rfl
  · intro x; cases x <;> nofun
  · intro f hf x
    rw [List.mem_singleton.1 hf]
    nofun
  · exact (exSearch_hyps (w := 26180 / 10000) (by norm_num) 0).2.1
  · have h : (search ulcdClass exGoldenCode none []).2.toOption.isSome = true := by decide +kernel
    rcases e : (search ulcdClass exGoldenCode none []).2 with err | ⟨⟩
    · rw [e] at h; cases h
    · rfl
  · exact List.mem_cons_of_mem _ (List.mem_singleton.2 rfl)
  · exact exGolden_agrees _ _ rfl (by left; decide +kernel) rfl rfl
  · exact exGolden_agrees _ _ rfl (by right; decide +kernel) rfl rfl
  · exact exGolden_agrees _ _ rfl (by right; decide +kernel) rfl rfl
  · rintro p - z hz ⟨-, n, h1, -, h3⟩
    rw [List.mem_singleton.1 hz] at h3
    rcases h3 with h3 | ⟨h3, h4⟩
    · have : (n : ℚ) < 1 := by linarith
      have : n < 1 := by exact_mod_cast this
      omega
    · have : (n : ℚ) = 1 := by linarith
      obtain rfl : n = 1 := by exact_mod_cast this
      exact absurd h4 (by decide)

/-- The search returns this continued fraction. -/
example : (search ulcdClass exGoldenCode none []).1.map (fun c => (c.a, c.b, c.lhs.val)) = [([[1]], [[1]], 26180 / 10000)] := by
  decide +kernel

example : SignFree exGoldenCode :=
  signFree_code exGolden exAnalysis (fun _ _ => .ok 20) (by decide) 20 20 fun f hf x => by cases hf; rfl

/-! ### `mpf` numbers -/

/-- An exponential type comes with parameters. -/
def HasParams (t : Conv) : Prop := t.1 = .exp ∨ t.1 = .superExp → t.2 ≠ none

theorem classifyMeans_params {A : Analysis} {sup : Bool} {dp dodd : List Delta} {mp mo : ℚ} {t : Conv}
    (h : classifyMeans A sup dp dodd mp mo = .ok t) : HasParams t := by
  rw [classifyMeans] at h
  split at h
  · split at h
    · cases h
    · cases h; exact fun _ => nofun
  · rw [polyParams] at h
    split at h
    · cases h; rintro (h | h) <;> cases h
    · cases h
  · cases h; rintro (h | h) <;> cases h

theorem classify_params {A : Analysis} {dp dodd : List Delta} {t : Conv} (h : classify A dp dodd = .ok t) : HasParams t := by
  rw [classify] at h
  split at h
  · cases h
    rintro (h | h) <;> · simp only [provisional] at h; split at h <;> cases h
  split at h
  · cases h
  split at h
  · cases h
  split at h
  · split at h
    · exact classifyMeans_params h
    · cases h; rintro (h | h) <;> cases h
  · exact classifyMeans_params h

theorem innerAlg_params {A : Analysis} {iters cutoff step : ℤ} {s s' : CF} {t : Conv}
    (h : innerAlg A iters cutoff step s = (s', .ok t)) : HasParams t := by
  rw [innerAlg] at h
  obtain ⟨_, _, _, h⟩ := bind_ok_inv h
  exact classify_params (congrArg Prod.snd h)

theorem estObjLoop1_params {A : Analysis} (iters cutoff step : ℤ) (ans : Conv) (s : CF) (ha : HasParams ans) {s' : CF}
    {t : Conv × ℤ} (h : estObjLoop1 A iters cutoff step ans s = (s', .ok t)) : HasParams t.1 := by
  rw [estObjLoop1] at h
  split at h
  · simp only at h
    split at h
    · cases h
    · rename_i hc _ _ _ hi
      exact estObjLoop1_params _ _ _ _ _ (innerAlg_params hi) h
  · cases h; exact ha
termination_by cutoff.toNat
decreasing_by
  rename_i hc _ _ _ _
  have _h1 := hc.2
  simp only [Int.fdiv_eq_ediv_of_nonneg _ (show (0:ℤ) ≤ 2 by decide)]
  omega

theorem estObjLoop2_params {A : Analysis} (iters : ℤ) (ans : Conv) (s : CF) (ha : HasParams ans) {s' : CF}
    {t : Conv} (h : estObjLoop2 A iters ans s = (s', .ok t)) : HasParams t := by
  rw [estObjLoop2] at h
  split at h
  · simp only at h
    split at h
    · cases h
    · rename_i hc _ _ _ hi
      exact estObjLoop2_params _ _ _ (innerAlg_params hi) h
  · cases h; exact ha
termination_by (iters - 10).toNat
decreasing_by
  rename_i hc _ _ _ _
  have _h1 := hc.2
  omega

theorem estimateNew_params {A : Analysis} {a b : Polys} {t : Conv} (h : estimateNew A a b = .ok t) : HasParams t := by
  rw [estimateNew] at h
  split at h
  · cases h
  · split at h
    · cases h
    · rename_i s _ s' he
      cases h
      rw [estimateApproachObj] at he
      obtain ⟨ans, s1, h1, he⟩ := bind_ok_inv he
      obtain ⟨⟨ans2, c2⟩, s2, h2, he⟩ := bind_ok_inv he
      obtain ⟨ans3, s3, h3, he⟩ := bind_ok_inv he
      have p2 := estObjLoop1_params _ _ _ _ _ (innerAlg_params h1) h2
      have p3 : HasParams ans3 := by
        by_cases hc : c2 = 0
        · simp only [hc] at h3
          exact estObjLoop2_params _ _ _ p2 h3
        · simp only [hc] at h3
          cases h3
          exact p2
      cases he
      exact p3

/-- **C90 (violated with `mpf`).** The number of iterations for a requested accuracy is computed with a method `ln` which `mpf`, the
number type the code imports, does not have (AttributeError).  So no search ever ends with a result, whatever the
hashtable, the enumerated LHS and the convergence of the continued fractions, and whenever it is cancelled.  (`E.eng` may be
any function here, so this does not depend on the missing `to_eng_string` of C54.) -/
theorem C90_mpf_violated (C : LhsClass L) (E : SearchEnv L) (A : Analysis) (n1 : ℕ) (n2 n3 : ℤ) (budget : Option ℕ)
    {old cs : List (Click L)}
    (h : search C (E.withCode A (fun _ _ => .error .attributeError) n1 n2 n3) budget old = (cs, .ok ())) : cs = [] := by
  rw [search] at h
  obtain ⟨_, cs1, h1, h⟩ := bind_ok_inv h
  obtain ⟨_, cs2, h2, h⟩ := bind_ok_inv h
  obtain ⟨_, cs3, h3, h⟩ := bind_ok_inv h
  obtain ⟨_, cs4, h4, h⟩ := bind_ok_inv h
  obtain ⟨_, cs5, h5, h⟩ := bind_ok_inv h
  obtain ⟨_, cs6, h6, h⟩ := bind_ok_inv h
  obtain ⟨b6, h6⟩ := refineAll_ok h6
  have k6 : cs6 = [] := by
    rw [List.eq_nil_iff_forall_not_mem]
    intro c' hc'
    obtain ⟨c, hc, b1, s, e, rfl⟩ := refineClicks_mem h6 c' hc'
    obtain ⟨c0, hc0, t, ht, hw, rfl⟩ := filterByApproach_mem h5 c hc
    have ht : estimateNew A c0.a c0.b = .ok t := ht
    have hp := estimateNew_params ht
    have hw' : t.1 = .exp ∨ t.1 = .superExp := by simpa using hw
    have hev : ∃ err, evalInfo (fun _ _ => .error .attributeError) n2 E.accuracy2 c0.a c0.b (some t) = .error err := by
      rw [evalInfo]
      cases init c0.a c0.b with
      | error err => exact ⟨err, rfl⟩
      | ok s =>
        refine ⟨.attributeError, ?_⟩
        obtain ⟨t1, _ | ⟨base, coeff⟩⟩ := t
        · exact absurd rfl (hp hw')
        · simp only [genIterationsAcc]
          rw [if_pos ⟨hw', zpow_ne_zero _ (by norm_num)⟩]
    obtain ⟨err, hev⟩ := hev
    obtain ⟨f, v, -, -, -, -, -, hv, -⟩ := (refineOne_ok e).1.1 rfl
    have hv : evalInfo (fun _ _ => .error .attributeError) n2 E.accuracy2 c0.a c0.b (some t) = .ok v := hv
    rw [hev] at hv
    cases hv
  rw [k6] at h
  cases h
  rfl

/-- The search for the golden ratio raises AttributeError. -/
example : (match (search ulcdClass (exGolden.withCode exAnalysis (fun _ _ => .error .attributeError) 20 20 20) none []).2 with
    | .error .attributeError => true
    | _ => false) = true := by
  decide +kernel

/-- If nothing is found it ends normally. -/
example : (search ulcdClass ({ exGolden with table := ⟨4, [], []⟩ }.withCode exAnalysis (fun _ _ => .error .attributeError) 20 20 20)
    none []) = ([], .ok ()) :=
  rfl

end PiCF
