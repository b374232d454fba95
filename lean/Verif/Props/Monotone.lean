import Verif.Props.CompleteRf

/-!
# C136: a search returns exactly what passes its tests, so larger searches lose nothing
-/

namespace PiCF
open PiCF.Spec PiCF.Hashtable PiCF.Mitm PiCF.EnumPoly PiCF.Lhs PiCF.ContFrac

variable {L κ : Type}

/-- The continued fraction `a`, `b` with the function number `post` is stored under the key `k` of an enumerated, non-degenerate LHS, and
passes all tests of the search: the digits agree in the three refinements, the convergence is fast and has the estimate `t`, of
type `exp` or `super_exp`, and no `b` polynomial has a root taken for a positive integer. -/
structure Spec.Passes (C : LhsClass L) (E : SearchEnv L) (a b : Polys) (post : ℕ) (k : ℚ) (t : Conv) : Prop where
  found : ∃ o ∈ E.gen.1, ∃ w s es, C.val o = .fin w ∧ Int.fract |w| = k ∧ (C.isDegenerate o).2 = .ok false ∧
    E.eng (.fin k) = .ok s ∧ stored E.table s = some (.list es) ∧ ((a, b), post) ∈ es
  refine1 : Agrees E.refine1 a b post k none
  fast : E.fast a b = .ok true
  estimate : E.estimate a b = .ok t
  type : t.1 = .exp ∨ t.1 = .superExp
  refine2 : Agrees E.refine2 a b post k (some t)
  refine3 : Agrees E.refine3 a b post k (some t)
  roots : ∀ p ∈ b, ∀ z ∈ E.roots p.reverse, ¬ TakenForPosInt z

/-- A result for the continued fraction `a`, `b` and the function number `post`, whose LHS has the key `k`, with the convergence `t`. -/
def Spec.Reports (C : LhsClass L) (cs : List (Click L)) (a b : Polys) (post : ℕ) (k : ℚ) (t : Conv) : Prop :=
  ∃ c ∈ cs, c.a = a ∧ c.b = b ∧ c.post = post ∧ c.conv = some t ∧ ∃ v, C.val c.lhs = .fin v ∧ Int.fract |v| = k

/-- A click that comes from the table and an enumerated LHS, with the same key, and has passed the tests `Q`. -/
def Track (C : LhsClass L) (Inv : L → Prop) (E : SearchEnv L) (Q : ℚ → Polys → Polys → ℕ → Option Conv → Prop) (c : Click L) : Prop :=
  Inv c.lhs ∧ ∃ o w v, Found C E o w c ∧ C.val c.lhs = .fin v ∧ Int.fract |v| = Int.fract |w| ∧
    Q (Int.fract |w|) c.a c.b c.post c.conv

theorem track_find {C : LhsClass L} {Inv : L → Prop} {key : Click L → κ} {out : κ → κ → Except PyErr Bool}
    (laws : SearchLaws C Inv key out) {E : SearchEnv L} (hos : ∀ o ∈ E.gen.1, Inv o) {old cs : List (Click L)}
    (h : findClicks C E.eng E.trunc E.table E.gen old = (cs, .ok ())) : ∀ c ∈ cs, Track C Inv E (fun _ _ _ _ t => t = none) c := by
  have hconv := findClicks_conv h
  obtain ⟨-, css, hf, rfl⟩ := (C54_clicks_exact_partial C E.eng E.trunc E.table E.gen.1 old cs E.gen.2).1 h
  intro c hc
  obtain ⟨cs', h1, h2⟩ := List.mem_flatten.1 hc
  obtain ⟨o, ho, hcl⟩ := forall₂_mem_right hf h1
  cases hcl with
  | absent => cases h2
  | degenerate => cases h2
  | @found r s es o' _ hr hs ht hd hcs =>
    obtain ⟨w, hw⟩ := laws.finite o (hos o ho)
    rw [hw] at hr
    have hr : r = .fin (searchKey E.trunc w) := hr
    subst hr
    obtain ⟨e, he, e1, e2, e3, -, e5⟩ := forall₂_mem_right hcs h2
    obtain ⟨hi, hv⟩ := laws.copies o o' c.lhs (hos o ho) hd e5
    refine ⟨hi, o, w, w, ⟨ho, hw, by rw [hd], s, es, hs, ht, ?_⟩, hv.trans hw, rfl, hconv c hc⟩
    rw [e1, e2, e3]
    exact he

theorem track_refine {C : LhsClass L} {Inv : L → Prop} {key : Click L → κ} {out : κ → κ → Except PyErr Bool}
    (laws : SearchLaws C Inv key out) {E : SearchEnv L} {Q : ℚ → Polys → Polys → ℕ → Option Conv → Prop} {env : RefineEnv}
    (htr : env.trunc = true) {b b' : Option ℕ} {cs kept : List (Click L)} (hcs : ∀ c ∈ cs, Track C Inv E Q c)
    (h : refineClicks C env (b, cs) = ((b', kept), .ok ())) :
    ∀ c ∈ kept, Track C Inv E (fun k a b p t => Q k a b p t ∧ Agrees env a b p k t) c := by
  intro c' hc'
  obtain ⟨c, hc, b1, s, e, rfl⟩ := refineClicks_mem h c' hc'
  obtain ⟨hi, o, w, v, hfo, hv, hk, hQ⟩ := hcs c hc
  have hsd : SidesAgree C env c := (refineOne_ok e).1.1 rfl
  have hR : Rep C Inv c.a c.b c.post (Int.fract |w|) c.conv c := ⟨hi, rfl, rfl, .inl rfl, ⟨v, hv, hk⟩, rfl⟩
  obtain ⟨-, hR'⟩ := hR.refine laws rfl hsd e
  obtain ⟨e1, e2, e3, e4⟩ : SameClick c s.click := by
    have := refineOne_same C env ⟨b1, c⟩
    rw [e] at this
    exact this
  obtain ⟨v', hv', hk'⟩ := hR'.val
  refine ⟨hR'.inv, o, w, v', hfo.same e1 e2 e3, hv', hk', ?_, ?_⟩
  · rw [e1, e2, e3, e4]; exact hQ
  · rw [e1, e2, e3, e4]
    obtain ⟨f, r, y, t, q, t', h1, h2, h3, h4, h5, h6, h7, h8⟩ := hsd
    rw [htr] at h5 h6
    rw [hv] at h6
    have h6 : q = .fin (Int.fract |v|) := h6
    rw [h6, hk] at h7
    exact ⟨f, r, y, t, t', h1, h2, h3, h4, h5, h7, h8⟩

theorem track_uniq {C : LhsClass L} {Inv : L → Prop} {key : Click L → κ} {out : κ → κ → Except PyErr Bool}
    (laws : SearchLaws C Inv key out) {E : SearchEnv L} {Q : ℚ → Polys → Polys → ℕ → Option Conv → Prop} {cs cs' : List (Click L)}
    (hcs : ∀ c ∈ cs, Track C Inv E Q c) (h : filterUniq C cs = (cs', .ok ())) : ∀ c ∈ cs', Track C Inv E Q c := by
  intro c' hc'
  obtain ⟨c, hc, ⟨e1, e2, e3, e4⟩, hval, -, hinv⟩ := (filterUniq_known laws (fun c hc => (hcs c hc).1) h).1 c' hc'
  obtain ⟨hi, o, w, v, hfo, hv, hk, hQ⟩ := hcs c hc
  exact ⟨hinv hi, o, w, v, hfo.same e1 e2 e3, hval.trans hv, hk, by rw [e1, e2, e3, e4]; exact hQ⟩

/-- **C136 (results).** Every result of a search that is not interrupted (with the integer part removed) passes all tests, each at the digits of
its own refinement, with its own continued fraction, function and the key of its own LHS.  For every LHS class that keeps its
contract (both do). -/
theorem C136_sound {C : LhsClass L} {Inv : L → Prop} {key : Click L → κ} {out : κ → κ → Except PyErr Bool}
    (laws : SearchLaws C Inv key out) (hout : ∀ k k', out k k' ≠ .error .keyboardInterrupt) {E : SearchEnv L}
    (hn : NoInterrupt E.refine3) (hos : ∀ o ∈ E.gen.1, Inv o) (htr : E.trunc = true) {old cs : List (Click L)}
    (h : search C E none old = (cs, .ok ())) {c : Click L} (hc : c ∈ cs) :
    ∃ k t v, c.conv = some t ∧ C.val c.lhs = .fin v ∧ Int.fract |v| = k ∧ Spec.Passes C E c.a c.b c.post k t := by
  rw [search] at h
  obtain ⟨_, cs1, h1, h⟩ := bind_ok_inv h
  obtain ⟨_, cs2, h2, h⟩ := bind_ok_inv h
  obtain ⟨_, cs3, h3, h⟩ := bind_ok_inv h
  obtain ⟨_, cs4, h4, h⟩ := bind_ok_inv h
  obtain ⟨_, cs5, h5, h⟩ := bind_ok_inv h
  obtain ⟨_, cs6, h6, h⟩ := bind_ok_inv h
  have k1 := track_find laws hos h1
  obtain ⟨b2, h2⟩ := refineAll_ok h2
  have k3 := track_uniq laws (track_refine laws (env := E.refine1) htr k1 h2) h3
  have k5 : ∀ c ∈ cs5, Track C Inv E (fun k a b p t => Agrees E.refine1 a b p k none ∧ E.fast a b = .ok true ∧
      ∃ t', E.estimate a b = .ok t' ∧ (t'.1 = .exp ∨ t'.1 = .superExp) ∧ t = some t') c := by
    intro c hc
    obtain ⟨c0, hc0, t, ht, hw, rfl⟩ := filterByApproach_mem h5 c hc
    obtain ⟨hm, hf⟩ := filterExp_mem h4 c0 hc0
    obtain ⟨hi, o, w, v, hfo, hv, hk, hQ, hA⟩ := k3 c0 hm
    rw [hQ] at hA
    exact ⟨hi, o, w, v, hfo.same rfl rfl rfl, hv, hk, hA, hf, t, ht, by simpa using hw, rfl⟩
  obtain ⟨b6, h6⟩ := refineAll_ok h6
  have k6 := track_refine laws (env := E.refine2) htr k5 h6
  rw [lastStage] at h
  have n7 := refineClicks_calm laws.lhs hn fun c hc => (k6 c hc).1
  rcases e7 : refineClicks C E.refine3 (none, cs6) with ⟨⟨b7, cs7⟩, err | u⟩
  · rw [e7] at h n7
    cases err <;> first | exact absurd rfl n7 | cases h
  rw [e7] at h
  have k7 := track_refine laws (env := E.refine3) htr k6 e7
  simp only at h
  have n8 := filterUniq_calm laws.equiv (fun k k' => hout k.1 k'.1) fun c hc => (k7 c hc).1
  rcases e8 : filterUniq C cs7 with ⟨cs8, err | u⟩
  · rw [e8] at n8
    rw [PyM.bind_error e8] at h
    cases err <;> first | exact absurd rfl n8 | cases h
  rw [PyM.bind_ok e8] at h
  have k8 := track_uniq laws k7 e8
  have n9 := filterUniq_calm laws.equiv (fun k k' => hout k.1 k'.1) fun c hc => (k8 c hc).1
  rcases e9 : filterUniq C cs8 with ⟨cs9, err | u⟩
  · rw [e9] at n9
    rw [PyM.bind_error e9] at h
    cases err <;> first | exact absurd rfl n9 | cases h
  rw [PyM.bind_ok e9] at h
  have k9 := track_uniq laws k8 e9
  obtain ⟨hsub, hroots⟩ := filterPosIntRoots_mem (roots := E.roots) (cs := cs9) (cs' := cs) h
  obtain ⟨-, o, w, v, ⟨ho, hw, hd, s, es, hs, hes, he⟩, hv, hk, ⟨⟨r1, hf, t, ht, htt, hct⟩, r2⟩, r3⟩ := k9 c (hsub.subset hc)
  rw [hct] at r2 r3
  rw [htr] at hs
  exact ⟨_, t, v, hct, hv, hk, ⟨o, ho, w, s, es, hw, rfl, hd, hs, hes, he⟩, r1, hf, ht, htt, r2, r3, hroots c hc⟩

/-- **C136 (partial).** For an LHS class whose test of equivalent clicks compares the values: a search that is not interrupted reports, up to the
sign of `a` for the identity, exactly what passes its tests.
Missing: rational functions, of which only the first half holds (`C136_sound`, `C93_rf_violated`). -/
theorem C136_exact_partial {C : LhsClass L} {Inv : L → Prop} {key : Click L → κ} {out : κ → κ → Except PyErr Bool}
    (laws : SearchLaws C Inv key out) (hm : EquivMeans C Inv key out) (hout : ∀ k k', out k k' ≠ .error .keyboardInterrupt)
    {E : SearchEnv L} (sym : SignFree E) (hn : NoInterrupt E.refine3) (hos : ∀ o ∈ E.gen.1, Inv o) (htr : E.trunc = true)
    {old cs : List (Click L)} (h : search C E none old = (cs, .ok ())) (a b : Polys) (post : ℕ) (k : ℚ) (t : Conv) :
    (Spec.Reports C cs a b post k t ∨ post = 0 ∧ Spec.Reports C cs (a.map fun p => p.map fun x => -x) b post k t) ↔
      (Spec.Passes C E a b post k t ∨ post = 0 ∧ Spec.Passes C E (a.map fun p => p.map fun x => -x) b post k t) := by
  have sound : ∀ a, Spec.Reports C cs a b post k t → Spec.Passes C E a b post k t := by
    rintro a ⟨c, hc, rfl, rfl, rfl, ht, v, hv, hk⟩
    obtain ⟨k', t', v', ht', hv', hk', hp⟩ := C136_sound laws hout hn hos htr h hc
    rw [ht] at ht'; cases ht'
    rw [hv] at hv'; cases hv'
    rw [← hk, hk']
    exact hp
  have complete : ∀ a, Spec.Passes C E a b post k t →
      Spec.Reports C cs a b post k t ∨ post = 0 ∧ Spec.Reports C cs (a.map fun p => p.map fun x => -x) b post k t := by
    rintro a ⟨⟨o, ho, w, s, es, hw, rfl, hd, hs, hes, he⟩, r1, hf, ht, htt, r2, r3, hroots⟩
    obtain ⟨c, hc, e1, e2, e3, e4, e5⟩ :=
      C93_complete_partial laws hm hout sym hn hos htr h ho hw hd hs hes he r1 hf ht htt r2 r3 hroots
    rcases e3 with e3 | ⟨h0, e3⟩
    · exact .inl ⟨c, hc, e3, e1, e2, e4, e5⟩
    · exact .inr ⟨h0, c, hc, e3, e1, e2, e4, e5⟩
  have twice : ∀ a : Polys, ((a.map fun p => p.map fun x => -x).map fun p => p.map fun x => -x) = a := negTuple_negTuple
  constructor
  · rintro (hr | ⟨h0, hr⟩)
    · exact .inl (sound _ hr)
    · exact .inr ⟨h0, sound _ hr⟩
  · rintro (hp | ⟨h0, hp⟩)
    · exact complete a hp
    · rcases complete _ hp with hr | ⟨-, hr⟩
      · exact .inr ⟨h0, hr⟩
      · rw [twice] at hr
        exact .inl hr

/-- Everything the search `E` enumerates is enumerated by `E'`, and every entry of its table is under the same text in the table of
`E'`; the order and what else there is do not matter. -/
structure Spec.Wider (E E' : SearchEnv L) : Prop where
  gen : ∀ o ∈ E.gen.1, o ∈ E'.gen.1
  table : ∀ s es, stored E.table s = some (.list es) → ∃ es', stored E'.table s = some (.list es') ∧ ∀ e ∈ es, e ∈ es'

/-- The two searches use the same tests. -/
structure Spec.SameTests (E E' : SearchEnv L) : Prop where
  eng : E'.eng = E.eng
  refine1 : E'.refine1 = E.refine1
  refine2 : E'.refine2 = E.refine2
  refine3 : E'.refine3 = E.refine3
  fast : E'.fast = E.fast
  estimate : E'.estimate = E.estimate
  roots : E'.roots = E.roots

theorem Spec.Passes.wider {C : LhsClass L} {E E' : SearchEnv L} (hs : Spec.SameTests E E') {a b : Polys} {post : ℕ} {k : ℚ} {t : Conv}
    (hw : ∀ o ∈ E.gen.1, ∀ s es, stored E.table s = some (.list es) → ((a, b), post) ∈ es →
      o ∈ E'.gen.1 ∧ ∃ es', stored E'.table s = some (.list es') ∧ ((a, b), post) ∈ es')
    (h : Spec.Passes C E a b post k t) : Spec.Passes C E' a b post k t := by
  obtain ⟨⟨o, ho, w, s, es, h1, h2, h3, h4, h5, h6⟩, r1, hf, ht, htt, r2, r3, hr⟩ := h
  obtain ⟨ho', es', h5', h6'⟩ := hw o ho s es h5 h6
  exact ⟨⟨o, ho', w, s, es', h1, h2, h3, by rw [hs.eng]; exact h4, h5', h6'⟩, by rw [hs.refine1]; exact r1, by rw [hs.fast]; exact hf,
    by rw [hs.estimate]; exact ht, htt, by rw [hs.refine2]; exact r2, by rw [hs.refine3]; exact r3, by rw [hs.roots]; exact hr⟩

/-- Reported, up to the sign of `a` for the identity. -/
def Spec.ReportsUpToSign (C : LhsClass L) (cs : List (Click L)) (a b : Polys) (post : ℕ) (k : ℚ) (t : Conv) : Prop :=
  Spec.Reports C cs a b post k t ∨ post = 0 ∧ Spec.Reports C cs (a.map fun p => p.map fun x => -x) b post k t

/-- **C136 (partial).** Whatever a search reports is reported by every search with the same tests that enumerates at least the same LHS objects
with a table that has at least the same entries, in any order.  In particular two searches with the same objects and entries
in different orders report the same.
Missing: rational functions, see `C136_wider_violated`. -/
theorem C136_wider_partial {C : LhsClass L} {Inv : L → Prop} {key : Click L → κ} {out : κ → κ → Except PyErr Bool}
    (laws : SearchLaws C Inv key out) (hm : EquivMeans C Inv key out) (hout : ∀ k k', out k k' ≠ .error .keyboardInterrupt)
    {E E' : SearchEnv L} (hs : Spec.SameTests E E') (hw : Spec.Wider E E') (sym : SignFree E') (hn : NoInterrupt E'.refine3)
    (hos : ∀ o ∈ E'.gen.1, Inv o) (htr : E.trunc = true) (htr' : E'.trunc = true) {old old' cs cs' : List (Click L)}
    (h : search C E none old = (cs, .ok ())) (h' : search C E' none old' = (cs', .ok ())) {a b : Polys} {post : ℕ} {k : ℚ} {t : Conv}
    (hr : Spec.ReportsUpToSign C cs a b post k t) : Spec.ReportsUpToSign C cs' a b post k t := by
  have sound : ∀ a, Spec.Reports C cs a b post k t → Spec.Passes C E' a b post k t := by
    rintro a ⟨c, hc, rfl, rfl, rfl, ht, v, hv, hk⟩
    obtain ⟨k', t', v', ht', hv', hk', hp⟩ := C136_sound laws hout (by rw [← hs.refine3]; exact hn) (fun o ho => hos o (hw.gen o ho)) htr h hc
    rw [ht] at ht'; cases ht'
    rw [hv] at hv'; cases hv'
    rw [← hk, hk']
    refine hp.wider hs fun o ho s es he hm => ⟨hw.gen o ho, ?_⟩
    obtain ⟨es', e1, e2⟩ := hw.table s es he
    exact ⟨es', e1, e2 _ hm⟩
  exact (C136_exact_partial laws hm hout sym hn hos htr' h' a b post k t).2 (hr.imp (sound _) fun ⟨h0, hr⟩ => ⟨h0, sound _ hr⟩)

/-- **C136 (partial).** A search may be divided: with the LHS objects divided among several searches with the same table and tests (in any way and
order), one of them reports what the search for all of them reports.
Missing: rational functions, see `C136_wider_violated`. -/
theorem C136_divided_partial {C : LhsClass L} {Inv : L → Prop} {key : Click L → κ} {out : κ → κ → Except PyErr Bool}
    (laws : SearchLaws C Inv key out) (hm : EquivMeans C Inv key out) (hout : ∀ k k', out k k' ≠ .error .keyboardInterrupt)
    {E : SearchEnv L} (sym : SignFree E) (hn : NoInterrupt E.refine3) (htr : E.trunc = true)
    {gens : List (List L)} (hgen : E.gen.1.Perm gens.flatten) (hos : ∀ o ∈ E.gen.1, Inv o)
    {old cs : List (Click L)} (h : search C E none old = (cs, .ok ())) {css : List (List (Click L))}
    (hcs : List.Forall₂ (fun os cs => search C { E with gen := (os, .ok ()) } none [] = (cs, .ok ())) gens css)
    (a b : Polys) (post : ℕ) (k : ℚ) (t : Conv) :
    Spec.ReportsUpToSign C cs a b post k t ↔ ∃ cs' ∈ css, Spec.ReportsUpToSign C cs' a b post k t := by
  have hos' : ∀ os ∈ gens, ∀ o ∈ os, Inv o := fun os h1 o h2 => hos o (hgen.mem_iff.2 (List.mem_flatten.2 ⟨os, h1, h2⟩))
  have exact' : ∀ os ∈ gens, ∀ cs', search C { E with gen := (os, .ok ()) } none [] = (cs', .ok ()) →
      (Spec.ReportsUpToSign C cs' a b post k t ↔ (Spec.Passes C { E with gen := (os, .ok ()) } a b post k t ∨
        post = 0 ∧ Spec.Passes C { E with gen := (os, .ok ()) } (a.map fun p => p.map fun x => -x) b post k t)) := by
    intro os ho cs' h'
    exact C136_exact_partial (E := { E with gen := (os, .ok ()) }) laws hm hout ⟨sym.fast, sym.estimate, sym.eval1, sym.eval2, sym.eval3, sym.odd⟩
      hn (hos' os ho) htr h' a b post k t
  have hex := C136_exact_partial laws hm hout sym hn hos htr h a b post k t
  have up : ∀ os ∈ gens, ∀ a, Spec.Passes C { E with gen := (os, .ok ()) } a b post k t → Spec.Passes C E a b post k t := by
    intro os hg a hp
    refine Spec.Passes.wider (E := { E with gen := (os, .ok ()) }) (E' := E) ⟨rfl, rfl, rfl, rfl, rfl, rfl, rfl⟩
      (fun o ho s es he hme => ⟨?_, es, he, hme⟩) hp
    exact hgen.mem_iff.2 (List.mem_flatten.2 ⟨os, hg, ho⟩)
  have down : ∀ a, Spec.Passes C E a b post k t → ∃ os ∈ gens, Spec.Passes C { E with gen := (os, .ok ()) } a b post k t := by
    rintro a ⟨⟨o, ho, hrest⟩, r1, hf, ht, htt, r2, r3, hr⟩
    obtain ⟨os, h1, h2⟩ := List.mem_flatten.1 (hgen.mem_iff.1 ho)
    exact ⟨os, h1, ⟨o, h2, hrest⟩, r1, hf, ht, htt, r2, r3, hr⟩
  constructor
  · intro hr
    rcases hex.1 hr with hp | ⟨h0, hp⟩
    · obtain ⟨os, h1, h2⟩ := down _ hp
      obtain ⟨cs', h3, h4⟩ := forall₂_mem_left hcs h1
      exact ⟨cs', h3, (exact' os h1 cs' h4).2 (.inl h2)⟩
    · obtain ⟨os, h1, h2⟩ := down _ hp
      obtain ⟨cs', h3, h4⟩ := forall₂_mem_left hcs h1
      exact ⟨cs', h3, (exact' os h1 cs' h4).2 (.inr ⟨h0, h2⟩)⟩
  · rintro ⟨cs', h1, hr⟩
    obtain ⟨os, h2, h3⟩ := forall₂_mem_right hcs h1
    refine hex.2 (((exact' os h2 cs' h3).1 hr).imp (up os h2 _) fun ⟨h0, hp⟩ => ⟨h0, up os h2 _ hp⟩)

/-! ### ULCD, and the code's own functions -/

/-- C136 for ULCD searches with the code's own evaluators and convergence tests, for the identity as the first function: with more LHS objects,
or with more entries in the table (for example one joined of several), or with other orders of them, no result is lost. -/
theorem C136_code {x : ℚ} {E : SearchEnv Ulcd} (A : Analysis) (required : ℚ → ℚ → Except PyErr ℤ) {n1 : ℕ} (h1 : 1 ≤ n1) (n2 n3 : ℤ)
    (hid : ∀ f, E.funcs[0]? = some f → ∀ x, f x = .ok x) (heng : ∀ x, E.eng x ≠ .error .keyboardInterrupt)
    (hreq : ∀ x y, required x y ≠ .error .keyboardInterrupt) (hfun : ∀ f ∈ E.funcs, ∀ x, f x ≠ .error .keyboardInterrupt)
    (htr : E.trunc = true) {table : Table (Val Entry)} {gen : List Ulcd × Except PyErr Unit} (hos : ∀ o ∈ gen.1, UlcdOk x o)
    (hgen : ∀ o ∈ E.gen.1, o ∈ gen.1)
    (htab : ∀ s es, stored E.table s = some (.list es) → ∃ es', stored table s = some (.list es') ∧ ∀ e ∈ es, e ∈ es')
    {old old' cs cs' : List (Click Ulcd)} (h : search ulcdClass (E.withCode A required n1 n2 n3) none old = (cs, .ok ()))
    (h' : search ulcdClass ({ E with table := table, gen := gen }.withCode A required n1 n2 n3) none old' = (cs', .ok ()))
    {c : Click Ulcd} (hc : c ∈ cs) : ∃ c' ∈ cs', c'.b = c.b ∧ c'.post = c.post ∧
      (c'.a = c.a ∨ c.post = 0 ∧ c'.a = c.a.map fun p => p.map fun x => -x) ∧ c'.conv = c.conv ∧
      Int.fract |c'.lhs.val| = Int.fract |c.lhs.val| := by
  have wide : Spec.Wider (E.withCode A required n1 n2 n3) (SearchEnv.withCode { E with table := table, gen := gen } A required n1 n2 n3) :=
    ⟨hgen, htab⟩
  have hn : NoInterrupt (SearchEnv.withCode { E with table := table, gen := gen } A required n1 n2 n3).refine3 :=
    ⟨heng, evalInfo_calm hreq n3 E.accuracy3, hfun⟩
  obtain ⟨k, t, v, ht, hv, hk, -⟩ := C136_sound (E := E.withCode A required n1 n2 n3) (ulcd_searchLaws x) ulcdIsEquiv_calm hn
    (fun o ho => hos o (hgen o ho)) htr h hc
  have hr : Spec.ReportsUpToSign ulcdClass cs' c.a c.b c.post k t :=
    C136_wider_partial (E := E.withCode A required n1 n2 n3) (E' := SearchEnv.withCode { E with table := table, gen := gen } A required n1 n2 n3)
      (ulcd_searchLaws x) (ulcd_equivMeans x) ulcdIsEquiv_calm ⟨rfl, rfl, rfl, rfl, rfl, rfl, rfl⟩
      wide
      (signFree_code { E with table := table, gen := gen } A required h1 n2 n3 fun f hf x => by rw [hid f hf, hid f hf]; rfl)
      hn hos htr htr h h' (.inl ⟨c, hc, rfl, rfl, rfl, ht, v, hv, hk⟩)
  have hv : Num.fin c.lhs.val = .fin v := hv
  cases hv
  rcases hr with ⟨c', hc', e1, e2, e3, e4, v', hv', hk'⟩ | ⟨h0, c', hc', e1, e2, e3, e4, v', hv', hk'⟩ <;>
    have hv' : Num.fin c'.lhs.val = .fin v' := hv' <;> cases hv'
  · exact ⟨c', hc', e2, e3, .inl e1, e4.trans ht.symm, hk'.trans hk.symm⟩
  · exact ⟨c', hc', e2, e3, .inr ⟨h0, e1⟩, e4.trans ht.symm, hk'.trans hk.symm⟩

/-- `exGolden` with its two LHS objects in the other order and then repeated, and with a table that has the entries in another order
and another key. -/
def exGoldenWide : SearchEnv Ulcd :=
  { exGolden with
    table := ⟨4, [], [(.str "0.25".toList, .list [(([[2]], [[1]]), 0)]),
      (.str "0.618".toList, .list [(([[2]], [[1]]), 0), (([[1]], [[1]]), 0)])]⟩
    gen := (exGolden.gen.1.reverse ++ exGolden.gen.1, .ok ()) }

/-- The hypotheses of `C136_code` for the two searches, which both have a result. -/
example : (∀ o ∈ exGoldenWide.gen.1, UlcdOk (26180 / 10000) o) ∧ (∀ o ∈ exGolden.gen.1, o ∈ exGoldenWide.gen.1) ∧
    (∀ s es, stored exGolden.table s = some (.list es) →
      ∃ es', stored exGoldenWide.table s = some (.list es') ∧ ∀ e ∈ es, e ∈ es') ∧
    (search ulcdClass exGoldenCode none []).2.toOption = some () ∧
    (search ulcdClass (exGoldenWide.withCode exAnalysis (fun _ _ => .ok 20) 20 20 20) none []).2.toOption = some () ∧
    (search ulcdClass (exGoldenWide.withCode exAnalysis (fun _ _ => .ok 20) 20 20 20) none []).1.map
      (fun c => (c.a, c.b, c.lhs.val)) = [([[1]], [[1]], 26180 / 10000)] := by
  have hg := (exSearch_hyps (w := 26180 / 10000) (by norm_num) 0).2.1
  refine ⟨?_, ?_, ?_, by decide +kernel, by decide +kernel, by decide +kernel⟩
  · intro o ho
    rcases List.mem_append.1 ho with ho | ho
    · exact hg o (List.mem_reverse.1 ho)
    · exact hg o ho
  · exact fun o ho => List.mem_append_right _ ho
  · intro s es h
    have h1 : ∀ k : Key, exGolden.table.data.get? k = if k = .str "0.618".toList then
        some (.list [(([[1]], [[1]]), 0), (([[2]], [[1]]), 0)]) else none := by
      intro k
      show Dict.get? [(Key.str "0.618".toList, _)] k = _
      simp [Dict.get?, eq_comm]
    have h2 : exGoldenWide.table.data.get? (.str "0.618".toList) = some (.list [(([[2]], [[1]]), 0), (([[1]], [[1]]), 0)]) := by
      decide +kernel
    rw [stored, show exGolden.table.history ++ [exGolden.table.accuracy] = [4] from rfl, List.findSome?, h1] at h
    by_cases hk : Key.str (sliceTo s (4 + 1)) = .str "0.618".toList
    · rw [if_pos hk] at h
      cases h
      refine ⟨[(([[2]], [[1]]), 0), (([[1]], [[1]]), 0)], ?_, by decide⟩
      rw [stored, show exGoldenWide.table.history ++ [exGoldenWide.table.accuracy] = [4] from rfl, List.findSome?, hk, h2]
    · rw [if_neg hk] at h
      cases h

/-- The hypotheses of `C136_divided_partial`: the two LHS objects of the search, each searched for alone. -/
example : exGoldenCode.gen.1.Perm [[exUlcd (26180 / 10000)], exGolden.gen.1.take 1].flatten ∧
    (search ulcdClass { exGoldenCode with gen := ([exUlcd (26180 / 10000)], .ok ()) } none []).2.toOption = some () ∧
    (search ulcdClass { exGoldenCode with gen := (exGolden.gen.1.take 1, .ok ()) } none []).2.toOption = some () ∧
    (search ulcdClass { exGoldenCode with gen := ([exUlcd (26180 / 10000)], .ok ()) } none []).1.map (fun c => (c.a, c.b, c.lhs.val)) =
      [([[1]], [[1]], 26180 / 10000)] :=
  ⟨List.Perm.swap _ _ _, by decide +kernel, by decide +kernel, by decide +kernel⟩

/-! ### Rational functions -/

/-- The search of `exRfSearch` without the function `1/(1 + x)`. -/
def exRfNarrow : SearchEnv RF := { exRfSearch with gen := ([RF.init ([1], [2, 1], 0) 300], .ok ()) }

theorem exRf_narrow : ∃ k, search rfClass exRfNarrow none [] = ([k], .ok ()) ∧ ExClick 2 (some (.exp, some (2, 3))) k := by
  have one : ∀ {t : Option Conv} {k : Click RF}, ExClick 2 t k →
      ∃ k', refineClicks rfClass exRfRefine (none, [k]) = ((none, [k']), .ok ()) ∧ ExClick 2 t k' := by
    intro t k h
    obtain ⟨k', e, h'⟩ := refineOne_ex (.inr rfl) h
    exact ⟨k', by rw [refineClicks]; simp only [refineLoop, e, if_true], h'⟩
  have find : ∃ k, findClicks rfClass exRfNarrow.eng exRfNarrow.trunc exRfNarrow.table exRfNarrow.gen [] = ([k], .ok ()) ∧
      ExClick 2 none k := by
    obtain ⟨s', e, h⟩ := (OneOver.init 2).degenerate
    have e : rfClass.isDegenerate (RF.init ([1], [2, 1], 0) 300) = (s', .ok false) := e
    have hr : truncate exRfSearch.trunc (absNum (rfClass.val (RF.init ([1], [2, 1], 0) 300))) = .ok (.fin (1 / 302)) := by
      show truncate exRfSearch.trunc (absNum (RF.calcVal [1] [2, 1] 0 300)) = _
      decide +kernel
    have hs : exRfSearch.eng (.fin (1 / 302)) = .ok "0.0033".toList := by decide +kernel
    have hin : exRfSearch.table.containsItem (fun q => exRfSearch.eng (.fin q)) (.str "0.0033".toList) = .ok true := by decide +kernel
    have hget : exRfSearch.table.getItem (fun q => exRfSearch.eng (.fin q)) (.str "0.0033".toList) =
        .ok (.list [(([[1]], [[1]]), 0)]) := by decide +kernel
    have hcl : clicksOf rfClass exRfSearch.eng exRfSearch.trunc exRfSearch.table (RF.init ([1], [2, 1], 0) 300) =
        .ok [⟨[[1]], [[1]], RF.copy s', 0, none⟩] := by
      rw [clicksOf]
      simp only [hr, hs, hin, e, hget]
      rfl
    refine ⟨⟨[[1]], [[1]], RF.copy s', 0, none⟩, ?_, rfl, rfl, rfl, rfl, ?_⟩
    · have : clicksLoop rfClass exRfNarrow.eng exRfNarrow.trunc exRfNarrow.table exRfNarrow.gen.1 =
          .ok [⟨[[1]], [[1]], RF.copy s', 0, none⟩] := by
        show clicksLoop rfClass exRfSearch.eng exRfSearch.trunc exRfSearch.table [_] = _
        simp only [clicksLoop, hcl]
        rfl
      rw [findClicks, this]
      rfl
    · show OneOver 2 (RF.copy s')
      rw [RF.copy, h.params, h.x]
      exact OneOver.init 2
  obtain ⟨k1, e1, h1⟩ := find
  obtain ⟨k2, e2, h2⟩ := one h1
  have h5 : ExClick 2 (some (.exp, some (2, 3))) { k2 with conv := some (.exp, some (2, 3)) } := ⟨h2.a, h2.b, h2.post, rfl, h2.lhs⟩
  obtain ⟨k6, e6, h6⟩ := one h5
  obtain ⟨k7, e7, h7⟩ := one h6
  refine ⟨k7, ?_, h7⟩
  rw [search, PyM.bind_ok e1,
    PyM.bind_ok (show refineAll rfClass exRfNarrow.refine1 [k1] = ([k2], .ok ()) by
      rw [refineAll, show exRfNarrow.refine1 = exRfRefine from rfl, e2]),
    PyM.bind_ok (uniq_one k2),
    PyM.bind_ok (show filterExp exRfNarrow.fast exRfNarrow.report exRfNarrow.printSlow [k2] = ([k2], .ok ()) from rfl),
    PyM.bind_ok (show filterByApproach exRfNarrow.build exRfNarrow.estimate (some [.exp, .superExp]) none [k2] =
      ([{ k2 with conv := some (.exp, some (2, 3)) }], .ok ()) from rfl),
    PyM.bind_ok (show refineAll rfClass exRfNarrow.refine2 [{ k2 with conv := some (.exp, some (2, 3)) }] = ([k6], .ok ()) by
      rw [refineAll, show exRfNarrow.refine2 = exRfRefine from rfl, e6])]
  rw [lastStage, show exRfNarrow.refine3 = exRfRefine from rfl, e7]
  simp only
  rw [PyM.bind_ok (uniq_one k7), PyM.bind_ok (uniq_one k7)]
  have hk : filterPosIntRoots exRfNarrow.roots [k7] = ([k7], .ok ()) := by
    rw [filterPosIntRoots, List.filter_cons_of_pos (by rw [h7.b]; decide +kernel)]
    rfl
  rw [hk]

/-- **C136 (violated) for rational functions.** A search for `1/(2 + x)` alone reports that the stored continued fraction is `1/302`, which it is.
The same search for `1/(1 + x)` and `1/(2 + x)` does not report it any more. -/
theorem C136_wider_violated : Spec.SameTests exRfNarrow exRfSearch ∧ Spec.Wider exRfNarrow exRfSearch ∧
    ∃ cs cs', search rfClass exRfNarrow none [] = (cs, .ok ()) ∧ search rfClass exRfSearch none [] = (cs', .ok ()) ∧
      Spec.ReportsUpToSign rfClass cs [[1]] [[1]] 0 (1 / 302) (.exp, some (2, 3)) ∧
      ¬ Spec.ReportsUpToSign rfClass cs' [[1]] [[1]] 0 (1 / 302) (.exp, some (2, 3)) := by
  obtain ⟨k, hk, h⟩ := exRf_narrow
  obtain ⟨k', hk', h'⟩ := exRf_search
  have hv : k.lhs.val = .fin (1 / 302) := by rw [h.lhs.val]; decide +kernel
  have hv' : k'.lhs.val = .fin (1 / 301) := by rw [h'.lhs.val]; decide +kernel
  refine ⟨⟨rfl, rfl, rfl, rfl, rfl, rfl, rfl⟩, ⟨?_, fun s es he => ⟨es, he, fun e he => he⟩⟩, [k], [k'], hk, hk', ?_, ?_⟩
  · intro o ho
    have : o = RF.init ([1], [2, 1], 0) 300 := List.mem_singleton.1 ho
    rw [this]
    exact List.mem_cons_of_mem _ (List.mem_singleton.2 rfl)
  · exact .inl ⟨k, List.mem_singleton.2 rfl, h.a, h.b, h.post, h.conv, 1 / 302, hv, by decide +kernel⟩
  · have key : ∀ a, ¬ Spec.Reports rfClass [k'] a [[1]] 0 (1 / 302) (.exp, some (2, 3)) := by
      rintro a ⟨c, hc, -, -, -, -, v, hcv, hf⟩
      have hcv : c.lhs.val = .fin v := hcv
      rw [List.mem_singleton.1 hc, hv'] at hcv
      obtain rfl : 1 / 301 = v := by injection hcv
      revert hf
      decide +kernel
    rintro (hr | ⟨-, hr⟩) <;> exact key _ hr

end PiCF
