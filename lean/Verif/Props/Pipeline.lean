import Verif.Model.Pipeline
import Verif.Props.MitmFilters
import Verif.Props.MitmExport
import Verif.Props.MitmClicks
import Verif.Props.Digits

/-!
# C91: what is known about the results of a search
-/

namespace PiCF
open PiCF.Spec PiCF.Hashtable PiCF.Mitm PiCF.EnumPoly PiCF.Lhs PiCF.ContFrac

variable {L κ : Type}

/-- What the search relies on: the laws of the single steps, objects have a finite value that is not changed by comparing
two objects, and the copy made of an object that was not found degenerate has the value of the original. -/
structure SearchLaws (C : LhsClass L) (Inv : L → Prop) (key : Click L → κ) (out : κ → κ → Except PyErr Bool) : Prop where
  lhs : LhsLaws C Inv
  equiv : EquivLaws C Inv (fun c => (key c, C.val c.lhs)) (fun k k' => out k.1 k'.1)
  finite : ∀ l, Inv l → ∃ v, C.val l = .fin v
  copies : ∀ o o' l, Inv o → C.isDegenerate o = (o', .ok false) → C.copy o' = .ok l → Inv l ∧ C.val l = C.val o

theorem ulcd_searchLaws (x : ℚ) : SearchLaws ulcdClass (UlcdOk x) ulcdKey ulcdIsEquiv where
  lhs := ulcd_laws x
  equiv := ⟨fun u p hu hp => ⟨u.lhs, p.lhs, rfl, hu, hp, rfl, rfl⟩⟩
  finite l _ := ⟨l.val, rfl⟩
  copies o o' l h hd hc := by
    have hd : (o, Except.ok o.isDegenerate) = (o', Except.ok false) := hd
    obtain ⟨rfl, -⟩ := Prod.mk.inj hd
    have : Ulcd.copy o = .ok o := by
      rw [Ulcd.copy, Ulcd.init, h.1, ulcdVal_eq h.2.1 h.2.2.1, ← h.2.2.2]
      obtain ⟨p, y, v⟩ := o
      obtain ⟨rfl, -⟩ := h
      rfl
    rw [show ulcdClass.copy o = Ulcd.copy o from rfl, this] at hc
    cases hc
    exact ⟨h, rfl⟩

/-- Rational function objects whose value is finite and not an integer (integers may be lost, C44). -/
def RfFine (s : RF) : Prop := s.Inv ∧ ∃ v, s.val = .fin v ∧ ¬ IsInteger v

theorem rf_canon_fine {s s' : RF} {r : Except PyErr Unit} (h : RfFine s) (e : RF.canonalizeParams s = (s', r)) :
    r = .ok () ∧ RfFine s' ∧ s'.val = s.val ∧ s'.x = s.x ∧ s'.params = (s'.num, s'.den, s'.added) := by
  obtain ⟨hi, v, hv, hn⟩ := h
  obtain ⟨t, e', i, hx, hp, hval, -⟩ := RF.canon_val hi
  rw [e] at e'
  cases e'
  have hv' : s'.val = .fin v := (hval v hv).resolve_right fun h => hn h.2
  exact ⟨rfl, ⟨i, v, hv', hn⟩, hv'.trans hv.symm, hx, hp⟩

theorem not_integer_neg {v : ℚ} (h : ¬ IsInteger v) : ¬ IsInteger (-v) := by
  rintro ⟨k, hk⟩
  exact h ⟨-k, by push_cast; linarith⟩

theorem not_integer_add {v : ℚ} (h : ¬ IsInteger v) (n : ℤ) : ¬ IsInteger (v + n) := by
  rintro ⟨k, hk⟩
  exact h ⟨k - n, by push_cast; linarith⟩

theorem rfIsEquiv_val (u p : Click RF) (hu : RfFine u.lhs) (hp : RfFine p.lhs) {l l' : RF} {r : Except PyErr Bool}
    (h : rfIsEquiv u.a u.b u.lhs u.post p.a p.b p.lhs p.post = (l, l', r)) : l.val = u.lhs.val ∧ l'.val = p.lhs.val := by
  rw [rfIsEquiv] at h
  split at h
  · cases h; exact ⟨rfl, rfl⟩
  rcases e1 : u.lhs.canonalizeParams with ⟨s1, r1⟩
  obtain ⟨rfl, i1, v1, -⟩ := rf_canon_fine hu e1
  rcases e2 : p.lhs.canonalizeParams with ⟨s2, r2⟩
  obtain ⟨rfl, i2, v2, -⟩ := rf_canon_fine hp e2
  obtain ⟨t1, f1, j1, -, -, -, -, -, w1⟩ := RF.numeratorSym_eq i1.1
  obtain ⟨t1', f1', j1', -, -, -, -, -, w1'⟩ := RF.denominatorSym_eq j1
  obtain ⟨t2, f2, j2, -, -, -, -, -, w2⟩ := RF.numeratorSym_eq i2.1
  obtain ⟨t2', f2', j2', -, -, -, -, -, w2'⟩ := RF.denominatorSym_eq j2
  simp only [e1, e2, f1, f1', f2, f2'] at h
  have a1 : t1'.val = u.lhs.val := by rw [w1', w1, v1]
  have a2 : t2'.val = p.lhs.val := by rw [w2', w2, v2]
  split at h
  · cases h; exact ⟨a1, v2⟩
  · split at h
    · cases h; exact ⟨a1, a2⟩
    · cases h; exact ⟨a1, a2⟩

theorem rf_searchLaws : SearchLaws rfClass RfFine rfKey rfOut where
  lhs :=
    { flip := fun l ⟨h, v, hv, hn⟩ => by
        obtain ⟨l', e, i, val⟩ := rf_laws.flip l h
        exact ⟨l', e, ⟨i, -v, by rw [show l'.val = _ from val, show rfClass.val l = l.val from rfl, hv]; rfl, not_integer_neg hn⟩, val⟩
      add := fun l n ⟨h, v, hv, hn⟩ => by
        obtain ⟨l', e, i, val⟩ := rf_laws.add l n h
        exact ⟨l', e, ⟨i, v + n, by rw [show l'.val = _ from val, show rfClass.val l = l.val from rfl, hv]; rfl,
          not_integer_add hn n⟩, val⟩
      canon := fun l h => by
        rcases e : RF.canonalizeParams l with ⟨l', r⟩
        obtain ⟨rfl, i, hv, -⟩ := rf_canon_fine h e
        exact ⟨l', e, i, fun v h => .inl (by rw [show rfClass.val l' = l'.val from rfl, hv]; exact h)⟩
      degenerate := fun l h => rf_laws.degenerate l h.1 }
  equiv := ⟨fun u p hu hp => by
    obtain ⟨l, l', e, i, i', k, k'⟩ := rf_equivLaws.run u p hu.1 hp.1
    obtain ⟨v, v'⟩ := rfIsEquiv_val u p hu hp e
    refine ⟨l, l', e, ⟨i, ?_⟩, ⟨i', ?_⟩, ?_, ?_⟩
    · rw [v]; exact hu.2
    · rw [v']; exact hp.2
    · exact Prod.ext k v
    · exact Prod.ext k' v'⟩
  finite l h := ⟨_, h.2.choose_spec.1⟩
  copies o o' l h hd hc := by
    rcases e : RF.canonalizeParams o with ⟨t, r⟩
    obtain ⟨rfl, i, hv, hx, hp⟩ := rf_canon_fine h e
    have hd' : RF.isDegenerate o = (o', .ok false) := hd
    rw [RF.isDegenerate, PyM.bind_ok e] at hd'
    obtain rfl : t = o' := congrArg Prod.fst hd'
    clear hd hd'
    cases hc
    have hval : (RF.copy t).val = t.val := by
      show RF.calcVal t.params.1 t.params.2.1 t.params.2.2 t.x = t.val
      rw [hp, i.1.val]
    have hi : (RF.copy t).Inv := by
      refine RF.init_inv ?_ ?_
      · rw [hp]; exact i.1.num_ne
      · rw [hp]; exact (RF.ofCoeffs_ne_zero_iff _).1 i.1.den_ne
    refine ⟨⟨hi, ?_⟩, hval.trans hv⟩
    rw [hval]
    exact i.2

/-! ### The single steps, click by click -/

/-- Every click found comes from an enumerated LHS and an entry stored under the text of its search key. -/
structure Found (C : LhsClass L) (E : SearchEnv L) (o : L) (w : ℚ) (c : Click L) : Prop where
  mem : o ∈ E.gen.1
  val : C.val o = .fin w
  notDegenerate : (C.isDegenerate o).2 = .ok false
  entry : ∃ s es, E.eng (.fin (searchKey E.trunc w)) = .ok s ∧ stored E.table s = some (.list es) ∧ ((c.a, c.b), c.post) ∈ es

theorem Found.same {C : LhsClass L} {E : SearchEnv L} {o : L} {w : ℚ} {c c' : Click L} (h : Found C E o w c) (h1 : c'.a = c.a)
    (h2 : c'.b = c.b) (h3 : c'.post = c.post) : Found C E o w c' :=
  ⟨h.mem, h.val, h.notDegenerate, by rw [h1, h2, h3]; exact h.entry⟩

/-- What is known about a click at any stage. -/
structure Known (C : LhsClass L) (Inv : L → Prop) (E : SearchEnv L) (c : Click L) : Prop where
  inv : Inv c.lhs
  found : ∃ o w v, Found C E o w c ∧ C.val c.lhs = .fin v ∧ UpToSignInt w v

theorem clicksFor_known {C : LhsClass L} {Inv : L → Prop} {key : Click L → κ} {out : κ → κ → Except PyErr Bool}
    (laws : SearchLaws C Inv key out) {E : SearchEnv L} {o : L} (hm : o ∈ E.gen.1) (ho : Inv o) {cs : List (Click L)}
    (h : ClicksFor C E.eng E.trunc E.table o cs) : ∀ c ∈ cs, Known C Inv E c := by
  intro c hc
  cases h with
  | absent => cases hc
  | degenerate => cases hc
  | @found r s es o' _ hr hs ht hd hcs =>
    obtain ⟨w, hw⟩ := laws.finite o ho
    rw [hw] at hr
    have hr : r = .fin (searchKey E.trunc w) := hr
    subst hr
    have : ∀ {es' : List Entry} {cs' : List (Click L)}, List.Forall₂ (fun e c => c.a = e.1.1 ∧ c.b = e.1.2 ∧ c.post = e.2 ∧
        c.conv = none ∧ C.copy o' = .ok c.lhs) es' cs' → c ∈ cs' →
        ((c.a, c.b), c.post) ∈ es' ∧ C.copy o' = .ok c.lhs := by
      intro es' cs' h
      induction h with
      | nil => intro h; cases h
      | @cons e x _ _ h1 _ ih =>
        intro hx
        rcases List.mem_cons.1 hx with rfl | hx
        · obtain ⟨h1, h2, h3, -, h5⟩ := h1
          refine ⟨?_, h5⟩
          rw [h1, h2, h3]
          exact List.mem_cons_self
        · exact ⟨List.mem_cons_of_mem _ (ih hx).1, (ih hx).2⟩
    obtain ⟨he, hcopy⟩ := this hcs hc
    obtain ⟨hi, hv⟩ := laws.copies o o' c.lhs ho hd hcopy
    exact ⟨hi, o, w, w, ⟨hm, hw, by rw [hd], s, es, hs, ht, he⟩, hv.trans hw, UpToSignInt.refl w⟩

theorem findClicks_known {C : LhsClass L} {Inv : L → Prop} {key : Click L → κ} {out : κ → κ → Except PyErr Bool}
    (laws : SearchLaws C Inv key out) {E : SearchEnv L} (hos : ∀ o ∈ E.gen.1, Inv o) {old cs : List (Click L)}
    (h : findClicks C E.eng E.trunc E.table E.gen old = (cs, .ok ())) : ∀ c ∈ cs, Known C Inv E c := by
  obtain ⟨-, css, hf, rfl⟩ := (C54_clicks_exact_partial C E.eng E.trunc E.table E.gen.1 old cs E.gen.2).1 h
  intro c hc
  obtain ⟨cs', h1, h2⟩ := List.mem_flatten.1 hc
  have : ∀ {os' : List L} {css' : List (List (Click L))}, List.Forall₂ (ClicksFor C E.eng E.trunc E.table) os' css' →
      cs' ∈ css' → ∃ o ∈ os', ClicksFor C E.eng E.trunc E.table o cs' := by
    intro os' css' h
    induction h with
    | nil => intro h; cases h
    | cons h1 _ ih =>
      intro hx
      rcases List.mem_cons.1 hx with rfl | hx
      · exact ⟨_, List.mem_cons_self, h1⟩
      · obtain ⟨o, ho, h⟩ := ih hx
        exact ⟨o, List.mem_cons_of_mem _ ho, h⟩
  obtain ⟨o, ho, hcl⟩ := this hf h1
  exact clicksFor_known laws ho (hos o ho) hcl c h2

theorem refineLoop_mem {C : LhsClass L} {env : RefineEnv} : ∀ (cs : List (Click L)) (b b' : Option ℕ) (all kept : List (Click L)),
    refineLoop C env b cs = (b', all, kept, .ok ()) → ∀ c' ∈ kept, ∃ c ∈ cs, ∃ b1 s, refineOne C env ⟨b1, c⟩ = (s, .ok true) ∧
      s.click = c' := by
  intro cs
  induction cs with
  | nil => intro b b' all kept h c' hc'; cases h; cases hc'
  | cons c cs ih =>
    intro b b' all kept h c' hc'
    rw [refineLoop] at h
    rcases h1 : refineOne C env ⟨b, c⟩ with ⟨s, e | keep⟩
    · rw [h1] at h; cases h
    · rw [h1] at h
      rcases h2 : refineLoop C env s.budget cs with ⟨b2, all2, kept2, r2⟩
      simp only [h2] at h
      cases h
      have rest : c' ∈ kept2 → ∃ c₁ ∈ c :: cs, ∃ b1 s, refineOne C env ⟨b1, c₁⟩ = (s, .ok true) ∧ s.click = c' := by
        intro hm
        obtain ⟨c1, hc1, x⟩ := ih _ _ _ _ h2 c' hm
        exact ⟨c1, List.mem_cons_of_mem _ hc1, x⟩
      cases keep with
      | true =>
        rw [if_pos rfl] at hc'
        rcases List.mem_cons.1 hc' with rfl | hm
        · exact ⟨c, List.mem_cons_self, b, s, h1, rfl⟩
        · exact rest hm
      | false =>
        rw [if_neg (by simp)] at hc'
        exact rest hc'

theorem refineClicks_mem {C : LhsClass L} {env : RefineEnv} {b b' : Option ℕ} {cs kept : List (Click L)}
    (h : refineClicks C env (b, cs) = ((b', kept), .ok ())) : ∀ c' ∈ kept, ∃ c ∈ cs, ∃ b1 s,
      refineOne C env ⟨b1, c⟩ = (s, .ok true) ∧ s.click = c' := by
  rw [refineClicks] at h
  split at h
  · rename_i b2 all kept2 hl
    cases h
    exact refineLoop_mem _ _ _ _ _ hl
  · cases h

theorem UpToSignInt.trans {u v w : ℚ} (h : UpToSignInt u v) (h' : UpToSignInt v w) : UpToSignInt u w := by
  obtain ⟨n, rfl | rfl⟩ := h'
  · exact h.add n
  · exact h.neg.add n

/-- A step of a refinement keeps what is known. -/
theorem refineOne_known {C : LhsClass L} {Inv : L → Prop} {key : Click L → κ} {out : κ → κ → Except PyErr Bool}
    (laws : SearchLaws C Inv key out) {E : SearchEnv L} {env : RefineEnv} {s : RSt L} (h : Known C Inv E s.click) :
    Known C Inv E (refineOne C env s).1.click := by
  obtain ⟨o, w, v, hf, hv, hu⟩ := h.found
  obtain ⟨⟨⟨h1, h2, h3, -⟩, hval⟩, hi⟩ := refineOne_upToInt laws.lhs env s h.inv hv
  obtain ⟨v', hv'⟩ := laws.finite _ hi
  rcases hval v hv with ⟨v2, hv2, hu2⟩ | ⟨hn, -⟩
  · exact ⟨hi, o, w, v2, hf.same h1 h2 h3, hv2, hu.trans hu2⟩
  · rw [hv'] at hn; cases hn

theorem refineAll_known {C : LhsClass L} {Inv : L → Prop} {key : Click L → κ} {out : κ → κ → Except PyErr Bool}
    (laws : SearchLaws C Inv key out) {E : SearchEnv L} {env : RefineEnv} {b b' : Option ℕ} {cs kept : List (Click L)}
    (hcs : ∀ c ∈ cs, Known C Inv E c) (h : refineClicks C env (b, cs) = ((b', kept), .ok ())) :
    ∀ c' ∈ kept, Known C Inv E c' ∧ ∃ c ∈ cs, SameClick c c' := by
  intro c' hc'
  obtain ⟨c, hc, b1, s, e, rfl⟩ := refineClicks_mem h c' hc'
  have h1 := refineOne_known laws (env := env) (s := ⟨b1, c⟩) (hcs c hc)
  have h2 := refineOne_same C env ⟨b1, c⟩
  rw [e] at h1 h2
  exact ⟨h1, c, hc, h2⟩

theorem forall₂_mem_right {α β : Type} {R : α → β → Prop} {l : List α} {l' : List β} (h : List.Forall₂ R l l') {b : β}
    (hb : b ∈ l') : ∃ a ∈ l, R a b := by
  induction h with
  | nil => cases hb
  | cons h1 _ ih =>
    rcases List.mem_cons.1 hb with rfl | hb
    · exact ⟨_, List.mem_cons_self, h1⟩
    · obtain ⟨a, ha, h⟩ := ih hb
      exact ⟨a, List.mem_cons_of_mem _ ha, h⟩

/-- The same click with the same value of the LHS and the same comparison key. -/
def SameValued (C : LhsClass L) (Inv : L → Prop) (key : Click L → κ) (c c' : Click L) : Prop :=
  SameClick c c' ∧ C.val c'.lhs = C.val c.lhs ∧ key c' = key c ∧ (Inv c.lhs → Inv c'.lhs)

theorem SameValued.known {C : LhsClass L} {Inv : L → Prop} {key : Click L → κ} {E : SearchEnv L} {c c' : Click L}
    (h : SameValued C Inv key c c') (hk : Known C Inv E c) : Known C Inv E c' := by
  obtain ⟨⟨h1, h2, h3, -⟩, hv, -, hi⟩ := h
  obtain ⟨o, w, v, hf, hv', hu⟩ := hk.found
  exact ⟨hi hk.inv, o, w, v, hf.same h1 h2 h3, hv.trans hv', hu⟩

/-- What the uniqueness filter does to single clicks, and that no two clicks it leaves are equivalent. -/
theorem filterUniq_known {C : LhsClass L} {Inv : L → Prop} {key : Click L → κ} {out : κ → κ → Except PyErr Bool}
    (laws : SearchLaws C Inv key out) {cs cs' : List (Click L)} (hcs : ∀ c ∈ cs, Inv c.lhs)
    (h : filterUniq C cs = (cs', .ok ())) : (∀ c' ∈ cs', ∃ c ∈ cs, SameValued C Inv key c c') ∧
      cs'.Pairwise fun u p => out (key u) (key p) = .ok false := by
  obtain ⟨fs, e, hr, hf⟩ := C59_unique laws.equiv hcs h
  refine ⟨fun c' hc' => ?_, pairwise_sameKey (key := fun c => (key c, C.val c.lhs)) (out := fun k k' => out k.1 k'.1) hf
    (flags_pairwise hr)⟩
  obtain ⟨c, hc, hk⟩ := forall₂_mem_right hf hc'
  obtain ⟨x, hx, rfl⟩ := List.mem_map.1 hc
  refine ⟨x.1, ?_, hk.click, congrArg Prod.snd hk.key_eq, congrArg Prod.fst hk.key_eq, hk.inv⟩
  rw [← e]
  exact List.mem_map.2 ⟨x, List.mem_of_mem_filter hx, rfl⟩

theorem filterExp_loop {fast : Polys → Polys → Except PyErr Bool} {report : Polys → Polys → Except PyErr Unit} {print : Bool} :
    ∀ {cs cs' : List (Click L)}, filterExp.loop fast report print cs = .ok cs' →
      cs' = cs.filter (fun c => match fast c.a c.b with | .ok true => true | _ => false)
  | [], _, h => by cases h; rfl
  | c :: cs, cs', h => by
    rw [filterExp.loop] at h
    cases hf : fast c.a c.b with
    | error e => rw [hf] at h; cases h
    | ok b =>
      rw [hf] at h
      cases b with
      | true =>
        simp only at h
        split at h
        · cases h
        · rename_i r hr
          cases h
          rw [List.filter_cons_of_pos (by rw [hf]), ← filterExp_loop hr]
      | false =>
        simp only at h
        rw [List.filter_cons_of_neg (by rw [hf]; simp)]
        split at h
        · cases h
        · exact filterExp_loop h

theorem filterExp_ok {fast : Polys → Polys → Except PyErr Bool} {report : Polys → Polys → Except PyErr Unit} {print : Bool}
    {cs cs' : List (Click L)} (h : filterExp fast report print cs = (cs', .ok ())) :
    cs' = cs.filter (fun c => match fast c.a c.b with | .ok true => true | _ => false) := by
  rw [filterExp] at h
  split at h
  · cases h
  · rename_i r hr
    cases h
    exact filterExp_loop hr

theorem filterExp_mem {fast : Polys → Polys → Except PyErr Bool} {report : Polys → Polys → Except PyErr Unit} {print : Bool}
    {cs cs' : List (Click L)} (h : filterExp fast report print cs = (cs', .ok ())) :
    ∀ c ∈ cs', c ∈ cs ∧ fast c.a c.b = .ok true := by
  intro c hc
  rw [filterExp_ok h] at hc
  obtain ⟨h1, h2⟩ := List.mem_filter.1 hc
  refine ⟨h1, ?_⟩
  split at h2
  · assumption
  · cases h2

theorem approachLoop_mem {build : Polys → Polys → Except PyErr Unit} {estimate : Polys → Polys → Except PyErr Conv}
    {white : List ApproachType} : ∀ {cs cs' : List (Click L)}, approachLoop build estimate white [] cs = .ok cs' →
      ∀ c' ∈ cs', ∃ c ∈ cs, ∃ t, estimate c.a c.b = .ok t ∧ t.1 ∈ white ∧ c' = { c with conv := some t }
  | [], _, h, c', hc' => by cases h; cases hc'
  | c :: cs, cs', h, c', hc' => by
    rw [approachLoop] at h
    have rest : ∀ {r : List (Click L)}, approachLoop build estimate white [] cs = .ok r → c' ∈ r →
        ∃ c₁ ∈ c :: cs, ∃ t, estimate c₁.a c₁.b = .ok t ∧ t.1 ∈ white ∧ c' = { c₁ with conv := some t } := by
      intro r hr hm
      obtain ⟨c1, h1, h2⟩ := approachLoop_mem hr c' hm
      exact ⟨c1, List.mem_cons_of_mem _ h1, h2⟩
    split at h
    · cases h
    · split at h
      · cases h
      · exact rest h hc'
      · rename_i t ht
        split at h
        · cases h
        · rename_i r hr
          split at h
          · rename_i hw
            cases h
            rcases List.mem_cons.1 hc' with rfl | hm
            · exact ⟨c, List.mem_cons_self, t, ht, by have := hw; simp at this; exact this.2, rfl⟩
            · exact rest hr hm
          · cases h
            exact rest hr hc'

theorem filterByApproach_mem {build : Polys → Polys → Except PyErr Unit} {estimate : Polys → Polys → Except PyErr Conv}
    {white : List ApproachType} {cs cs' : List (Click L)}
    (h : filterByApproach build estimate (some white) none cs = (cs', .ok ())) :
    ∀ c' ∈ cs', ∃ c ∈ cs, ∃ t, estimate c.a c.b = .ok t ∧ t.1 ∈ white ∧ c' = { c with conv := some t } := by
  rw [filterByApproach] at h
  simp only [Option.getD_some, Option.getD_none] at h
  split at h
  · cases h
  · split at h
    · cases h
    · split at h
      · cases h
      · rename_i r hr
        cases h
        exact approachLoop_mem hr

theorem filterPosIntRoots_mem {roots : List ℤ → List (ℚ × ℚ)} {cs cs' : List (Click L)} {r : Except PyErr Unit}
    (h : filterPosIntRoots roots cs = (cs', r)) : cs'.Sublist cs ∧ ∀ c ∈ cs', ∀ p ∈ c.b, ∀ z ∈ roots p.reverse, ¬ TakenForPosInt z := by
  obtain ⟨keep, e, hk, -⟩ := C60_roots_partial roots cs
  rw [h] at e
  cases e
  refine ⟨List.filter_sublist, fun c hc p hp z hz ht => ?_⟩
  have := (hk c).2 ⟨p, hp, z, hz, ht⟩
  rw [(List.mem_filter.1 hc).2] at this
  cases this

/-! ### The whole search -/

/-- A verified result. -/
structure Verified (C : LhsClass L) (E : SearchEnv L) (ε : ℚ) (c : Click L) : Prop where
  /-- It comes from an enumerated, non-degenerate LHS with value `w` and an entry stored under the key of `w`; its LHS has the
  value `± w + n` for an integer `n`. -/
  found : ∃ o w v, Found C E o w c ∧ C.val c.lhs = .fin v ∧ UpToSignInt w v
  /-- The continued fraction passes the test for fast convergence. -/
  fast : E.fast c.a c.b = .ok true
  /-- The estimated type is `exp` or `super_exp`, and it is the one recorded. -/
  conv : ∃ t, E.estimate c.a c.b = .ok t ∧ (t.1 = .exp ∨ t.1 = .superExp) ∧ c.conv = some t
  /-- The LHS agrees with the re-evaluated RHS up to `ε`, or is off by almost 1. -/
  sides : ∃ f r y v, E.funcs[c.post]? = some f ∧ E.eval3 c.a c.b c.conv = .ok r ∧ f r = .ok (.fin y) ∧ C.val c.lhs = .fin v ∧
    (|y - v| < ε ∨ (E.trunc = true ∧ 1 - ε < |y - v| ∧ |y - v| < 1))
  /-- No `b` polynomial has a root taken for a positive integer. -/
  roots : ∀ p ∈ c.b, ∀ z ∈ E.roots p.reverse, ¬ TakenForPosInt z

/-- Texts of search keys that agree in `n` digits belong to numbers less than `ε` apart. -/
def TextsPrecise (eng : EngN) (trunc : Bool) (n : ℤ) (ε : ℚ) : Prop :=
  ∀ p q s s', 0 ≤ p → 0 ≤ q → (trunc = true → p < 1 ∧ q < 1) → eng (.fin p) = .ok s → eng (.fin q) = .ok s' →
    sliceTo s (n + 2) = sliceTo s' (n + 2) → |p - q| < ε

theorem refineAll_ok {C : LhsClass L} {env : RefineEnv} {cs cs' : List (Click L)} (h : refineAll C env cs = (cs', .ok ())) :
    ∃ b, refineClicks C env (none, cs) = ((b, cs'), .ok ()) := by
  rw [refineAll] at h
  rcases e : refineClicks C env (none, cs) with ⟨⟨b, l⟩, r⟩
  rw [e] at h
  cases h
  exact ⟨b, rfl⟩

theorem searchKey_nonneg (trunc : Bool) (q : ℚ) : 0 ≤ searchKey trunc q := by
  rw [searchKey]; split
  · exact Int.fract_nonneg _
  · exact abs_nonneg _

theorem searchKey_lt_one (q : ℚ) : searchKey true q < 1 := by
  rw [searchKey, if_pos rfl]; exact Int.fract_lt_one _

/-- Agreement of a click kept by a refinement. -/
theorem refineOne_sides {C : LhsClass L} {Inv : L → Prop} {key : Click L → κ} {out : κ → κ → Except PyErr Bool}
    (laws : SearchLaws C Inv key out) {env : RefineEnv} {ε : ℚ} (hε1 : ε ≤ 1) (hε : TextsPrecise env.eng env.trunc env.accuracy ε)
    {s s' : RSt L} (h : refineOne C env s = (s', .ok true)) (hi : Inv s.click.lhs) :
    ∃ f r y v, env.funcs[s'.click.post]? = some f ∧ env.eval s'.click.a s'.click.b s'.click.conv = .ok r ∧ f r = .ok (.fin y) ∧
      C.val s'.click.lhs = .fin v ∧ (|y - v| < ε ∨ (env.trunc = true ∧ 1 - ε < |y - v| ∧ |y - v| < 1)) := by
  obtain ⟨w, hw⟩ := laws.finite _ hi
  obtain ⟨f, r, y, v, hf, hr, hy, hv, hi', hlt, -, herr⟩ := C57_identity_partial laws.lhs h hi hw
  obtain ⟨v', hv'⟩ := laws.finite _ hi'
  have hval : C.val s'.click.lhs = .fin v := by
    rcases hv with h | ⟨h, -⟩
    · exact h
    · rw [hv'] at h; cases h
  obtain ⟨h1, h2, h3, h4⟩ : SameClick s.click s'.click := by
    have := refineOne_same C env s
    rw [h] at this
    exact this
  obtain ⟨f', r', y', t, k, t', hf', hr', hy', -, ht, hk, ht', heq⟩ := (refineOne_ok h).1.1 rfl
  rw [hf] at hf'; cases hf'
  rw [hr] at hr'; cases hr'
  rw [hy] at hy'; cases hy'
  rw [hw] at hk
  have hk : k = .fin (searchKey env.trunc w) := hk
  subst hk
  have hδ : |searchKey env.trunc y - searchKey env.trunc w| < ε :=
    hε _ _ _ _ (searchKey_nonneg _ _) (searchKey_nonneg _ _)
      (fun ht => by rw [ht]; exact ⟨searchKey_lt_one _, searchKey_lt_one _⟩) ht ht' heq
  refine ⟨f, r, y, v, by rw [h3]; exact hf, by rw [h1, h2, h4]; exact hr, hy, hval, ?_⟩
  have he := herr fun ht => by
    rw [ht] at hδ
    simp only [searchKey, Bool.false_eq_true, if_false] at hδ
    linarith
  rw [he, adjustedError]
  cases ht : env.trunc with
  | false =>
    simp only [ht, Bool.false_eq_true, if_false] at hδ ⊢
    exact .inl hδ
  | true =>
    simp only [if_true]
    rw [he, adjustedError, ht] at hlt
    simp only [if_true] at hlt
    rw [ht] at hδ
    split
    · exact .inl hδ
    · rename_i hn
      rw [if_neg hn] at hlt
      exact .inr ⟨trivial, by linarith, hlt⟩

/-- The texts are those of nonnegative Decimals below 1 that are `ρ` close to the number. -/
def DecText (eng : EngN) (ρ : ℚ) : Prop :=
  ∀ p s, 0 ≤ p → p < 1 → eng (.fin p) = .ok s → ∃ d : DecStr.Dec, d.neg = false ∧ d.value < 1 ∧ |d.value - p| ≤ ρ ∧ s = d.eng

/-- With `to_eng_string`, texts that agree in `n` digits belong to numbers closer than `10^-n` or `10^-6` (up to rounding). -/
theorem decText_precise {eng : EngN} {ρ : ℚ} (h : DecText eng ρ) (n : ℕ) :
    TextsPrecise eng true n (max (1 / 10 ^ n) (1 / 10 ^ 6) + 2 * ρ) := by
  intro p q s s' hp hq hlt hs hs' heq
  obtain ⟨hp1, hq1⟩ := hlt rfl
  obtain ⟨d, d1, d2, d3, rfl⟩ := h p s hp hp1 hs
  obtain ⟨e, e1, e2, e3, rfl⟩ := h q s' hq hq1 hs'
  have heq : sliceTo d.eng ((n : ℤ) + 1 + 1) = sliceTo e.eng ((n : ℤ) + 1 + 1) := heq
  have := DecStr.C79_close_partial (n := n) hs hs' d1 d2 e1 e2 (by rw [compareDec, hs, hs']; exact congrArg Except.ok (decide_eq_true heq))
  rw [abs_lt] at this ⊢
  rw [abs_le] at d3 e3
  constructor <;> linarith [this.1, this.2, d3.1, d3.2, e3.1, e3.2]

/-- The state of the click list before the last stage. -/
theorem search_before {C : LhsClass L} {Inv : L → Prop} {key : Click L → κ} {out : κ → κ → Except PyErr Bool}
    (laws : SearchLaws C Inv key out) {E : SearchEnv L} (hos : ∀ o ∈ E.gen.1, Inv o) {budget : Option ℕ} {old cs : List (Click L)}
    (h : search C E budget old = (cs, .ok ())) : ∃ cs6, lastStage C E.refine3 E.roots budget cs6 = (cs, .ok ()) ∧
      ∀ c ∈ cs6, Known C Inv E c ∧ E.fast c.a c.b = .ok true ∧
        ∃ t, E.estimate c.a c.b = .ok t ∧ (t.1 = .exp ∨ t.1 = .superExp) ∧ c.conv = some t := by
  rw [search] at h
  obtain ⟨_, cs1, h1, h⟩ := bind_ok_inv h
  obtain ⟨_, cs2, h2, h⟩ := bind_ok_inv h
  obtain ⟨_, cs3, h3, h⟩ := bind_ok_inv h
  obtain ⟨_, cs4, h4, h⟩ := bind_ok_inv h
  obtain ⟨_, cs5, h5, h⟩ := bind_ok_inv h
  obtain ⟨_, cs6, h6, h⟩ := bind_ok_inv h
  have k1 := findClicks_known laws hos h1
  obtain ⟨b2, h2⟩ := refineAll_ok h2
  have k2 : ∀ c ∈ cs2, Known C Inv E c := fun c hc => (refineAll_known laws k1 h2 c hc).1
  have k3 : ∀ c ∈ cs3, Known C Inv E c := fun c hc => by
    obtain ⟨c0, hc0, hs⟩ := (filterUniq_known laws (fun c hc => (k2 c hc).inv) h3).1 c hc
    exact hs.known (k2 c0 hc0)
  have k4 : ∀ c ∈ cs4, Known C Inv E c ∧ E.fast c.a c.b = .ok true := fun c hc =>
    ⟨k3 c (filterExp_mem h4 c hc).1, (filterExp_mem h4 c hc).2⟩
  have k5 : ∀ c ∈ cs5, Known C Inv E c ∧ E.fast c.a c.b = .ok true ∧
      ∃ t, E.estimate c.a c.b = .ok t ∧ (t.1 = .exp ∨ t.1 = .superExp) ∧ c.conv = some t := by
    intro c hc
    obtain ⟨c0, hc0, t, ht, hw, rfl⟩ := filterByApproach_mem h5 c hc
    obtain ⟨hk, hf⟩ := k4 c0 hc0
    obtain ⟨o, w, v, hfo, hv, hu⟩ := hk.found
    exact ⟨⟨hk.inv, o, w, v, hfo.same rfl rfl rfl, hv, hu⟩, hf, t, ht, by simpa using hw, rfl⟩
  obtain ⟨b6, h6⟩ := refineAll_ok h6
  refine ⟨cs6, h, fun c hc => ?_⟩
  obtain ⟨hk, c0, hc0, e1, e2, e3, e4⟩ := refineAll_known laws (fun c hc => (k5 c hc).1) h6 c hc
  obtain ⟨-, hf, hc⟩ := k5 c0 hc0
  rw [e1, e2, e4]
  exact ⟨hk, hf, hc⟩

/-! ### Without Ctrl-C nothing raises KeyboardInterrupt -/

/-- From `P`, `m` leads to `P` and does not raise KeyboardInterrupt. -/
def Calm {σ α : Type} (P : σ → Prop) (m : PyM σ α) : Prop := ∀ s, P s → P (m s).1 ∧ (m s).2 ≠ .error .keyboardInterrupt

theorem Calm.bind {σ α β : Type} {P : σ → Prop} {x : PyM σ α} {f : α → PyM σ β} (hx : Calm P x) (hf : ∀ a, Calm P (f a)) :
    Calm P (x >>= f) := by
  intro s hs
  have h := hx s hs
  rcases hxs : x s with ⟨s', e | a⟩
  · rw [PyM.bind_error hxs]; rw [hxs] at h; exact ⟨h.1, fun h' => h.2 (by cases h'; rfl)⟩
  · rw [PyM.bind_ok hxs]; rw [hxs] at h; exact hf a s' h.1

theorem Calm.pure {σ α : Type} (P : σ → Prop) (a : α) : Calm P (Pure.pure a : PyM σ α) := fun _ h => ⟨h, nofun⟩

theorem Calm.lift {σ α : Type} {P : σ → Prop} {r : Except PyErr α} (hr : r ≠ .error .keyboardInterrupt) :
    Calm P (Mitm.lift r) := by
  intro s h
  cases r with
  | ok a => exact ⟨h, nofun⟩
  | error e => exact ⟨h, fun h' => hr (by cases h'; rfl)⟩

/-- No Ctrl-C is pending, and the LHS object is as it should be. -/
def Still (Inv : L → Prop) (s : RSt L) : Prop := s.budget = none ∧ Inv s.click.lhs

theorem Calm.tick (Inv : L → Prop) : Calm (Still Inv) (Mitm.tick (L := L)) := by
  intro s h
  rw [Mitm.tick, h.1]
  exact ⟨h, nofun⟩

theorem Calm.onLhs {Inv : L → Prop} {m : PyM L Unit} (h : ∀ l, Inv l → ∃ l', m l = (l', .ok ()) ∧ Inv l') :
    Calm (Still Inv) (Mitm.onLhs m) := by
  intro s hs
  obtain ⟨l', e, hi⟩ := h _ hs.2
  rw [Mitm.onLhs, e]
  exact ⟨⟨hs.1, hi⟩, nofun⟩

theorem Calm.asRuntimeError {σ α : Type} {P : σ → Prop} {m : PyM σ α} {arg : Except PyErr ℤ} (ha : arg ≠ .error .keyboardInterrupt)
    (h : Calm P m) : Calm P (Mitm.asRuntimeError arg m) := by
  intro s hs
  have := h s hs
  rw [Mitm.asRuntimeError]
  split
  · rename_i hm
    rw [hm] at this
    cases arg with
    | ok n => exact ⟨this.1, nofun⟩
    | error e => exact ⟨this.1, fun h => ha (by injection h with h; rw [h])⟩
  · exact this

theorem Calm.adjust {C : LhsClass L} {Inv : L → Prop} (laws : LhsLaws C Inv) (rhs lhs : Num) :
    Calm (Still Inv) (Mitm.adjust C rhs lhs) := by
  have hflip : ∀ l, Inv l → ∃ l', C.flipSign l = (l', .ok ()) ∧ Inv l' := fun l h => by
    obtain ⟨l', e, i, -⟩ := laws.flip l h; exact ⟨l', e, i⟩
  have hadd : ∀ n l, Inv l → ∃ l', C.addInt n l = (l', .ok ()) ∧ Inv l' := fun n l h => by
    obtain ⟨l', e, i, -⟩ := laws.add l n h; exact ⟨l', e, i⟩
  have hcanon : ∀ l, Inv l → ∃ l', C.canon l = (l', .ok ()) ∧ Inv l' := fun l h => by
    obtain ⟨l', e, i, -⟩ := laws.canon l h; exact ⟨l', e, i⟩
  rw [Mitm.adjust]
  refine (Calm.tick Inv).bind fun _ => ?_
  refine Calm.bind ?_ fun _ => ?_
  · rw [flipIf]
    split
    · exact Calm.onLhs hflip
    · exact Calm.pure _ _
  refine (Calm.tick Inv).bind fun _ => ?_
  refine Calm.bind (Calm.asRuntimeError (by cases subNum rhs _ <;> nofun) ?_) fun _ => ?_
  · refine (Calm.tick Inv).bind fun _ => (Calm.lift ?_).bind fun n => Calm.onLhs (hadd n)
    cases subNum rhs _ <;> nofun
  exact (Calm.tick Inv).bind fun _ => (Calm.onLhs hcanon).bind fun _ => Calm.tick Inv

/-- The external functions do not raise KeyboardInterrupt. -/
structure NoInterrupt (env : RefineEnv) : Prop where
  eng : ∀ x, env.eng x ≠ .error .keyboardInterrupt
  eval : ∀ a b t, env.eval a b t ≠ .error .keyboardInterrupt
  funcs : ∀ f ∈ env.funcs, ∀ x, f x ≠ .error .keyboardInterrupt

theorem Calm.refineOne {C : LhsClass L} {Inv : L → Prop} (laws : LhsLaws C Inv) {env : RefineEnv} (hn : NoInterrupt env) :
    Calm (Still Inv) (Mitm.refineOne C env) := by
  rw [Mitm.refineOne]
  refine (Calm.tick Inv).bind fun _ => ?_
  refine Calm.bind (x := PyM.get) (fun _ h => ⟨h, nofun⟩) fun s => ?_
  split
  · exact Calm.pure _ _
  · rename_i e hne hr
    refine fun _ h => ⟨h, fun h' => ?_⟩
    obtain rfl : e = .keyboardInterrupt := by injection h'
    rw [rhsValue] at hr
    split at hr
    · cases hr
    · rename_i f hf
      split at hr
      · rename_i hv; cases hr; exact hn.eval _ _ _ hv
      · exact hn.funcs f (List.mem_of_getElem? hf) _ hr
  · have ht : ∀ b x, truncate b (absNum x) ≠ .error .keyboardInterrupt := by
      intro b x
      cases b <;> cases x <;> nofun
    refine (Calm.tick Inv).bind fun _ => ?_
    split
    · refine (Calm.lift (ht _ _)).bind fun _ => (Calm.lift (ht _ _)).bind fun _ => (Calm.lift ?_).bind fun same => ?_
      · rw [compareDec]
        split
        · rename_i he; intro h; cases h; exact hn.eng _ he
        · split
          · rename_i he; intro h; cases h; exact hn.eng _ he
          · nofun
      · split
        · exact (Calm.adjust laws _ _).bind fun _ => Calm.pure _ _
        · exact Calm.pure _ _
    · exact Calm.pure _ _

theorem refineLoop_calm {C : LhsClass L} {Inv : L → Prop} (laws : LhsLaws C Inv) {env : RefineEnv} (hn : NoInterrupt env) :
    ∀ cs : List (Click L), (∀ c ∈ cs, Inv c.lhs) → (refineLoop C env none cs).2.2.2 ≠ .error .keyboardInterrupt
  | [], _ => nofun
  | c :: cs, h => by
    have h1 := Calm.refineOne laws hn ⟨none, c⟩ ⟨rfl, h c List.mem_cons_self⟩
    rw [refineLoop]
    rcases e : Mitm.refineOne C env ⟨none, c⟩ with ⟨s, err | keep⟩
    · rw [e] at h1
      intro h'
      simp only at h'
      exact h1.2 (by cases h'; rfl)
    · rw [e] at h1
      have h2 := refineLoop_calm laws hn cs fun c hc => h c (List.mem_cons_of_mem _ hc)
      have hb : s.budget = none := h1.1.1
      simp only
      rw [hb]
      exact h2

theorem refineClicks_calm {C : LhsClass L} {Inv : L → Prop} (laws : LhsLaws C Inv) {env : RefineEnv} (hn : NoInterrupt env)
    {cs : List (Click L)} (h : ∀ c ∈ cs, Inv c.lhs) : (refineClicks C env (none, cs)).2 ≠ .error .keyboardInterrupt := by
  have := refineLoop_calm laws hn cs h
  rw [refineClicks]
  split
  · nofun
  · rename_i he
    simp only at he
    rw [he] at this
    exact this

theorem uniqInner_calm {C : LhsClass L} {Inv : L → Prop} {key : Click L → κ} {out : κ → κ → Except PyErr Bool}
    (laws : EquivLaws C Inv key out) (ho : ∀ k k', out k k' ≠ .error .keyboardInterrupt) :
    ∀ (us : List (Click L × Bool)) (p : Click L), (∀ x ∈ us, Inv x.1.lhs) → Inv p.lhs →
      (∀ x ∈ (uniqInner C us p).1, Inv x.1.lhs) ∧ Inv (uniqInner C us p).2.1.lhs ∧
        (uniqInner C us p).2.2 ≠ .error .keyboardInterrupt
  | [], p, _, hp => ⟨by simp [uniqInner], hp, nofun⟩
  | (u, false) :: us, p, h, hp => by
    obtain ⟨h1, h2, h3⟩ := uniqInner_calm laws ho us p (fun x hx => h x (List.mem_cons_of_mem _ hx)) hp
    rw [uniqInner]
    refine ⟨?_, h2, h3⟩
    rintro x (_ | ⟨_, hx⟩)
    · exact h _ List.mem_cons_self
    · exact h1 x hx
  | (u, true) :: us, p, h, hp => by
    have hu := h _ List.mem_cons_self
    have hus := fun x hx => h x (List.mem_cons_of_mem _ hx)
    obtain ⟨l, l', e, i, i', -, -⟩ := laws.run u p hu hp
    rw [uniqInner, e]
    cases eo : out (key u) (key p) with
    | error err =>
      refine ⟨?_, i', fun h' => ho _ _ (eo.trans (by cases h'; rfl))⟩
      rintro x (_ | ⟨_, hx⟩)
      · exact i
      · exact hus x hx
    | ok b =>
      cases b with
      | true =>
        refine ⟨?_, i', nofun⟩
        rintro x (_ | ⟨_, hx⟩)
        · exact i
        · exact hus x hx
      | false =>
        obtain ⟨h1, h2, h3⟩ := uniqInner_calm laws ho us { p with lhs := l' } hus i'
        refine ⟨?_, h2, h3⟩
        rintro x (_ | ⟨_, hx⟩)
        · exact i
        · exact h1 x hx

theorem uniqLoop_calm {C : LhsClass L} {Inv : L → Prop} {key : Click L → κ} {out : κ → κ → Except PyErr Bool}
    (laws : EquivLaws C Inv key out) (ho : ∀ k k', out k k' ≠ .error .keyboardInterrupt) :
    ∀ (ps : List (Click L)) (done : List (Click L × Bool)), (∀ x ∈ done, Inv x.1.lhs) → (∀ p ∈ ps, Inv p.lhs) →
      (uniqLoop C done ps).2.2 ≠ .error .keyboardInterrupt
  | [], _, _, _ => nofun
  | p :: ps, done, hd, hp => by
    obtain ⟨h1, h2, h3⟩ := uniqInner_calm laws ho done p hd (hp p List.mem_cons_self)
    rw [uniqLoop]
    rcases e : uniqInner C done p with ⟨done', p', err | b⟩
    · rw [e] at h3
      exact fun h' => h3 (by cases h'; rfl)
    · rw [e] at h1 h2
      refine uniqLoop_calm laws ho ps _ ?_ fun q hq => hp q (List.mem_cons_of_mem _ hq)
      intro x hx
      rcases List.mem_append.1 hx with hx | hx
      · exact h1 x hx
      · rw [List.mem_singleton.1 hx]; exact h2

theorem filterUniq_calm {C : LhsClass L} {Inv : L → Prop} {key : Click L → κ} {out : κ → κ → Except PyErr Bool}
    (laws : EquivLaws C Inv key out) (ho : ∀ k k', out k k' ≠ .error .keyboardInterrupt) {cs : List (Click L)}
    (h : ∀ c ∈ cs, Inv c.lhs) : (filterUniq C cs).2 ≠ .error .keyboardInterrupt := by
  have := uniqLoop_calm laws ho cs [] (by simp) h
  rw [filterUniq]
  split
  · nofun
  · rename_i he
    rw [he] at this
    exact this

/-- **C91 (partial).** For every hashtable, enumeration and evaluator, and every LHS class that keeps its contract (both do, see
`ulcd_searchLaws`, `rf_searchLaws`): if a search that is not interrupted returns, all its results are verified, and no
two of them are equivalent.
Missing: the two sides should always agree, but they may be off by almost 1, see `C91_results_violated`. -/
theorem C91_results_partial {C : LhsClass L} {Inv : L → Prop} {key : Click L → κ} {out : κ → κ → Except PyErr Bool}
    (laws : SearchLaws C Inv key out) (ho : ∀ k k', out k k' ≠ .error .keyboardInterrupt) {E : SearchEnv L}
    (hn : NoInterrupt E.refine3) (hos : ∀ o ∈ E.gen.1, Inv o) {ε : ℚ} (hε1 : ε ≤ 1)
    (hε : TextsPrecise E.eng E.trunc E.accuracy3 ε) {old cs : List (Click L)} (h : search C E none old = (cs, .ok ())) :
    (∀ c ∈ cs, Verified C E ε c) ∧ cs.Pairwise fun u p => out (key u) (key p) = .ok false := by
  obtain ⟨cs6, h, k6⟩ := search_before laws hos h
  rw [lastStage] at h
  have n7 := refineClicks_calm laws.lhs hn fun c hc => (k6 c hc).1.inv
  rcases e7 : refineClicks C E.refine3 (none, cs6) with ⟨⟨b7, cs7⟩, err | u⟩
  · rw [e7] at h n7
    cases err <;> first | exact absurd rfl n7 | cases h
  rw [e7] at h
  have k7 : ∀ c ∈ cs7, Known C Inv E c ∧ E.fast c.a c.b = .ok true ∧
      (∃ t, E.estimate c.a c.b = .ok t ∧ (t.1 = .exp ∨ t.1 = .superExp) ∧ c.conv = some t) ∧
      ∃ f r y v, E.funcs[c.post]? = some f ∧ E.eval3 c.a c.b c.conv = .ok r ∧ f r = .ok (.fin y) ∧ C.val c.lhs = .fin v ∧
        (|y - v| < ε ∨ (E.trunc = true ∧ 1 - ε < |y - v| ∧ |y - v| < 1)) := by
    intro c hc
    obtain ⟨c0, hc0, b1, s, er, rfl⟩ := refineClicks_mem e7 c hc
    obtain ⟨hk, hf, ht⟩ := k6 c0 hc0
    have h1 := refineOne_known laws (env := E.refine3) (s := ⟨b1, c0⟩) hk
    obtain ⟨e1, e2, e3, e4⟩ := refineOne_same C E.refine3 ⟨b1, c0⟩
    rw [er] at h1 e1 e2 e3 e4
    refine ⟨h1, by rw [e1, e2]; exact hf, by rw [e1, e2, e4]; exact ht, ?_⟩
    exact refineOne_sides laws hε1 hε er hk.inv
  simp only at h
  have n8 := filterUniq_calm laws.equiv (fun k k' => ho k.1 k'.1) fun c hc => (k7 c hc).1.inv
  rcases e8 : filterUniq C cs7 with ⟨cs8, err | u⟩
  · rw [e8] at n8
    rw [PyM.bind_error e8] at h
    cases err <;> first | exact absurd rfl n8 | cases h
  rw [PyM.bind_ok e8] at h
  obtain ⟨s8, -⟩ := filterUniq_known laws (fun c hc => (k7 c hc).1.inv) e8
  have i8 : ∀ c ∈ cs8, Inv c.lhs := fun c hc => by
    obtain ⟨c0, hc0, hs⟩ := s8 c hc
    exact hs.2.2.2 (k7 c0 hc0).1.inv
  have n9 := filterUniq_calm laws.equiv (fun k k' => ho k.1 k'.1) i8
  rcases e9 : filterUniq C cs8 with ⟨cs9, err | u⟩
  · rw [e9] at n9
    rw [PyM.bind_error e9] at h
    cases err <;> first | exact absurd rfl n9 | cases h
  rw [PyM.bind_ok e9] at h
  obtain ⟨s9, p9⟩ := filterUniq_known laws i8 e9
  obtain ⟨hsub, hroots⟩ := filterPosIntRoots_mem (roots := E.roots) (cs := cs9) (cs' := cs) h
  refine ⟨fun c hc => ?_, p9.sublist hsub⟩
  obtain ⟨c1, hc1, hs1⟩ := s9 c (hsub.subset hc)
  obtain ⟨c0, hc0, hs0⟩ := s8 c1 hc1
  obtain ⟨hk, hf, ht, hsd⟩ := k7 c0 hc0
  have hk' := hs1.known (hs0.known hk)
  obtain ⟨⟨a1, b1, q1, t1⟩, v1, -⟩ := hs1
  obtain ⟨⟨a0, b0, q0, t0⟩, v0, -⟩ := hs0
  rw [a0] at a1; rw [b0] at b1; rw [q0] at q1; rw [t0] at t1; rw [v0] at v1
  exact ⟨hk'.found, by rw [a1, b1]; exact hf, by rw [a1, b1, t1]; exact ht, by rw [a1, b1, q1, t1, v1]; exact hsd, hroots c hc⟩

theorem ulcdIsEquiv_calm (r1 r2 : UlcdResult) : ulcdIsEquiv r1 r2 ≠ .error .keyboardInterrupt := by
  intro h
  simp only [ulcdIsEquiv] at h
  repeat' split at h
  all_goals cases h

theorem rfOut_calm (k k' : Polys × Polys × ℕ × Polynomial ℤ × Polynomial ℤ) : rfOut k k' ≠ .error .keyboardInterrupt := by
  have hr : ∀ f g, rrDiv f g ≠ .error .keyboardInterrupt := by
    intro f g
    rw [rrDiv]
    split <;> nofun
  rw [rfOut]
  split
  · nofun
  split
  · rename_i e; intro h; cases h; exact hr _ _ e
  split
  · rename_i e; intro h; cases h
    split at e <;> exact hr _ _ e
  · nofun

/-- C91 for ULCD searches, with the texts of Decimals, the integer part removed and `n` digits in the last refinement. -/
theorem C91_ulcd_partial {x : ℚ} {E : SearchEnv Ulcd} (hn : NoInterrupt E.refine3) (hos : ∀ o ∈ E.gen.1, UlcdOk x o)
    (ht : E.trunc = true) {n : ℕ} (ha : E.accuracy3 = n) {ρ ε : ℚ} (hρ : DecText E.eng ρ)
    (hε : ε = max (1 / 10 ^ n) (1 / 10 ^ 6) + 2 * ρ) (hε1 : ε ≤ 1) {old cs : List (Click Ulcd)}
    (h : search ulcdClass E none old = (cs, .ok ())) : (∀ c ∈ cs, Verified ulcdClass E ε c) ∧
      cs.Pairwise fun u p => ulcdIsEquiv (ulcdKey u) (ulcdKey p) = .ok false :=
  C91_results_partial (ulcd_searchLaws x) ulcdIsEquiv_calm hn hos hε1 (by rw [ht, ha, hε]; exact decText_precise hρ n) h

/-- C91 for searches with rational functions, when no enumerated value is an integer (or infinite). -/
theorem C91_rf_partial {E : SearchEnv RF} (hn : NoInterrupt E.refine3) (hos : ∀ o ∈ E.gen.1, RfFine o)
    (ht : E.trunc = true) {n : ℕ} (ha : E.accuracy3 = n) {ρ ε : ℚ} (hρ : DecText E.eng ρ)
    (hε : ε = max (1 / 10 ^ n) (1 / 10 ^ 6) + 2 * ρ) (hε1 : ε ≤ 1) {old cs : List (Click RF)}
    (h : search rfClass E none old = (cs, .ok ())) : (∀ c ∈ cs, Verified rfClass E ε c) ∧
      cs.Pairwise fun u p => rfOut (rfKey u) (rfKey p) = .ok false :=
  C91_results_partial rf_searchLaws rfOut_calm hn hos hε1 (by rw [ht, ha, hε]; exact decText_precise hρ n) h

/-- What is known after the convergence tests. -/
def Passed (C : LhsClass L) (Inv : L → Prop) (E : SearchEnv L) (c : Click L) : Prop :=
  Known C Inv E c ∧ E.fast c.a c.b = .ok true ∧ ∃ t, E.estimate c.a c.b = .ok t ∧ (t.1 = .exp ∨ t.1 = .superExp) ∧ c.conv = some t

/-- **C91 (cancelled runs).** Wherever Ctrl-C is pressed in the last stage: if the search returns, every result comes from an enumerated,
non-degenerate LHS and an entry stored under its key, has an LHS with that value up to sign and an integer, passes the
test for fast convergence, and has an estimated type `exp` or `super_exp`, which is the one recorded. -/
theorem C91_cancelled {C : LhsClass L} {Inv : L → Prop} {key : Click L → κ} {out : κ → κ → Except PyErr Bool}
    (laws : SearchLaws C Inv key out) (ho : ∀ k k', out k k' ≠ .error .keyboardInterrupt) {E : SearchEnv L}
    (hos : ∀ o ∈ E.gen.1, Inv o) {budget : Option ℕ} {old cs : List (Click L)} (h : search C E budget old = (cs, .ok ())) :
    ∀ c ∈ cs, (∃ o w v, Found C E o w c ∧ C.val c.lhs = .fin v ∧ UpToSignInt w v) ∧ E.fast c.a c.b = .ok true ∧
      ∃ t, E.estimate c.a c.b = .ok t ∧ (t.1 = .exp ∨ t.1 = .superExp) ∧ c.conv = some t := by
  obtain ⟨cs6, h, k6⟩ := search_before laws hos h
  have k6 : ∀ c ∈ cs6, Passed C Inv E c := k6
  have keep : ∀ c c' : Click L, SameClick c c' → Known C Inv E c' → Passed C Inv E c → Passed C Inv E c' := by
    rintro c c' ⟨e1, e2, -, e4⟩ hk ⟨-, hf, ht⟩
    rw [Passed, e1, e2, e4]
    exact ⟨hk, hf, ht⟩
  suffices ∀ c ∈ cs, Passed C Inv E c from
    fun c hc => ⟨(this c hc).1.found, (this c hc).2⟩
  rw [lastStage] at h
  rcases e7 : refineClicks C E.refine3 (budget, cs6) with ⟨⟨b7, cs7⟩, err | u⟩
  · rw [e7] at h
    have hcs : cs7 = cs := by cases err <;> cases h; rfl
    subst hcs
    intro c hc
    have hall := refineLoop_all (C := C) (env := E.refine3) (R := fun c c' => SameClick c c' ∧ (Known C Inv E c → Known C Inv E c'))
      (fun c => ⟨⟨rfl, rfl, rfl, rfl⟩, id⟩) cs6 budget fun c hc b => ⟨refineOne_same C _ ⟨b, c⟩, fun hk => refineOne_known laws (s := ⟨b, c⟩) hk⟩
    rw [refineClicks] at e7
    split at e7
    · cases e7
    · rename_i hl
      cases e7
      rw [show refineLoop C E.refine3 budget cs6 = _ from hl] at hall
      obtain ⟨c0, hc0, hs, hk⟩ := forall₂_mem_right hall hc
      exact keep c0 c hs (hk (k6 c0 hc0).1) (k6 c0 hc0)
  rw [e7] at h
  have k7 : ∀ c ∈ cs7, Passed C Inv E c := fun c hc => by
    obtain ⟨hk, c0, hc0, hs⟩ := refineAll_known laws (fun c hc => (k6 c hc).1) e7 c hc
    exact keep c0 c hs hk (k6 c0 hc0)
  simp only at h
  have n8 := filterUniq_calm laws.equiv (fun k k' => ho k.1 k'.1) fun c hc => (k7 c hc).1.inv
  rcases e8 : filterUniq C cs7 with ⟨cs8, err | u⟩
  · rw [e8] at n8
    rw [PyM.bind_error e8] at h
    cases err <;> first | exact absurd rfl n8 | cases h
  rw [PyM.bind_ok e8] at h
  obtain ⟨s8, -⟩ := filterUniq_known laws (fun c hc => (k7 c hc).1.inv) e8
  have k8 : ∀ c ∈ cs8, Passed C Inv E c := fun c hc => by
    obtain ⟨c0, hc0, hs⟩ := s8 c hc
    exact keep c0 c hs.1 (hs.known (k7 c0 hc0).1) (k7 c0 hc0)
  have n9 := filterUniq_calm laws.equiv (fun k k' => ho k.1 k'.1) fun c hc => (k8 c hc).1.inv
  rcases e9 : filterUniq C cs8 with ⟨cs9, err | u⟩
  · rw [e9] at n9
    rw [PyM.bind_error e9] at h
    cases err <;> first | exact absurd rfl n9 | cases h
  rw [PyM.bind_ok e9] at h
  obtain ⟨s9, -⟩ := filterUniq_known laws (fun c hc => (k8 c hc).1.inv) e9
  obtain ⟨hsub, -⟩ := filterPosIntRoots_mem (roots := E.roots) (cs := cs9) (cs' := cs) h
  intro c hc
  obtain ⟨c0, hc0, hs⟩ := s9 c (hsub.subset hc)
  exact keep c0 c hs.1 (hs.known (k8 c0 hc0).1) (k8 c0 hc0)

/-! ### Examples -/

/-- A search: two entries stored under the key 0.234, two enumerated LHS, one of which has this key; the continued fractions
have the value `y`, the second one is slow. -/
def exSearch (w y : ℚ) : SearchEnv Ulcd where
  table := ⟨4, [], [(.str "0.234".toList, .list [(([[1]], [[1]]), 0), (([[2]], [[1]]), 0)])]⟩
  gen := ([⟨(0, 1, 0, 2), w, w / 2⟩, exUlcd w], .ok ())
  eng := exEng4
  trunc := true
  funcs := [fun x => .ok x]
  accuracy1 := 3
  eval1 := fun _ _ _ => .ok (.fin y)
  accuracy2 := 3
  eval2 := fun _ _ _ => .ok (.fin y)
  accuracy3 := 3
  eval3 := fun _ _ _ => .ok (.fin y)
  fast := fun a _ => .ok (a == [[1]])
  report := fun _ _ => .ok ()
  printSlow := true
  build := fun _ _ => .ok ()
  estimate := fun _ _ => .ok (.exp, some (2, 3))
  roots := fun _ => [(1 / 2, 0)]

theorem exEng4_precise : TextsPrecise exEng4 true 3 (1 / 1000) := by
  intro p q s s' hp hq hlt hs hs' heq
  obtain ⟨hp1, hq1⟩ := hlt rfl
  cases hs
  cases hs'
  have ha : ⌊p * 10000⌋.toNat < 10000 := by
    have : ⌊p * 10000⌋ < 10000 := Int.floor_lt.2 (by push_cast; linarith)
    omega
  have hb : ⌊q * 10000⌋.toNat < 10000 := by
    have : ⌊q * 10000⌋ < 10000 := Int.floor_lt.2 (by push_cast; linarith)
    omega
  have ha0 : 0 ≤ ⌊p * 10000⌋ := Int.floor_nonneg.2 (by linarith)
  have hb0 : 0 ≤ ⌊q * 10000⌋ := Int.floor_nonneg.2 (by linarith)
  have ea : (⌊p * 10000⌋ : ℚ) = (⌊p * 10000⌋.toNat : ℚ) := by exact_mod_cast (Int.toNat_of_nonneg ha0).symm
  have eb : (⌊q * 10000⌋ : ℚ) = (⌊q * 10000⌋.toNat : ℚ) := by exact_mod_cast (Int.toNat_of_nonneg hb0).symm
  have f1 := Int.floor_le (p * 10000)
  have f2 := Int.lt_floor_add_one (p * 10000)
  have f3 := Int.floor_le (q * 10000)
  have f4 := Int.lt_floor_add_one (q * 10000)
  rw [ea] at f1 f2
  rw [eb] at f3 f4
  generalize ⌊p * 10000⌋.toNat = a at *
  generalize ⌊q * 10000⌋.toNat = b at *
  have inj : ∀ x y, x < 10 → y < 10 → Nat.digitChar x = Nat.digitChar y → x = y := fun x y hx hy => by
    have : ∀ x < 10, ∀ y < 10, Nat.digitChar x = Nat.digitChar y → x = y := by decide
    exact this x hx y hy
  simp only [sliceTo] at heq
  injection heq with _ heq
  injection heq with _ heq
  injection heq with h1 heq
  injection heq with h2 heq
  injection heq with h3 _
  have h1 := inj _ _ (by omega) (by omega) h1
  have h2 := inj _ _ (by omega) (by omega) h2
  have h3 := inj _ _ (by omega) (by omega) h3
  have h : a / 10 = b / 10 := by omega
  have k1 : (a : ℚ) ≤ b + 9 := by exact_mod_cast (by omega : a ≤ b + 9)
  have k2 : (b : ℚ) ≤ a + 9 := by exact_mod_cast (by omega : b ≤ a + 9)
  rw [abs_lt]
  constructor <;> linarith

theorem exSearch_hyps {w : ℚ} (hw : w ≠ 0) (y : ℚ) : NoInterrupt (exSearch w y).refine3 ∧ (∀ o ∈ (exSearch w y).gen.1, UlcdOk w o) ∧
    TextsPrecise (exSearch w y).eng (exSearch w y).trunc (exSearch w y).accuracy3 (1 / 1000) := by
  refine ⟨⟨?_, nofun, ?_⟩, ?_, exEng4_precise⟩
  · intro x; cases x <;> nofun
  · intro f hf x
    rw [List.mem_singleton.1 hf]
    nofun
  · intro o ho
    rcases List.mem_cons.1 ho with rfl | ho
    · exact ⟨rfl, hw, ⟨one_ne_zero, two_ne_zero⟩, by simp [ulcdExpr]⟩
    · rw [List.mem_singleton.1 ho]
      exact exUlcd_ok hw

/-- The search returns one result: the fast continued fraction with the LHS `-5.2348`. -/
example : (search ulcdClass (exSearch (32348 / 10000) (-52348 / 10000)) none []).2.toOption = some () ∧
    (search ulcdClass (exSearch (32348 / 10000) (-52348 / 10000)) none []).1.map (fun c => (c.a, c.b, c.lhs.val)) =
      [([[1]], [[1]], -52348 / 10000)] :=
  ⟨by decide +kernel, by decide +kernel⟩

/-- The hypotheses of `C91_results_partial` for this search. -/
example : SearchLaws ulcdClass (UlcdOk (32348 / 10000)) ulcdKey ulcdIsEquiv ∧ (1 / 1000 : ℚ) ≤ 1 ∧
    NoInterrupt (exSearch (32348 / 10000) (-52348 / 10000)).refine3 ∧
    (∀ o ∈ (exSearch (32348 / 10000) (-52348 / 10000)).gen.1, UlcdOk (32348 / 10000) o) ∧
    TextsPrecise (exSearch (32348 / 10000) (-52348 / 10000)).eng true 3 (1 / 1000) :=
  have h := exSearch_hyps (w := 32348 / 10000) (by norm_num) (-52348 / 10000)
  ⟨ulcd_searchLaws _, by norm_num, h.1, h.2.1, h.2.2⟩

/-- The hypotheses of `C91_rf_partial`: an object whose value is not an integer. -/
example : RfFine (RF.init ([0, 1], [1], 0) (1 / 2)) := by
  refine ⟨RF.init_inv (by simp) ⟨1, by simp, by decide⟩, 1 / 2, ?_, ?_⟩
  · show RF.calcVal [0, 1] [1] 0 (1 / 2) = _
    decide +kernel
  · rintro ⟨k, hk⟩
    have : (1 : ℚ) = ((2 * k : ℤ) : ℚ) := by push_cast; linarith
    have : (1 : ℤ) = 2 * k := by exact_mod_cast this
    omega

/-- A cancelled search: Ctrl-C before the last evaluation. -/
example : (search ulcdClass (exSearch (32348 / 10000) (-52348 / 10000)) (some 0) []).2.toOption = some () ∧
    (search ulcdClass (exSearch (32348 / 10000) (-52348 / 10000)) (some 0) []).1.map (fun c => (c.a, c.b, c.lhs.val)) =
      [([[1]], [[1]], -52348 / 10000)] :=
  ⟨by decide +kernel, by decide +kernel⟩

/-- **C91 (violated).** A search whose only result states that `4.2349` is the value of a continued fraction with the value
`5.2348`, after three refinements to 3 digits. -/
theorem C91_results_violated :
    (search ulcdClass (exSearch (32349 / 10000) (52348 / 10000)) none []).2.toOption = some () ∧
    (search ulcdClass (exSearch (32349 / 10000) (52348 / 10000)) none []).1.map (fun c => (c.a, c.b, c.lhs.val)) =
      [([[1]], [[1]], 42349 / 10000)] ∧
    ∀ a b t, (exSearch (32349 / 10000) (52348 / 10000)).eval3 a b t = .ok (.fin (52348 / 10000)) :=
  ⟨by decide +kernel, by decide +kernel, fun _ _ _ => rfl⟩

end PiCF
