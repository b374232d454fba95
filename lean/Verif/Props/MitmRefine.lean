import Mathlib.Data.List.Forall2
import Verif.Props.MitmLhs
import Verif.Props.MitmClicks

/-!
# C56, C57, C58: refinement of the clicks
-/

namespace PiCF
open PiCF.Spec PiCF.Hashtable PiCF.Mitm PiCF.EnumPoly PiCF.Lhs

variable {L : Type}

/-! ### Hoare style rules -/

/-- Whatever the outcome, `m` leads from `P` to `Q`. -/
def Leads {σ α : Type} (P Q : σ → Prop) (m : PyM σ α) : Prop := ∀ s, P s → Q (m s).1

theorem Leads.bind {σ α β : Type} {P Q R : σ → Prop} {x : PyM σ α} {f : α → PyM σ β} (hx : Leads P Q x) (hQR : ∀ s, Q s → R s)
    (hf : ∀ a, Leads Q R (f a)) : Leads P R (x >>= f) := by
  intro s hs
  have h := hx s hs
  rcases hxs : x s with ⟨s', e | a⟩
  · rw [PyM.bind_error hxs]; rw [hxs] at h; exact hQR _ h
  · rw [PyM.bind_ok hxs]; rw [hxs] at h; exact hf a s' h

theorem Leads.pure {σ α : Type} (P : σ → Prop) (a : α) : Leads P P (Pure.pure a : PyM σ α) := fun _ h => h

theorem Leads.weaken {σ α : Type} {P P' Q : σ → Prop} {m : PyM σ α} (h : Leads P' Q m) (hP : ∀ s, P s → P' s) : Leads P Q m :=
  fun s hs => h s (hP s hs)

theorem Leads.post {σ α : Type} {P Q Q' : σ → Prop} {m : PyM σ α} (h : Leads P Q m) (hQ : ∀ s, Q s → Q' s) : Leads P Q' m :=
  fun s hs => hQ _ (h s hs)

theorem Leads.lift {σ α : Type} (P : σ → Prop) (r : Except PyErr α) : Leads P P (Mitm.lift r) := by
  intro s h
  cases r <;> exact h

theorem Leads.asRuntimeError {σ α : Type} {P Q : σ → Prop} {m : PyM σ α} (arg : Except PyErr ℤ) (h : Leads P Q m) :
    Leads P Q (Mitm.asRuntimeError arg m) := by
  intro s hs
  have := h s hs
  rw [Mitm.asRuntimeError]
  split
  · rename_i hm; rw [hm] at this; cases arg <;> exact this
  · exact this

/-- A property of the click only. -/
def OnClick (P : Click L → Prop) (s : RSt L) : Prop := P s.click

theorem Leads.tick (P : Click L → Prop) : Leads (OnClick P) (OnClick P) (Mitm.tick (L := L)) := by
  intro s h
  rw [Mitm.tick]
  split <;> exact h

theorem Leads.onLhs {α : Type} {P Q : Click L → Prop} {m : PyM L α}
    (h : ∀ c, P c → Q { c with lhs := (m c.lhs).1 }) : Leads (OnClick P) (OnClick Q) (Mitm.onLhs m) := by
  intro s hs
  exact h s.click hs

/-- The adjustment, for two properties such that `Q` is what holds after `canonalize_params`. -/
theorem Leads.adjust {C : LhsClass L} {P Q : Click L → Prop} (hPQ : ∀ c, P c → Q c)
    (hflip : ∀ c, P c → P { c with lhs := (C.flipSign c.lhs).1 })
    (hadd : ∀ c n, P c → P { c with lhs := (C.addInt n c.lhs).1 })
    (hcanon : ∀ c, P c → Q { c with lhs := (C.canon c.lhs).1 }) (rhs lhs : Num) :
    Leads (OnClick P) (OnClick Q) (Mitm.adjust C rhs lhs) := by
  have hPQ' : ∀ s, OnClick P s → OnClick Q s := fun s h => hPQ _ h
  rw [Mitm.adjust]
  refine (Leads.tick P).bind hPQ' fun _ => ?_
  refine Leads.bind (Q := OnClick P) ?_ hPQ' fun _ => ?_
  · rw [flipIf]
    split
    · exact Leads.onLhs hflip
    · exact Leads.pure _ _
  refine (Leads.tick P).bind hPQ' fun _ => ?_
  refine Leads.bind (Q := OnClick P) (Leads.asRuntimeError _ ?_) hPQ' fun _ => ?_
  · refine (Leads.tick P).bind (fun _ h => h) fun _ => (Leads.lift _ _).bind (fun _ h => h) fun n => Leads.onLhs fun c => hadd c n
  refine (Leads.tick P).bind hPQ' fun _ => ?_
  exact (Leads.onLhs hcanon).bind (fun _ h => h) fun _ => Leads.tick Q

theorem Leads.refineOne {C : LhsClass L} {env : RefineEnv} {P Q : Click L → Prop} (hPQ : ∀ c, P c → Q c)
    (hflip : ∀ c, P c → P { c with lhs := (C.flipSign c.lhs).1 })
    (hadd : ∀ c n, P c → P { c with lhs := (C.addInt n c.lhs).1 })
    (hcanon : ∀ c, P c → Q { c with lhs := (C.canon c.lhs).1 }) :
    Leads (OnClick P) (OnClick Q) (Mitm.refineOne C env) := by
  have hPQ' : ∀ s, OnClick P s → OnClick Q s := fun s h => hPQ _ h
  rw [Mitm.refineOne]
  refine (Leads.tick P).bind hPQ' fun _ => ?_
  refine Leads.bind (Q := OnClick P) (x := PyM.get) (fun _ h => h) hPQ' fun s => ?_
  split
  · exact (Leads.pure _ _).post hPQ'
  · exact hPQ'
  · refine (Leads.tick P).bind hPQ' fun _ => ?_
    split
    · refine (Leads.lift _ _).bind hPQ' fun _ => (Leads.lift _ _).bind hPQ' fun _ => (Leads.lift _ _).bind hPQ' fun same => ?_
      split
      · exact (Leads.adjust hPQ hflip hadd hcanon _ _).bind (fun _ h => h) fun _ => Leads.pure _ _
      · exact (Leads.pure _ _).post hPQ'
    · exact (Leads.pure _ _).post hPQ'

/-! ### C56 -/

/-- The same click up to the LHS object. -/
def SameClick (c c' : Click L) : Prop := c'.a = c.a ∧ c'.b = c.b ∧ c'.post = c.post ∧ c'.conv = c.conv

theorem refineOne_same (C : LhsClass L) (env : RefineEnv) (s : RSt L) : SameClick s.click (refineOne C env s).1.click :=
  Leads.refineOne (P := SameClick s.click) (Q := SameClick s.click) (fun _ h => h) (fun _ h => h) (fun _ _ h => h) (fun _ h => h) s
    ⟨rfl, rfl, rfl, rfl⟩

/-- The sides of a click, re-evaluated, agree: the continued fraction and the function give a finite non-zero number whose
search key has a text with the same first `accuracy + 2` characters ("0.", and `accuracy` digits) as the text of the
search key of the LHS value. -/
def SidesAgree (C : LhsClass L) (env : RefineEnv) (c : Click L) : Prop :=
  ∃ f v y s r s', env.funcs[c.post]? = some f ∧ env.eval c.a c.b c.conv = .ok v ∧ f v = .ok (.fin y) ∧ y ≠ 0 ∧
    env.eng (.fin (searchKey env.trunc y)) = .ok s ∧ HasSearchKey env.trunc (C.val c.lhs) r ∧ env.eng r = .ok s' ∧
    sliceTo s (env.accuracy + 2) = sliceTo s' (env.accuracy + 2)

theorem rhsValue_ok {env : RefineEnv} {c : Click L} {w : Num} (h : rhsValue env c = .ok w) :
    ∃ f v, env.funcs[c.post]? = some f ∧ env.eval c.a c.b c.conv = .ok v ∧ f v = .ok w := by
  rw [rhsValue] at h
  split at h
  · cases h
  · rename_i f hf
    split at h
    · cases h
    · rename_i v hv
      exact ⟨f, v, hf, hv, h⟩

theorem rhsValue_eq {env : RefineEnv} {c : Click L} {f : Num → Except PyErr Num} {v : Num} (hf : env.funcs[c.post]? = some f)
    (hv : env.eval c.a c.b c.conv = .ok v) : rhsValue env c = f v := by
  simp only [rhsValue, hf, hv]

theorem lift_ok_inv {σ α : Type} {r : Except PyErr α} {s s' : σ} {a : α} (h : lift r s = (s', .ok a)) : r = .ok a ∧ s' = s := by
  cases r with
  | error e => cases h
  | ok b => cases h; exact ⟨rfl, rfl⟩

theorem tick_click (s : RSt L) : (tick s).1.click = s.click := by
  rw [tick]; split <;> rfl

theorem compareDec_ok {eng : EngN} {d1 d2 : Num} {n : ℤ} {b : Bool} (h : compareDec eng d1 d2 n = .ok b) :
    ∃ s s', eng d1 = .ok s ∧ eng d2 = .ok s' ∧ (b = true ↔ sliceTo s (n + 2) = sliceTo s' (n + 2)) := by
  rw [compareDec] at h
  cases h1 : eng d1 with
  | error e => rw [h1] at h; cases h
  | ok s =>
    cases h2 : eng d2 with
    | error e => rw [h1] at h; simp only [h2] at h; cases h
    | ok s' =>
      rw [h1] at h
      simp only [h2] at h
      cases h
      refine ⟨s, s', rfl, rfl, ?_⟩
      rw [decide_eq_true_eq, show n + 1 + 1 = n + 2 by ring]

/-- What a normally returning step did. -/
theorem refineOne_ok {C : LhsClass L} {env : RefineEnv} {s s' : RSt L} {keep : Bool} (h : refineOne C env s = (s', .ok keep)) :
    (keep = true ↔ SidesAgree C env s.click) ∧
    (keep = true → ∃ y s1 s2, rhsValue env s.click = .ok (.fin y) ∧ s1.click = s.click ∧ s2 = s' ∧
      adjust C (.fin y) (C.val s.click.lhs) s1 = (s2, .ok ())) := by
  rw [refineOne] at h
  obtain ⟨_, s1, h1, h⟩ := bind_ok_inv h
  have hc1 : s1.click = s.click := by rw [← tick_click s, h1]
  obtain ⟨_, _, h2, h⟩ := bind_ok_inv h
  cases h2
  rw [hc1] at h
  cases hr : rhsValue env s.click with
  | error e =>
    rw [hr] at h
    have hk : keep = false := by
      cases e <;> cases h
      rfl
    subst hk
    simp only [Bool.false_eq_true, false_iff, false_implies, and_true]
    rintro ⟨f, v, y, t, r, t', hf, hv, hy, -⟩
    rw [rhsValue_eq hf hv, hy] at hr
    cases hr
  | ok w =>
    rw [hr] at h
    obtain ⟨_, s2, h2, h⟩ := bind_ok_inv h
    have hc2 : s2.click = s.click := by rw [← hc1, ← tick_click s1, h2]
    by_cases hw : w.isNormal = true
    · rw [if_pos hw] at h
      obtain ⟨y, rfl, hy0⟩ : ∃ y, w = .fin y ∧ y ≠ 0 := by
        cases w with
        | fin y => exact ⟨y, rfl, by simpa [Num.isNormal] using hw⟩
        | inf => cases hw
        | nan => cases hw
      obtain ⟨rhs, s3, h3, hA⟩ := bind_ok_inv h
      clear h
      obtain ⟨h3', rfl⟩ := lift_ok_inv h3
      rw [truncate_abs] at h3'
      cases h3'
      obtain ⟨lhs, s4, h4, hB⟩ := bind_ok_inv hA
      clear hA
      obtain ⟨h4', rfl⟩ := lift_ok_inv h4
      have hk := (truncate_iff _ _ _).1 h4'
      obtain ⟨same, s5, h5, hC⟩ := bind_ok_inv hB
      clear hB
      obtain ⟨h5', rfl⟩ := lift_ok_inv h5
      obtain ⟨t, t', ht, ht', hiff⟩ := compareDec_ok h5'
      have key : SidesAgree C env s.click ↔ same = true := by
        obtain ⟨f, v, hf, hv, hy⟩ := rhsValue_ok hr
        constructor
        · rintro ⟨f', v', y', u, r, u', hf', hv', hy', -, hu, hr', hu', heq⟩
          rw [hf] at hf'; cases hf'
          rw [hv] at hv'; cases hv'
          rw [hy] at hy'; cases hy'
          rw [ht] at hu; cases hu
          rw [← truncate_iff, h4'] at hr'; cases hr'
          rw [ht'] at hu'; cases hu'
          exact hiff.2 heq
        · intro hs
          exact ⟨f, v, y, t, lhs, t', hf, hv, hy, hy0, ht, hk, ht', hiff.1 hs⟩
      cases same with
      | true =>
        rw [if_pos rfl] at hC
        obtain ⟨_, s6, h6, hD⟩ := bind_ok_inv hC
        cases hD
        exact ⟨by simp [key], fun _ => ⟨y, _, s', rfl, hc2, rfl, h6⟩⟩
      | false =>
        rw [if_neg (by simp)] at hC
        cases hC
        exact ⟨by simp [key], by simp⟩
    · rw [if_neg hw] at h
      cases h
      simp only [Bool.false_eq_true, false_iff, false_implies, and_true]
      rintro ⟨f, v, y, t, r, t', hf, hv, hy, hy0, -⟩
      rw [rhsValue_eq hf hv, hy] at hr
      cases hr
      simp [Num.isNormal, hy0] at hw

open Classical in
theorem refineLoop_ok {C : LhsClass L} {env : RefineEnv} : ∀ (cs : List (Click L)) (b b' : Option ℕ) (all kept : List (Click L)),
    refineLoop C env b cs = (b', all, kept, .ok ()) →
    List.Forall₂ SameClick (cs.filter fun c => decide (SidesAgree C env c)) kept := by
  intro cs
  induction cs with
  | nil => intro b b' all kept h; cases h; exact .nil
  | cons c cs ih =>
    intro b b' all kept h
    rw [refineLoop] at h
    rcases h1 : refineOne C env ⟨b, c⟩ with ⟨s, e | keep⟩
    · rw [h1] at h; cases h
    · rw [h1] at h
      rcases h2 : refineLoop C env s.budget cs with ⟨b2, all2, kept2, r2⟩
      simp only [h2] at h
      cases h
      have ih' := ih _ _ _ _ h2
      have hsame := refineOne_same C env ⟨b, c⟩
      rw [h1] at hsame
      have hk := (refineOne_ok h1).1
      simp only at hk
      cases keep with
      | true =>
        rw [List.filter_cons_of_pos (by simpa using hk.1 rfl), if_pos rfl]
        exact .cons hsame ih'
      | false =>
        rw [List.filter_cons_of_neg (by simpa using fun h => Bool.noConfusion (hk.2 h)), if_neg (by simp)]
        exact ih'

theorem refineLoop_all {C : LhsClass L} {env : RefineEnv} {R : Click L → Click L → Prop} (hrefl : ∀ c, R c c) :
    ∀ (cs : List (Click L)) (b : Option ℕ), (∀ c ∈ cs, ∀ b, R c (refineOne C env ⟨b, c⟩).1.click) →
    List.Forall₂ R cs (refineLoop C env b cs).2.1 := by
  intro cs
  induction cs with
  | nil => intro b _; exact .nil
  | cons c cs ih =>
    intro b hR
    rw [refineLoop]
    have h0 := hR c List.mem_cons_self b
    rcases h1 : refineOne C env ⟨b, c⟩ with ⟨s, e | keep⟩
    · rw [h1] at h0
      exact .cons h0 (List.forall₂_same.2 fun c _ => hrefl c)
    · rw [h1] at h0
      exact .cons h0 (ih s.budget fun c hc => hR c (List.mem_cons_of_mem _ hc))

open Classical in
/-- **C56 (partial).** Whenever a refinement returns normally, the new click list consists, in order, of exactly those
clicks whose re-evaluated sides agree, with the same a, b, function and convergence info.
Missing: with `mpf` numbers (no `to_eng_string`) it raises, see `C56_refine_violated`. -/
theorem C56_refine_partial {C : LhsClass L} {env : RefineEnv} {b b' : Option ℕ} {cs kept : List (Click L)}
    (h : refineClicks C env (b, cs) = ((b', kept), .ok ())) :
    List.Forall₂ SameClick (cs.filter fun c => decide (SidesAgree C env c)) kept := by
  rw [refineClicks] at h
  split at h
  · rename_i b2 all kept2 hl
    cases h
    exact refineLoop_ok _ _ _ _ _ hl
  · cases h

/-- **C56 (failure).** If a refinement raises, the click list has the same clicks as before. -/
theorem C56_refine_failure {C : LhsClass L} {env : RefineEnv} {b b' : Option ℕ} {cs cs' : List (Click L)} {e : PyErr}
    (h : refineClicks C env (b, cs) = ((b', cs'), .error e)) : List.Forall₂ SameClick cs cs' := by
  have := refineLoop_all (C := C) (env := env) (R := SameClick) (fun _ => ⟨rfl, rfl, rfl, rfl⟩) cs b
    fun c _ b => refineOne_same C env ⟨b, c⟩
  rw [refineClicks] at h
  split at h
  · cases h
  · rename_i b2 all kept2 e' hl
    cases h
    rw [hl] at this
    exact this

/-- **C56 (violated).** With `mpf` numbers, a refinement whose first click evaluates to a finite non-zero number raises
AttributeError instead of returning. -/
theorem C56_refine_violated {C : LhsClass L} {env : RefineEnv} (heng : env.eng = mpfEngN) {c : Click L} {cs : List (Click L)}
    {f : Num → Except PyErr Num} {v : Num} {y w : ℚ} (hf : env.funcs[c.post]? = some f) (hv : env.eval c.a c.b c.conv = .ok v)
    (hy : f v = .ok (.fin y)) (hy0 : y ≠ 0) (hw : C.val c.lhs = .fin w) :
    refineClicks C env (none, c :: cs) = ((none, c :: cs), .error .attributeError) := by
  have h1 : refineOne C env ⟨none, c⟩ = (⟨none, c⟩, .error .attributeError) := by
    have hr : rhsValue env c = .ok (.fin y) := by rw [rhsValue_eq hf hv, hy]
    have hn : (Num.fin y).isNormal = true := by simp [Num.isNormal, hy0]
    rw [refineOne, PyM.bind_ok (show tick _ = (_, .ok ()) from rfl), PyM.bind_ok (show PyM.get _ = (_, .ok _) from rfl)]
    simp only [hr]
    rw [PyM.bind_ok (show tick _ = (_, .ok ()) from rfl), if_pos hn, truncate_abs, hw, truncate_abs,
      PyM.bind_ok (show lift _ _ = (_, .ok _) from rfl), PyM.bind_ok (show lift _ _ = (_, .ok _) from rfl)]
    rw [heng]
    rfl
  rw [refineClicks, refineLoop, h1]

/-- `int(x)` -/
def truncZ (q : ℚ) : ℤ := if 0 ≤ q then ⌊q⌋ else ⌈q⌉

theorem tick_ok {s s' : RSt L} {u : Unit} (h : tick s = (s', .ok u)) : s'.click = s.click := by
  rw [← tick_click s, h]

theorem signsDiffer_fin (y w : ℚ) : signsDiffer (.fin y) (.fin w) = true ↔ (0 < w ∧ y < 0) ∨ (w < 0 ∧ 0 < y) := by
  simp [signsDiffer, isPos, isNeg]

/-- The LHS value with the sign of the RHS. -/
def signed (y w : ℚ) : ℚ := if (0 < w ∧ y < 0) ∨ (w < 0 ∧ 0 < y) then -w else w

theorem signed_eq (y w : ℚ) : (if signsDiffer (.fin y) (.fin w) then negNum (.fin w) else .fin w) = .fin (signed y w) := by
  rw [signed]
  by_cases h : (0 < w ∧ y < 0) ∨ (w < 0 ∧ 0 < y)
  · rw [if_pos h, if_pos ((signsDiffer_fin y w).2 h), negNum]
    congr 1
    ring
  · rw [if_neg h, if_neg fun h' => h ((signsDiffer_fin y w).1 h')]

theorem adjust_ok {C : LhsClass L} {Inv : L → Prop} (laws : LhsLaws C Inv) {s s' : RSt L} {y w : ℚ} (hi : Inv s.click.lhs)
    (hw : C.val s.click.lhs = .fin w) (h : adjust C (.fin y) (.fin w) s = (s', .ok ())) :
    Inv s'.click.lhs ∧ ((C.val s'.click.lhs = .fin (signed y w + truncZ (y - signed y w))) ∨
      (C.val s'.click.lhs = .nan ∧ IsInteger (signed y w + truncZ (y - signed y w)))) := by
  rw [adjust] at h
  obtain ⟨_, s1, h1, k1⟩ := bind_ok_inv h
  obtain ⟨_, s2, h2, k2⟩ := bind_ok_inv k1
  obtain ⟨_, s3, h3, k3⟩ := bind_ok_inv k2
  obtain ⟨_, s4, h4, k4⟩ := bind_ok_inv k3
  obtain ⟨_, s5, h5, k5⟩ := bind_ok_inv k4
  obtain ⟨_, s6, h6, k6⟩ := bind_ok_inv k5
  have e1 := tick_ok h1
  have e3 := tick_ok h3
  have e5 := tick_ok h5
  have e7 := tick_ok k6
  -- the sign
  have v2 : Inv s2.click.lhs ∧ C.val s2.click.lhs = .fin (signed y w) := by
    rw [flipIf] at h2
    by_cases hd : (0 < w ∧ y < 0) ∨ (w < 0 ∧ 0 < y)
    · rw [if_pos ((signsDiffer_fin y w).2 hd)] at h2
      obtain ⟨l', el, il, vl⟩ := laws.flip s1.click.lhs (e1 ▸ hi)
      rw [onLhs, el] at h2
      cases h2
      refine ⟨il, ?_⟩
      show C.val l' = _
      rw [vl, e1, hw, signed, if_pos hd]
      rfl
    · rw [if_neg fun h' => hd ((signsDiffer_fin y w).1 h')] at h2
      cases h2
      rw [e1, signed, if_neg hd]
      exact ⟨hi, hw⟩
  -- the integer
  have v4 : Inv s4.click.lhs ∧ C.val s4.click.lhs = .fin (signed y w + truncZ (y - signed y w)) := by
    rw [signed_eq] at h4
    have h4' : addDifference C (.fin y) (.fin (signed y w)) s3 = (s4, .ok ()) := by
      rw [asRuntimeError] at h4
      split at h4
      · split at h4 <;> cases h4
      · exact h4
    rw [addDifference] at h4'
    obtain ⟨_, s8, h8, k8⟩ := bind_ok_inv h4'
    obtain ⟨n, s9, h9, k9⟩ := bind_ok_inv k8
    obtain ⟨h9', rfl⟩ := lift_ok_inv h9
    have e8 := tick_ok h8
    have hn : n = truncZ (y - signed y w) := (Except.ok.inj h9').symm
    obtain ⟨l', el, il, vl⟩ := laws.add s9.click.lhs n (by rw [e8, e3]; exact v2.1)
    rw [onLhs, el] at k9
    cases k9
    refine ⟨il, ?_⟩
    show C.val l' = _
    rw [vl, e8, e3, v2.2, hn]
    rfl
  obtain ⟨l', el, il, vl⟩ := laws.canon s5.click.lhs (by rw [e5]; exact v4.1)
  rw [onLhs, el] at h6
  cases h6
  rw [e7]
  exact ⟨il, vl _ (by rw [e5]; exact v4.2)⟩

theorem adjust_none {C : LhsClass L} {Inv : L → Prop} (laws : LhsTotal C Inv) {c : Click L} {y w : ℚ} (hi : Inv c.lhs)
    (_hw : C.val c.lhs = .fin w) : ∃ c', adjust C (.fin y) (.fin w) ⟨none, c⟩ = (⟨none, c'⟩, .ok ()) ∧ Inv c'.lhs := by
  obtain ⟨c1, e1, i1⟩ : ∃ c1 : Click L, flipIf C (signsDiffer (.fin y) (.fin w)) ⟨none, c⟩ = (⟨none, c1⟩, .ok ()) ∧ Inv c1.lhs := by
    rw [flipIf]
    split
    · obtain ⟨l', el, il⟩ := laws.flip c.lhs hi
      exact ⟨{ c with lhs := l' }, by rw [onLhs, el], il⟩
    · exact ⟨c, rfl, hi⟩
  obtain ⟨l2, el2, il2⟩ := laws.add c1.lhs (truncZ (y - signed y w)) i1
  obtain ⟨l3, el3, il3⟩ := laws.canon l2 il2
  refine ⟨{ c1 with lhs := l3 }, ?_, il3⟩
  have e2 : asRuntimeError (toInt (subNum (.fin y) (.fin (signed y w)))) (addDifference C (.fin y) (.fin (signed y w))) ⟨none, c1⟩ = (⟨none, { c1 with lhs := l2 }⟩, .ok ()) := by
    have : addDifference C (.fin y) (.fin (signed y w)) ⟨none, c1⟩ = (⟨none, { c1 with lhs := l2 }⟩, .ok ()) := by
      rw [addDifference, PyM.bind_ok (show tick _ = (_, .ok ()) from rfl),
        PyM.bind_ok (show lift _ _ = (_, .ok (truncZ (y - signed y w))) from rfl), onLhs, el2]
    rw [asRuntimeError, this]
  rw [adjust, PyM.bind_ok (show tick _ = (_, .ok ()) from rfl), PyM.bind_ok e1, PyM.bind_ok (show tick _ = (_, .ok ()) from rfl),
    signed_eq, PyM.bind_ok e2, PyM.bind_ok (show tick _ = (_, .ok ()) from rfl),
    PyM.bind_ok (show onLhs C.canon _ = (⟨none, { c1 with lhs := l3 }⟩, .ok ()) by rw [onLhs]; simp only [el3])]
  rfl

/-- When a click can be re-evaluated: the LHS is finite and fulfils the invariant, and the continued fraction and the
function either give a result or divide by zero. -/
def Evaluable (C : LhsClass L) (Inv : L → Prop) (env : RefineEnv) (c : Click L) : Prop :=
  Inv c.lhs ∧ (∃ w, C.val c.lhs = .fin w) ∧ ∃ f, env.funcs[c.post]? = some f ∧
    ((∃ v, env.eval c.a c.b c.conv = .ok v ∧ ((∃ y, f v = .ok y) ∨ f v = .error .zeroDivision)) ∨
      env.eval c.a c.b c.conv = .error .zeroDivision)

theorem refineOne_none {C : LhsClass L} {Inv : L → Prop} (laws : LhsTotal C Inv) {env : RefineEnv}
    (heng : ∀ q, ∃ s, env.eng (.fin q) = .ok s) {c : Click L} (hc : Evaluable C Inv env c) :
    ∃ c' keep, refineOne C env ⟨none, c⟩ = (⟨none, c'⟩, .ok keep) := by
  obtain ⟨hi, ⟨w, hw⟩, f, hf, hev⟩ := hc
  rw [refineOne, PyM.bind_ok (show tick _ = (_, .ok ()) from rfl), PyM.bind_ok (show PyM.get _ = (_, .ok _) from rfl)]
  have hr : (∃ y, rhsValue env c = .ok y) ∨ rhsValue env c = .error .zeroDivision := by
    rcases hev with ⟨v, hv, ⟨y, hy⟩ | hy⟩ | hv
    · exact .inl ⟨y, by rw [rhsValue_eq hf hv, hy]⟩
    · exact .inr (by rw [rhsValue_eq hf hv, hy])
    · exact .inr (by simp only [rhsValue, hf, hv])
  rcases hr with ⟨y, hy⟩ | hy
  swap
  · simp only [hy]; exact ⟨c, false, rfl⟩
  simp only [hy]
  rw [PyM.bind_ok (show tick _ = (_, .ok ()) from rfl)]
  cases y with
  | inf => exact ⟨c, false, rfl⟩
  | nan => exact ⟨c, false, rfl⟩
  | fin y =>
    split
    swap
    · exact ⟨c, false, rfl⟩
    rw [truncate_abs, hw, truncate_abs, PyM.bind_ok (show lift _ _ = (_, .ok _) from rfl),
      PyM.bind_ok (show lift _ _ = (_, .ok _) from rfl)]
    obtain ⟨s1, hs1⟩ := heng (searchKey env.trunc y)
    obtain ⟨s2, hs2⟩ := heng (searchKey env.trunc w)
    simp only [compareDec, hs1, hs2]
    rw [PyM.bind_ok (show lift _ _ = (_, .ok _) from rfl)]
    split
    · obtain ⟨c', e, -⟩ := adjust_none laws (y := y) hi hw
      rw [PyM.bind_ok e]
      exact ⟨c', true, rfl⟩
    · exact ⟨c, false, rfl⟩

/-- **C56 (it returns).** Without an interrupt, if all clicks can be re-evaluated and numbers have texts, the refinement
returns normally. -/
theorem C56_refine_returns {C : LhsClass L} {Inv : L → Prop} (laws : LhsTotal C Inv) {env : RefineEnv}
    (heng : ∀ q, ∃ s, env.eng (.fin q) = .ok s) {cs : List (Click L)} (hcs : ∀ c ∈ cs, Evaluable C Inv env c) :
    ∃ kept, refineClicks C env (none, cs) = ((none, kept), .ok ()) := by
  have : ∃ all kept, refineLoop C env none cs = (none, all, kept, .ok ()) := by
    induction cs with
    | nil => exact ⟨[], [], rfl⟩
    | cons c cs ih =>
      obtain ⟨c', keep, e⟩ := refineOne_none laws heng (hcs c List.mem_cons_self)
      obtain ⟨all, kept, e2⟩ := ih fun c hc => hcs c (List.mem_cons_of_mem _ hc)
      rw [refineLoop, e]
      simp only [e2]
      exact ⟨_, _, rfl⟩
  obtain ⟨all, kept, e⟩ := this
  exact ⟨kept, by rw [refineClicks, e]⟩

/-! ### C57 -/

theorem truncZ_neg (q : ℚ) : truncZ (-q) = -truncZ q := by
  rw [truncZ, truncZ]
  rcases lt_trichotomy q 0 with h | rfl | h
  · rw [if_pos (by linarith), if_neg (by linarith), Int.floor_neg]
  · simp
  · rw [if_neg (by linarith), if_pos h.le, Int.ceil_neg]

/-- The rest after cutting off the integer part of `N + δ`. -/
theorem rest_abs (N : ℤ) (δ : ℚ) (h1 : -1 < δ) (h2 : δ < 1) :
    |(N + δ) - truncZ (N + δ)| = if 0 ≤ N * δ then |δ| else 1 - |δ| := by
  rcases lt_trichotomy δ 0 with hd | rfl | hd
  · rcases lt_or_ge 0 N with hN | hN
    · have hN1 : (1 : ℚ) ≤ N := by exact_mod_cast hN
      have e : truncZ (N + δ) = N - 1 := by
        rw [truncZ, if_pos (by linarith), Int.floor_eq_iff]
        push_cast
        constructor <;> linarith
      rw [e, if_neg (by nlinarith), abs_of_neg hd]
      push_cast
      rw [abs_of_nonneg (by linarith)]
      ring
    · have hN1 : (N : ℚ) ≤ 0 := by exact_mod_cast hN
      have e : truncZ (N + δ) = N := by
        rw [truncZ, if_neg (by linarith), Int.ceil_eq_iff]
        constructor <;> linarith
      rw [e, if_pos (by nlinarith)]
      congr 1
      ring
  · have e : truncZ ((N : ℚ) + 0) = N := by
      rw [truncZ, add_zero]
      split <;> simp
    rw [e]
    simp
  · rcases lt_or_ge N 0 with hN | hN
    · have hN1 : (N : ℚ) ≤ -1 := by exact_mod_cast (by omega : N ≤ -1)
      have e : truncZ (N + δ) = N + 1 := by
        rw [truncZ, if_neg (by linarith), Int.ceil_eq_iff]
        push_cast
        constructor <;> linarith
      rw [e, if_neg (by nlinarith), abs_of_pos hd]
      push_cast
      rw [abs_of_nonpos (by linarith)]
      ring
    · have hN1 : (0 : ℚ) ≤ N := by exact_mod_cast hN
      have e : truncZ (N + δ) = N := by
        rw [truncZ, if_pos (by linarith), Int.floor_eq_iff]
        constructor <;> linarith
      rw [e, if_pos (by nlinarith)]
      congr 1
      ring

/-- The sign of the sides is the same after flipping, so their difference is that of the absolute values. -/
theorem diff_signed (y w : ℚ) : y - signed y w = |y| - |w| ∨ y - signed y w = -(|y| - |w|) := by
  rw [signed]
  split
  · rename_i h
    rcases h with ⟨h1, h2⟩ | ⟨h1, h2⟩
    · right; rw [abs_of_neg h2, abs_of_pos h1]; ring
    · left; rw [abs_of_pos h2, abs_of_neg h1]
  · rename_i h
    simp only [not_or, not_and, not_lt] at h
    rcases lt_trichotomy y 0 with hy | rfl | hy
    · right
      have hw : w ≤ 0 := by by_contra hw; exact absurd (h.1 (not_le.1 hw)) (not_le.2 hy)
      rw [abs_of_neg hy, abs_of_nonpos hw]; ring
    · rcases le_total 0 w with hw | hw
      · left; rw [abs_zero, abs_of_nonneg hw]
      · right; rw [abs_zero, abs_of_nonpos hw]; ring
    · left
      have hw : 0 ≤ w := by by_contra hw; exact absurd (h.2 (not_le.1 hw)) (not_le.2 hy)
      rw [abs_of_pos hy, abs_of_nonneg hw]

theorem rest_signed (y w : ℚ) : |y - (signed y w + truncZ (y - signed y w))| = |(|y| - |w|) - truncZ (|y| - |w|)| := by
  rw [← sub_sub]
  rcases diff_signed y w with h | h <;> rw [h]
  rw [truncZ_neg, ← abs_neg]
  congr 1
  push_cast
  ring

/-- The distance of the adjusted LHS from the RHS. -/
def adjustedError (trunc : Bool) (y w : ℚ) : ℚ :=
  let δ := searchKey trunc y - searchKey trunc w
  if trunc then (if 0 ≤ (⌊|y|⌋ - ⌊|w|⌋ : ℤ) * δ then |δ| else 1 - |δ|) else |δ|

theorem rest_error (trunc : Bool) (y w : ℚ) (h : trunc = false → |(|y| - |w|)| < 1) :
    |y - (signed y w + truncZ (y - signed y w))| = adjustedError trunc y w := by
  rw [rest_signed, adjustedError]
  cases trunc with
  | true =>
    simp only [searchKey, if_true]
    have hd : |y| - |w| = (⌊|y|⌋ - ⌊|w|⌋ : ℤ) + (Int.fract |y| - Int.fract |w|) := by
      push_cast
      rw [Int.fract, Int.fract]
      ring
    rw [hd, rest_abs]
    · linarith [Int.fract_nonneg |y|, Int.fract_lt_one |w|]
    · linarith [Int.fract_nonneg |w|, Int.fract_lt_one |y|]
  | false =>
    simp only [searchKey, Bool.false_eq_true, if_false]
    have h' := abs_lt.1 (h rfl)
    have := rest_abs 0 (|y| - |w|) h'.1 h'.2
    simpa using this

/-- **C57 (partial).** A click that survives: let `y` be the re-evaluated RHS and `w` the LHS value before.  The LHS
afterwards has a value `v` (unless `v` is an integer, which may be lost as NaN) at the distance from `y` given by
the distance `|δ|` of the compared keys, and is exactly `y` if these are equal; but with the integer part removed,
the distance is `1 - |δ|` if the integer parts and the keys are ordered differently.  (Without removal, for sides
less than 1 apart.)
Missing: the distance should always be `|δ|`, see `C57_identity_violated`. -/
theorem C57_identity_partial {C : LhsClass L} {Inv : L → Prop} (laws : LhsLaws C Inv) {env : RefineEnv} {s s' : RSt L}
    (h : refineOne C env s = (s', .ok true)) (hi : Inv s.click.lhs) {w : ℚ} (hw : C.val s.click.lhs = .fin w) :
    ∃ f r y v, env.funcs[s.click.post]? = some f ∧ env.eval s.click.a s.click.b s.click.conv = .ok r ∧ f r = .ok (.fin y) ∧
      (C.val s'.click.lhs = .fin v ∨ (C.val s'.click.lhs = .nan ∧ IsInteger v)) ∧ Inv s'.click.lhs ∧ |y - v| < 1 ∧
      (searchKey env.trunc y = searchKey env.trunc w → v = y) ∧
      ((env.trunc = false → |(|y| - |w|)| < 1) → |y - v| = adjustedError env.trunc y w) := by
  obtain ⟨y, s1, s2, hr, hc, rfl, ha⟩ := (refineOne_ok h).2 rfl
  obtain ⟨f, r, hf, hr', hy⟩ := rhsValue_ok hr
  rw [hw] at ha
  obtain ⟨hinv, hv⟩ := adjust_ok laws (by rw [hc]; exact hi) (by rw [hc]; exact hw) ha
  refine ⟨f, r, y, _, hf, hr', hy, hv, hinv, ?_, ?_, rest_error env.trunc y w⟩
  · rw [← sub_sub]
    generalize y - signed y w = q
    rw [truncZ]
    split
    · rw [abs_of_nonneg (by linarith [Int.floor_le q])]
      linarith [Int.lt_floor_add_one q]
    · rw [abs_of_nonpos (by linarith [Int.le_ceil q])]
      linarith [Int.ceil_lt_add_one q]
  · intro hk
    have hz : |y - (signed y w + truncZ (y - signed y w))| = 0 := by
      rw [rest_error env.trunc y w, adjustedError, hk]
      · simp
      · intro ht
        rw [ht] at hk
        simp only [searchKey, Bool.false_eq_true, if_false] at hk
        rw [hk]
        simp
    linarith [abs_eq_zero.1 hz]

/-- Texts with four digits after the point, for numbers in [0, 10). -/
def exEng4 : EngN
  | .fin q =>
    let n := ⌊q * 10000⌋.toNat
    .ok ([Nat.digitChar (n / 10000), '.'] ++ [n / 1000 % 10, n / 100 % 10, n / 10 % 10, n % 10].map Nat.digitChar)
  | _ => .error .valueError

/-- Refinement to `accuracy` digits where the continued fraction has the value `y`. -/
def exRefine (y : ℚ) (accuracy : ℤ) : RefineEnv where
  funcs := [fun x => .ok x]
  trunc := true
  accuracy := accuracy
  eng := exEng4
  eval := fun _ _ _ => .ok (.fin y)

/-- The ULCD object for the constant `x` itself, `(0/x + x/1 + 0)/1`. -/
def exUlcd (x : ℚ) : Ulcd := ⟨(0, 1, 0, 1), x, x⟩

theorem exUlcd_ok {x : ℚ} (h : x ≠ 0) : UlcdOk x (exUlcd x) :=
  ⟨rfl, h, ⟨one_ne_zero, one_ne_zero⟩, by simp [exUlcd, ulcdExpr]⟩

/-- The hypotheses of `C56_refine_returns` and `C57_identity_partial`: `-5.2348` and `5.2348` up to 3 digits. -/
example : UlcdOk (52348 / 10000) (exUlcd (52348 / 10000)) ∧
    Evaluable ulcdClass (UlcdOk (52348 / 10000)) (exRefine (-52348 / 10000) 3) ⟨[[1]], [[1]], exUlcd (52348 / 10000), 0, none⟩ ∧
    (refineOne ulcdClass (exRefine (-52348 / 10000) 3) ⟨none, ⟨[[1]], [[1]], exUlcd (52348 / 10000), 0, none⟩⟩).2.toOption =
      some true ∧
    (refineOne ulcdClass (exRefine (-52348 / 10000) 3) ⟨none, ⟨[[1]], [[1]], exUlcd (52348 / 10000), 0, none⟩⟩).1.click.lhs.val =
      -52348 / 10000 :=
  have h := exUlcd_ok (x := 52348 / 10000) (by norm_num)
  ⟨h, ⟨h, ⟨_, rfl⟩, _, rfl, .inl ⟨_, rfl, .inl ⟨_, rfl⟩⟩⟩, by decide +kernel, by decide +kernel⟩

/-- **C57 (violated).** Refinement to 3 digits with the RHS `5.2348` and the LHS `3.2349`: the click survives, but the
adjusted LHS is `4.2349`, off by almost 1 (the difference `1.9999` is cut off to 1). -/
theorem C57_identity_violated :
    (refineOne ulcdClass (exRefine (52348 / 10000) 3) ⟨none, ⟨[[1]], [[1]], exUlcd (32349 / 10000), 0, none⟩⟩).2.toOption =
      some true ∧
    (refineOne ulcdClass (exRefine (52348 / 10000) 3) ⟨none, ⟨[[1]], [[1]], exUlcd (32349 / 10000), 0, none⟩⟩).1.click.lhs.val =
      42349 / 10000 ∧
    adjustedError true (52348 / 10000) (32349 / 10000) = 9999 / 10000 :=
  ⟨by decide +kernel, by decide +kernel, by decide +kernel⟩

/-! ### C58 -/

/-- Equal up to sign and an integer. -/
def UpToSignInt (v v' : ℚ) : Prop := ∃ n : ℤ, v' = v + n ∨ v' = -v + n

theorem UpToSignInt.refl (v : ℚ) : UpToSignInt v v := ⟨0, .inl (by simp)⟩

theorem UpToSignInt.neg {v v' : ℚ} (h : UpToSignInt v v') : UpToSignInt v (-v') := by
  obtain ⟨n, rfl | rfl⟩ := h
  · exact ⟨-n, .inr (by push_cast; ring)⟩
  · exact ⟨-n, .inl (by push_cast; ring)⟩

theorem UpToSignInt.add {v v' : ℚ} (h : UpToSignInt v v') (m : ℤ) : UpToSignInt v (v' + m) := by
  obtain ⟨n, rfl | rfl⟩ := h
  · exact ⟨n + m, .inl (by push_cast; ring)⟩
  · exact ⟨n + m, .inr (by push_cast; ring)⟩

theorem UpToSignInt.integer {v v' : ℚ} (h : UpToSignInt v v') (hi : IsInteger v') : IsInteger v := by
  obtain ⟨k, hk⟩ := hi
  obtain ⟨n, h | h⟩ := h
  · exact ⟨k - n, by push_cast; linarith⟩
  · exact ⟨n - k, by push_cast; linarith⟩

/-- The same click, whose LHS has the same value up to sign and an integer, except that an integer value may have been lost
(NaN). -/
def SameUpToInt (C : LhsClass L) (c c' : Click L) : Prop :=
  SameClick c c' ∧ ∀ v, C.val c.lhs = .fin v →
    (∃ v', C.val c'.lhs = .fin v' ∧ UpToSignInt v v') ∨ (C.val c'.lhs = .nan ∧ IsInteger v)

theorem refineOne_upToInt {C : LhsClass L} {Inv : L → Prop} (laws : LhsLaws C Inv) (env : RefineEnv) (s : RSt L)
    (hi : Inv s.click.lhs) {v : ℚ} (hv : C.val s.click.lhs = .fin v) :
    SameUpToInt C s.click (refineOne C env s).1.click ∧ Inv (refineOne C env s).1.click.lhs := by
  have := Leads.refineOne (C := C) (env := env)
    (P := fun c => SameClick s.click c ∧ Inv c.lhs ∧ ∃ v', C.val c.lhs = .fin v' ∧ UpToSignInt v v')
    (Q := fun c => SameClick s.click c ∧ Inv c.lhs ∧
      ((∃ v', C.val c.lhs = .fin v' ∧ UpToSignInt v v') ∨ (C.val c.lhs = .nan ∧ IsInteger v)))
    (fun c h => ⟨h.1, h.2.1, .inl h.2.2⟩) ?_ ?_ ?_ s ⟨⟨rfl, rfl, rfl, rfl⟩, hi, v, hv, UpToSignInt.refl v⟩
  · obtain ⟨h1, h2, h3⟩ := this
    refine ⟨⟨h1, fun v2 hv2 => ?_⟩, h2⟩
    rw [hv] at hv2
    cases hv2
    exact h3
  · rintro c ⟨h1, h2, v', hv', hu⟩
    obtain ⟨l', e, i, val⟩ := laws.flip c.lhs h2
    rw [e]
    exact ⟨h1, i, -v', by show C.val l' = _; rw [val, hv']; rfl, hu.neg⟩
  · rintro c n ⟨h1, h2, v', hv', hu⟩
    obtain ⟨l', e, i, val⟩ := laws.add c.lhs n h2
    rw [e]
    exact ⟨h1, i, v' + n, by show C.val l' = _; rw [val, hv']; rfl, hu.add n⟩
  · rintro c ⟨h1, h2, v', hv', hu⟩
    obtain ⟨l', e, i, val⟩ := laws.canon c.lhs h2
    rw [e]
    refine ⟨h1, i, ?_⟩
    rcases val v' hv' with h | ⟨h, h'⟩
    · exact .inl ⟨v', h, hu⟩
    · exact .inr ⟨h, hu.integer h'⟩

/-- **C58 (partial).** For clicks with finite LHS values, every evaluator and every point where Ctrl-C is pressed: if the third
refinement raises at all, the click list still has the entries from before it, in order, and every LHS has the same
value up to sign and an integer (an integer value may be lost).  If what it raises is KeyboardInterrupt, `main`
carries on with this list.
Missing: an interrupt within the `try` around `add_int` is turned into a RuntimeError, which ends `main`
(`C58_cancel_violated`). -/
theorem C58_cancel_partial {C : LhsClass L} {Inv : L → Prop} (laws : LhsLaws C Inv) (env : RefineEnv) (budget b' : Option ℕ)
    (cs cs' : List (Click L)) (hcs : ∀ c ∈ cs, Inv c.lhs ∧ ∃ v, C.val c.lhs = .fin v) (e : PyErr)
    (h : refineClicks C env (budget, cs) = ((b', cs'), .error e)) :
    List.Forall₂ (SameUpToInt C) cs cs' ∧
    (e = .keyboardInterrupt → ∀ roots, lastStage C env roots budget cs = (cs', .ok ())) := by
  constructor
  · have := refineLoop_all (C := C) (env := env) (R := SameUpToInt C)
      (fun c => ⟨⟨rfl, rfl, rfl, rfl⟩, fun v hv => .inl ⟨v, hv, UpToSignInt.refl v⟩⟩) cs budget ?_
    · rw [refineClicks] at h
      split at h
      · cases h
      · rename_i hl
        cases h
        rw [hl] at this
        exact this
    · intro c hc b
      obtain ⟨hi, v, hv⟩ := hcs c hc
      exact (refineOne_upToInt laws env ⟨b, c⟩ hi hv).1
  · rintro rfl roots
    rw [lastStage, h]

/-- The clicks of a run interrupted before the evaluation of the second click: the first one is already adjusted. -/
example : (lastStage ulcdClass (exRefine (-52348 / 10000) 3) (fun _ => []) (some 7)
      [⟨[[1]], [[1]], exUlcd (52348 / 10000), 0, none⟩, ⟨[[2]], [[1]], exUlcd (52348 / 10000), 0, none⟩]).2.toOption = some () ∧
    (lastStage ulcdClass (exRefine (-52348 / 10000) 3) (fun _ => []) (some 7)
      [⟨[[1]], [[1]], exUlcd (52348 / 10000), 0, none⟩, ⟨[[2]], [[1]], exUlcd (52348 / 10000), 0, none⟩]).1.map
        (fun c => (c.a, c.lhs.val)) = [([[1]], -52348 / 10000), ([[2]], 52348 / 10000)] :=
  ⟨by decide +kernel, by decide +kernel⟩

/-- The exception raised, if any. -/
def raised {α : Type} : Except PyErr α → Option PyErr
  | .error e => some e
  | .ok _ => none

/-- **C58 (violated).** Ctrl-C just before `add_int` is called: `main` ends with a RuntimeError (nothing is exported). -/
theorem C58_cancel_violated :
    raised (lastStage ulcdClass (exRefine (52348 / 10000) 3) (fun _ => []) (some 4)
      [⟨[[1]], [[1]], exUlcd (52348 / 10000), 0, none⟩]).2 = some .runtimeError := by
  decide +kernel

end PiCF
