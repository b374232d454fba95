import Verif.Model.Cancel
import Verif.Props.Monotone

/-!
# C137: a cancelled search loses no result
-/

namespace PiCF
open PiCF.Spec PiCF.Hashtable PiCF.Mitm PiCF.EnumPoly PiCF.Lhs PiCF.ContFrac

variable {L κ : Type}

/-! ### An interrupt that does not come changes nothing -/

/-- What returns normally with a pending interrupt does the same without. -/
def Erasable {α : Type} (m : PyM (RSt L) α) : Prop :=
  ∀ s s' a, m s = (s', .ok a) → m ⟨none, s.click⟩ = (⟨none, s'.click⟩, .ok a)

theorem Erasable.bind {α β : Type} {m : PyM (RSt L) α} {f : α → PyM (RSt L) β} (hm : Erasable m) (hf : ∀ a, Erasable (f a)) :
    Erasable (m >>= f) := by
  intro s s' b h
  obtain ⟨a, s1, h1, h2⟩ := bind_ok_inv h
  rw [PyM.bind_ok (hm _ _ _ h1)]
  exact hf a _ _ _ h2

theorem Erasable.pure {α : Type} (a : α) : Erasable (Pure.pure a : PyM (RSt L) α) := by
  intro s s' a h; cases h; rfl

theorem Erasable.raise {α : Type} (e : PyErr) : Erasable (PyM.raise e : PyM (RSt L) α) := by
  intro s s' a h; cases h

theorem Erasable.tick : Erasable (tick : PyM (RSt L) Unit) := by
  rintro ⟨_ | _ | n, c⟩ s' a h <;> cases h <;> rfl

theorem Erasable.lift {α : Type} (x : Except PyErr α) : Erasable (Mitm.lift x : PyM (RSt L) α) := by
  cases x
  · exact .raise _
  · exact .pure _

theorem Erasable.onLhs {α : Type} (m : PyM L α) : Erasable (Mitm.onLhs m) := by
  intro s s' a h
  rw [Mitm.onLhs] at h ⊢
  rcases e : m s.click.lhs with ⟨l, r⟩
  rw [e] at h
  dsimp only at h ⊢
  obtain ⟨rfl, rfl⟩ := Prod.mk.inj h
  rfl

theorem Erasable.asRuntimeError {α : Type} (x : Except PyErr ℤ) {m : PyM (RSt L) α} (hm : Erasable m) : Erasable (Mitm.asRuntimeError x m) := by
  intro s s' a h
  rw [Mitm.asRuntimeError] at h ⊢
  rcases e : m s with ⟨s1, err | b⟩
  · rw [e] at h
    dsimp only at h
    split at h <;> cases h
  · rw [e] at h
    cases h
    rw [hm _ _ _ e]

theorem Erasable.adjust (C : LhsClass L) (x y : Num) : Erasable (Mitm.adjust C x y) := by
  rw [Mitm.adjust]
  refine .bind .tick fun _ => .bind ?_ fun _ => .bind .tick fun _ => .bind (.asRuntimeError _ ?_) fun _ =>
    .bind .tick fun _ => .bind (.onLhs _) fun _ => .tick
  · rw [flipIf]
    split
    · exact .onLhs _
    · exact .pure _
  · rw [addDifference]
    exact .bind .tick fun _ => .bind (.lift _) fun _ => .onLhs _

theorem Erasable.refineOne (C : LhsClass L) (env : RefineEnv) : Erasable (Mitm.refineOne C env) := by
  rw [Mitm.refineOne]
  refine .bind .tick fun _ => ?_
  intro s s' a h
  obtain ⟨s0, s1, h1, h2⟩ := bind_ok_inv h
  cases h1
  rw [PyM.bind_ok (show PyM.get (⟨none, s.click⟩ : RSt L) = (⟨none, s.click⟩, .ok ⟨none, s.click⟩) from rfl)]
  refine (?_ : Erasable _) s s' a h2
  dsimp only
  split
  · exact .pure _
  · exact .raise _
  · refine .bind .tick fun _ => ?_
    split
    · refine .bind (.lift _) fun _ => .bind (.lift _) fun _ => .bind (.lift _) fun _ => ?_
      split
      · exact .bind (.adjust _ _ _) fun _ => .pure _
      · exact .pure _
    · exact .pure _

theorem refineLoop_erase {C : LhsClass L} {env : RefineEnv} : ∀ (cs : List (Click L)) (b b' : Option ℕ) (all kept : List (Click L)),
    refineLoop C env b cs = (b', all, kept, .ok ()) → refineLoop C env none cs = (none, all, kept, .ok ())
  | [], b, b', all, kept, h => by cases h; rfl
  | c :: cs, b, b', all, kept, h => by
    rw [refineLoop] at h ⊢
    rcases e : refineOne C env ⟨b, c⟩ with ⟨s, err | keep⟩
    · rw [e] at h; cases h
    · rw [e] at h
      dsimp only at h
      rcases e2 : refineLoop C env s.budget cs with ⟨b2, all2, kept2, r⟩
      rw [e2] at h
      cases h
      rw [Erasable.refineOne C env _ _ _ e]
      dsimp only
      rw [refineLoop_erase cs _ _ _ _ e2]

theorem refineClicks_erase {C : LhsClass L} {env : RefineEnv} {cs kept : List (Click L)} {b b' : Option ℕ}
    (h : refineClicks C env (b, cs) = ((b', kept), .ok ())) : refineClicks C env (none, cs) = ((none, kept), .ok ()) := by
  rw [refineClicks] at h ⊢
  split at h
  · rename_i hl
    cases h
    dsimp only at hl ⊢
    rw [refineLoop_erase _ _ _ _ _ hl]
  · cases h

theorem uniqInnerB_erase {C : LhsClass L} : ∀ (us : List (Click L × Bool)) (p : Click L) (b b' : Option ℕ) (us' : List (Click L × Bool)) (p' : Click L)
    (x : Bool), uniqInnerB C b us p = (b', us', p', .ok x) → uniqInner C us p = (us', p', .ok x)
  | [], p, b, b', us', p', x, h => by cases h; rfl
  | (u, false) :: us, p, b, b', us', p', x, h => by
    rw [uniqInnerB] at h
    rcases e : uniqInnerB C b us p with ⟨b1, us1, p1, r⟩
    rw [e] at h
    cases h
    rw [uniqInner, uniqInnerB_erase us p _ _ _ _ _ e]
  | (u, true) :: us, p, b, b', us', p', x, h => by
    rw [uniqInnerB] at h
    rcases hs : step b with _ | b1
    · rw [hs] at h; cases h
    rw [hs] at h
    dsimp only at h
    rw [uniqInner]
    rcases he : C.equiv u p with ⟨l, l', err | _ | _⟩
    · rw [he] at h; cases h
    · rw [he] at h
      dsimp only at h ⊢
      rcases e : uniqInnerB C b1 us { p with lhs := l' } with ⟨b2, us1, p1, r⟩
      rw [e] at h
      cases h
      rw [uniqInnerB_erase us _ _ _ _ _ _ e]
    · rw [he] at h; cases h; rfl

theorem uniqLoopB_erase {C : LhsClass L} : ∀ (ps : List (Click L)) (done : List (Click L × Bool)) (b b' : Option ℕ) (done' : List (Click L × Bool))
    (rest : List (Click L)), uniqLoopB C b done ps = (b', done', rest, .ok ()) → uniqLoop C done ps = (done', rest, .ok ())
  | [], done, b, b', done', rest, h => by cases h; rfl
  | p :: ps, done, b, b', done', rest, h => by
    rw [uniqLoopB] at h
    rcases hs : step b with _ | b1
    · rw [hs] at h; cases h
    rw [hs] at h
    dsimp only at h
    rw [uniqLoop]
    rcases e : uniqInnerB C b1 done p with ⟨b2, done1, p1, err | x⟩
    · rw [e] at h; cases h
    · rw [e] at h
      rw [uniqInnerB_erase _ _ _ _ _ _ _ e]
      exact uniqLoopB_erase ps _ _ _ _ _ h

theorem filterUniqB_erase {C : LhsClass L} {cs cs' : List (Click L)} {b b' : Option ℕ} (h : filterUniqB C (b, cs) = ((b', cs'), .ok ())) :
    filterUniq C cs = (cs', .ok ()) := by
  rw [filterUniqB] at h
  rcases e : uniqLoopB C b [] cs with ⟨b1, done, rest, err | u⟩
  · rw [e] at h; cases h
  · rw [e] at h
    cases h
    rw [filterUniq, uniqLoopB_erase _ _ _ _ _ _ e]

/-! ### What an interrupt leaves -/

/-- The same continued fraction, function and convergence, and the same value up to sign and an integer. -/
structure Spec.SameResult (C : LhsClass L) (c c' : Click L) : Prop where
  a : c'.a = c.a
  b : c'.b = c.b
  post : c'.post = c.post
  conv : c'.conv = c.conv
  val : ∃ v v', C.val c.lhs = .fin v ∧ C.val c'.lhs = .fin v' ∧ ∃ n : ℤ, v' = v + n ∨ v' = -v + n

/-- The relation between the clicks before and after a step. -/
def Later (C : LhsClass L) (Inv : L → Prop) (c c' : Click L) : Prop :=
  Inv c.lhs → Inv c'.lhs ∧ SameResult C c c'

theorem _root_.PiCF.Spec.SameResult.trans {C : LhsClass L} {c c' c'' : Click L} (h : SameResult C c c') (h' : SameResult C c' c'') : SameResult C c c'' := by
  obtain ⟨h1, h2, h3, h4, v, v', hv, hv', hu⟩ := h
  obtain ⟨k1, k2, k3, k4, w, w', hw, hw', hu'⟩ := h'
  rw [hv'] at hw
  cases hw
  exact ⟨k1.trans h1, k2.trans h2, k3.trans h3, k4.trans h4, v, w', hv, hw', UpToSignInt.trans hu hu'⟩

theorem _root_.PiCF.Spec.SameResult.symm {C : LhsClass L} {c c' : Click L} (h : SameResult C c c') : SameResult C c' c := by
  obtain ⟨h1, h2, h3, h4, v, v', hv, hv', n, hn⟩ := h
  refine ⟨h1.symm, h2.symm, h3.symm, h4.symm, v', v, hv', hv, ?_⟩
  rcases hn with rfl | rfl
  · exact ⟨-n, .inl (by push_cast; ring)⟩
  · exact ⟨n, .inr (by ring)⟩

theorem Later.trans {C : LhsClass L} {Inv : L → Prop} {c c' c'' : Click L} (h : Later C Inv c c') (h' : Later C Inv c' c'') :
    Later C Inv c c'' := fun hi => ⟨(h' (h hi).1).1, (h hi).2.trans (h' (h hi).1).2⟩

theorem later_refl {C : LhsClass L} {Inv : L → Prop} {key : Click L → κ} {out : κ → κ → Except PyErr Bool} (laws : SearchLaws C Inv key out)
    (c : Click L) : Later C Inv c c := by
  intro hi
  obtain ⟨v, hv⟩ := laws.finite _ hi
  exact ⟨hi, rfl, rfl, rfl, rfl, v, v, hv, hv, 0, .inl (by simp)⟩

theorem later_refineOne {C : LhsClass L} {Inv : L → Prop} {key : Click L → κ} {out : κ → κ → Except PyErr Bool} (laws : SearchLaws C Inv key out)
    (env : RefineEnv) (b : Option ℕ) (c : Click L) : Later C Inv c (refineOne C env ⟨b, c⟩).1.click := by
  intro hi
  obtain ⟨v, hv⟩ := laws.finite _ hi
  obtain ⟨⟨⟨h1, h2, h3, h4⟩, hval⟩, hi'⟩ := refineOne_upToInt laws.lhs env ⟨b, c⟩ hi hv
  obtain ⟨v', hv'⟩ := laws.finite _ hi'
  rcases hval v hv with ⟨v2, hv2, hu2⟩ | ⟨hn, -⟩
  · exact ⟨hi', h1, h2, h3, h4, v, v2, hv, hv2, hu2⟩
  · rw [hv'] at hn; cases hn

theorem later_kept {C : LhsClass L} {Inv : L → Prop} {key : Click L → κ} {out : κ → κ → Except PyErr Bool} (laws : SearchLaws C Inv key out)
    {env : RefineEnv} {b b' : Option ℕ} {cs kept : List (Click L)} (h : refineClicks C env (b, cs) = ((b', kept), .ok ())) :
    ∀ c' ∈ kept, ∃ c ∈ cs, Later C Inv c c' := by
  intro c' hc'
  obtain ⟨c, hc, b1, s, e, rfl⟩ := refineClicks_mem h c' hc'
  have := later_refineOne laws env b1 c
  rw [e] at this
  exact ⟨c, hc, this⟩

theorem later_interrupted {C : LhsClass L} {Inv : L → Prop} {key : Click L → κ} {out : κ → κ → Except PyErr Bool} (laws : SearchLaws C Inv key out)
    {env : RefineEnv} {b b' : Option ℕ} {cs cs' : List (Click L)} {e : PyErr} (h : refineClicks C env (b, cs) = ((b', cs'), .error e)) :
    List.Forall₂ (Later C Inv) cs cs' := by
  have := refineLoop_all (C := C) (env := env) (R := Later C Inv) (later_refl laws) cs b fun c _ b => later_refineOne laws env b c
  rw [refineClicks] at h
  split at h
  · cases h
  · rename_i hl
    cases h
    rw [hl] at this
    exact this

/-- The same, with the flags of the loop. -/
def LaterFlag (C : LhsClass L) (Inv : L → Prop) (x y : Click L × Bool) : Prop := Later C Inv x.1 y.1

theorem later_equiv {C : LhsClass L} {Inv : L → Prop} {key : Click L → κ} {out : κ → κ → Except PyErr Bool} (laws : SearchLaws C Inv key out)
    {u p : Click L} {l l' : L} {r : Except PyErr Bool} (hu : Inv u.lhs) (hp : Inv p.lhs) (h : C.equiv u p = (l, l', r)) :
    Later C Inv u { u with lhs := l } ∧ Later C Inv p { p with lhs := l' } := by
  obtain ⟨l1, l1', e, i, i', k, k'⟩ := laws.equiv.run u p hu hp
  rw [e] at h
  cases h
  obtain ⟨v, hv⟩ := laws.finite _ hu
  obtain ⟨w, hw⟩ := laws.finite _ hp
  have k := congrArg Prod.snd k
  have k' := congrArg Prod.snd k'
  exact ⟨fun _ => ⟨i, rfl, rfl, rfl, rfl, v, v, hv, k.trans hv, 0, .inl (by simp)⟩,
    fun _ => ⟨i', rfl, rfl, rfl, rfl, w, w, hw, k'.trans hw, 0, .inl (by simp)⟩⟩

theorem later_inner {C : LhsClass L} {Inv : L → Prop} {key : Click L → κ} {out : κ → κ → Except PyErr Bool} (laws : SearchLaws C Inv key out) :
    ∀ (us : List (Click L × Bool)) (p : Click L) (b : Option ℕ), (∀ x ∈ us, Inv x.1.lhs) → Inv p.lhs →
      List.Forall₂ (LaterFlag C Inv) us (uniqInnerB C b us p).2.1 ∧ Later C Inv p (uniqInnerB C b us p).2.2.1
  | [], p, b, _, _ => ⟨.nil, later_refl laws p⟩
  | (u, false) :: us, p, b, hus, hp => by
    obtain ⟨h1, h2⟩ := later_inner laws us p b (fun x hx => hus x (List.mem_cons_of_mem _ hx)) hp
    rw [uniqInnerB]
    exact ⟨.cons (later_refl laws u) h1, h2⟩
  | (u, true) :: us, p, b, hus, hp => by
    have hsame : List.Forall₂ (LaterFlag C Inv) us us := List.forall₂_same.2 fun x _ => later_refl laws x.1
    rw [uniqInnerB]
    rcases hs : step b with _ | b1
    · exact ⟨.cons (later_refl laws u) hsame, later_refl laws p⟩
    rcases he : C.equiv u p with ⟨l, l', err | _ | _⟩
    · obtain ⟨h1, h2⟩ := later_equiv laws (hus _ List.mem_cons_self) hp he
      exact ⟨.cons h1 hsame, h2⟩
    · obtain ⟨h1, h2⟩ := later_equiv laws (hus _ List.mem_cons_self) hp he
      obtain ⟨h3, h4⟩ := later_inner laws us { p with lhs := l' } b1 (fun x hx => hus x (List.mem_cons_of_mem _ hx)) (h2 hp).1
      exact ⟨.cons h1 h3, h2.trans h4⟩
    · obtain ⟨h1, h2⟩ := later_equiv laws (hus _ List.mem_cons_self) hp he
      exact ⟨.cons h1 hsame, h2⟩

theorem later_loop {C : LhsClass L} {Inv : L → Prop} {key : Click L → κ} {out : κ → κ → Except PyErr Bool} (laws : SearchLaws C Inv key out) :
    ∀ (ps : List (Click L)) (done : List (Click L × Bool)) (b : Option ℕ), (∀ x ∈ done, Inv x.1.lhs) → (∀ p ∈ ps, Inv p.lhs) →
      List.Forall₂ (Later C Inv) (done.map (·.1) ++ ps) ((uniqLoopB C b done ps).2.1.map (·.1) ++ (uniqLoopB C b done ps).2.2.1)
  | [], done, b, _, _ => List.forall₂_same.2 fun c _ => later_refl laws c
  | p :: ps, done, b, hd, hps => by
    rw [uniqLoopB]
    rcases hs : step b with _ | b1
    · exact List.forall₂_same.2 fun c _ => later_refl laws c
    obtain ⟨h1, h2⟩ := later_inner laws done p b1 hd (hps p List.mem_cons_self)
    have hmap : ∀ {xs ys : List (Click L × Bool)}, List.Forall₂ (LaterFlag C Inv) xs ys →
        List.Forall₂ (Later C Inv) (xs.map (·.1)) (ys.map (·.1)) := by
      intro xs ys h
      exact List.forall₂_map_left_iff.2 (List.forall₂_map_right_iff.2 h)
    have hinv : ∀ {xs ys : List (Click L × Bool)}, List.Forall₂ (LaterFlag C Inv) xs ys → (∀ x ∈ xs, Inv x.1.lhs) → ∀ y ∈ ys, Inv y.1.lhs := by
      intro xs ys h hx y hy
      obtain ⟨x, hxm, hr⟩ := forall₂_mem_right h hy
      exact (hr (hx x hxm)).1
    have hsame : List.Forall₂ (Later C Inv) ps ps := List.forall₂_same.2 fun c _ => later_refl laws c
    dsimp only
    rcases e : uniqInnerB C b1 done p with ⟨b2, done1, p1, err | x⟩
    · rw [e] at h1 h2
      exact List.rel_append (hmap h1) (.cons h2 hsame)
    · rw [e] at h1 h2
      have ih := later_loop laws ps (done1 ++ [(p1, x)]) b2
        (by
          intro y hy
          rcases List.mem_append.1 hy with hy | hy
          · exact hinv h1 hd y hy
          · rw [List.mem_singleton.1 hy]
            exact (h2 (hps p List.mem_cons_self)).1)
        fun q hq => hps q (List.mem_cons_of_mem _ hq)
      dsimp only
      have h0 : List.Forall₂ (Later C Inv) (done.map (·.1) ++ p :: ps) ((done1 ++ [(p1, x)]).map (·.1) ++ ps) := by
        rw [List.map_append, List.append_assoc]
        exact List.rel_append (hmap h1) (.cons h2 hsame)
      exact forall₂_trans_later h0 ih
where
  forall₂_trans_later {C : LhsClass L} {Inv : L → Prop} : ∀ {xs ys zs : List (Click L)}, List.Forall₂ (Later C Inv) xs ys →
      List.Forall₂ (Later C Inv) ys zs → List.Forall₂ (Later C Inv) xs zs
    | _, _, _, .nil, .nil => .nil
    | _, _, _, .cons h hs, .cons k ks => .cons (h.trans k) (forall₂_trans_later hs ks)

theorem later_uniq_interrupted {C : LhsClass L} {Inv : L → Prop} {key : Click L → κ} {out : κ → κ → Except PyErr Bool}
    (laws : SearchLaws C Inv key out) {b b' : Option ℕ} {cs cs' : List (Click L)} {e : PyErr} (hcs : ∀ c ∈ cs, Inv c.lhs)
    (h : filterUniqB C (b, cs) = ((b', cs'), .error e)) : List.Forall₂ (Later C Inv) cs cs' := by
  have := later_loop laws cs [] b (by simp) hcs
  rw [filterUniqB] at h
  rcases hl : uniqLoopB C b [] cs with ⟨b1, done, rest, err | u⟩
  · rw [hl] at h this
    cases h
    exact this
  · rw [hl] at h; cases h

theorem later_uniq {C : LhsClass L} {Inv : L → Prop} {key : Click L → κ} {out : κ → κ → Except PyErr Bool}
    (laws : SearchLaws C Inv key out) {cs cs' : List (Click L)} (hcs : ∀ c ∈ cs, Inv c.lhs) (h : filterUniq C cs = (cs', .ok ())) :
    ∀ c' ∈ cs', ∃ c ∈ cs, Later C Inv c c' := by
  intro c' hc'
  obtain ⟨c, hc, ⟨e1, e2, e3, e4⟩, hval, -, hinv⟩ := (filterUniq_known laws hcs h).1 c' hc'
  refine ⟨c, hc, fun hi => ?_⟩
  obtain ⟨v, hv⟩ := laws.finite _ hi
  exact ⟨hinv hi, e1, e2, e3, e4, v, v, hv, hval.trans hv, 0, .inl (by simp)⟩

/-- A click that has passed the tests before the last stage. -/
theorem track_first {C : LhsClass L} {Inv : L → Prop} {key : Click L → κ} {out : κ → κ → Except PyErr Bool}
    (laws : SearchLaws C Inv key out) {E : SearchEnv L} (hos : ∀ o ∈ E.gen.1, Inv o) (htr : E.trunc = true) {old cs : List (Click L)}
    (h : searchFirst C E old = (cs, .ok ())) : ∀ c ∈ cs, Track C Inv E (fun k a b p t => (Agrees E.refine1 a b p k none ∧ E.fast a b = .ok true ∧
      ∃ t', E.estimate a b = .ok t' ∧ (t'.1 = .exp ∨ t'.1 = .superExp) ∧ t = some t') ∧ Agrees E.refine2 a b p k t) c := by
  rw [searchFirst] at h
  obtain ⟨_, cs1, h1, h⟩ := bind_ok_inv h
  obtain ⟨_, cs2, h2, h⟩ := bind_ok_inv h
  obtain ⟨_, cs3, h3, h⟩ := bind_ok_inv h
  obtain ⟨_, cs4, h4, h⟩ := bind_ok_inv h
  obtain ⟨_, cs5, h5, h⟩ := bind_ok_inv h
  have k1 := track_find laws hos h1
  obtain ⟨b2, h2⟩ := refineAll_ok h2
  have k3 := track_uniq laws (track_refine laws (env := E.refine1) htr k1 h2) h3
  obtain ⟨b6, h⟩ := refineAll_ok h
  refine track_refine laws (env := E.refine2) htr ?_ h
  intro c hc
  obtain ⟨c0, hc0, t, ht, hw, rfl⟩ := filterByApproach_mem h5 c hc
  obtain ⟨hm, hf⟩ := filterExp_mem h4 c0 hc0
  obtain ⟨hi, o, w, v, hfo, hv, hk, hQ, hA⟩ := k3 c0 hm
  rw [hQ] at hA
  exact ⟨hi, o, w, v, hfo.same rfl rfl rfl, hv, hk, hA, hf, t, ht, by simpa using hw, rfl⟩

theorem roots_later {C : LhsClass L} {Inv : L → Prop} {key : Click L → κ} {out : κ → κ → Except PyErr Bool} (laws : SearchLaws C Inv key out)
    {roots : List ℤ → List (ℚ × ℚ)} {b b' : Option ℕ} {cs cs' : List (Click L)}
    (h : filterRootsB roots (b, cs) = ((b', cs'), .ok ())) : ∀ z ∈ cs', ∃ x ∈ cs, Later C Inv x z := by
  rw [filterRootsB] at h
  intro z hz
  rcases hs : step b with _ | b4
  · simp only [hs] at h; cases h
  · simp only [hs, filterPosIntRoots] at h
    obtain rfl : (filterPosIntRoots roots cs).1 = cs' := congrArg (fun x => x.1.2) h
    exact ⟨z, (filterPosIntRoots_mem (roots := roots) (cs := cs) (r := .ok ()) rfl).1.subset hz, later_refl laws z⟩

/-- What the last stage leaves, whenever it ends normally: without an interrupt everything comes from a click before it; with an interrupt every
click that the complete stage would have left is still there. -/
theorem lastStageB_later {C : LhsClass L} {Inv : L → Prop} {key : Click L → κ} {out : κ → κ → Except PyErr Bool}
    (laws : SearchLaws C Inv key out) {env : RefineEnv} {roots : List ℤ → List (ℚ × ℚ)} {budget : Option ℕ} {cs cs' : List (Click L)}
    (hcs : ∀ c ∈ cs, Inv c.lhs) (h : lastStageB C env roots budget cs = (cs', .ok ())) :
    (∀ c' ∈ cs', ∃ c ∈ cs, Later C Inv c c') ∧
    ∀ full, lastBody C env roots (none, cs) = ((none, full), .ok ()) → ∀ f ∈ full, ∃ c' ∈ cs', SameResult C f c' := by
  have all : ∀ {xs ys : List (Click L)}, List.Forall₂ (Later C Inv) xs ys → ∀ y ∈ ys, ∃ x ∈ xs, Later C Inv x y :=
    fun h y hy => forall₂_mem_right h hy
  have back : ∀ {xs ys zs : List (Click L)}, (∀ x ∈ xs, Inv x.lhs) → List.Forall₂ (Later C Inv) xs ys → (∀ z ∈ zs, ∃ x ∈ xs, Later C Inv x z) →
      ∀ z ∈ zs, ∃ y ∈ ys, SameResult C z y := by
    intro xs ys zs hx h hz z hm
    obtain ⟨x, hxm, hl⟩ := hz z hm
    obtain ⟨y, hy, hl'⟩ := forall₂_mem_right h.flip hxm
    exact ⟨y, hy, (hl (hx x hxm)).2.symm.trans (hl' (hx x hxm)).2⟩
  have inv : ∀ {xs ys : List (Click L)}, (∀ x ∈ xs, Inv x.lhs) → (∀ y ∈ ys, ∃ x ∈ xs, Later C Inv x y) → ∀ y ∈ ys, Inv y.lhs := by
    intro xs ys hx h y hy
    obtain ⟨x, hxm, hl⟩ := h y hy
    exact (hl (hx x hxm)).1
  have comp : ∀ {xs ys zs : List (Click L)}, (∀ y ∈ ys, ∃ x ∈ xs, Later C Inv x y) → (∀ z ∈ zs, ∃ y ∈ ys, Later C Inv y z) →
      ∀ z ∈ zs, ∃ x ∈ xs, Later C Inv x z := by
    intro xs ys zs h h' z hz
    obtain ⟨y, hy, k'⟩ := h' z hz
    obtain ⟨x, hx, k⟩ := h y hy
    exact ⟨x, hx, k.trans k'⟩
  rw [lastStageB] at h
  simp only [lastBody] at h ⊢
  rcases e1 : refineClicks C env (budget, cs) with ⟨⟨b1, cs1⟩, err | u⟩
  · -- interrupted in the refinement
    rw [PyM.bind_error e1] at h
    have hcs' : cs1 = cs' := by cases err <;> cases h; rfl
    subst hcs'
    have hf := later_interrupted laws e1
    refine ⟨all hf, fun full hfull => ?_⟩
    obtain ⟨_, ⟨b7, cs7⟩, h7, hfull⟩ := bind_ok_inv hfull
    obtain ⟨_, ⟨b8, cs8⟩, h8, hfull⟩ := bind_ok_inv hfull
    obtain ⟨_, ⟨b9, cs9⟩, h9, hfull⟩ := bind_ok_inv hfull
    have k7 := later_kept laws h7
    have k8 := later_uniq laws (inv hcs k7) (filterUniqB_erase h8)
    have k9 := later_uniq laws (inv (inv hcs k7) k8) (filterUniqB_erase h9)
    exact back hcs hf (comp k7 (comp k8 (comp k9 (roots_later laws hfull))))
  rw [PyM.bind_ok e1] at h
  have k1 := later_kept laws e1
  have i1 := inv hcs k1
  rcases e2 : filterUniqB C (b1, cs1) with ⟨⟨b2, cs2⟩, err | u⟩
  · -- interrupted in the first unique filter
    rw [PyM.bind_error e2] at h
    have hcs' : cs2 = cs' := by cases err <;> cases h; rfl
    subst hcs'
    have hf := later_uniq_interrupted laws i1 e2
    refine ⟨comp k1 (all hf), fun full hfull => ?_⟩
    rw [PyM.bind_ok (refineClicks_erase e1)] at hfull
    obtain ⟨_, ⟨b8, cs8⟩, h8, hfull⟩ := bind_ok_inv hfull
    obtain ⟨_, ⟨b9, cs9⟩, h9, hfull⟩ := bind_ok_inv hfull
    have k8 := later_uniq laws i1 (filterUniqB_erase h8)
    have k9 := later_uniq laws (inv i1 k8) (filterUniqB_erase h9)
    exact back i1 hf (comp k8 (comp k9 (roots_later laws hfull)))
  rw [PyM.bind_ok e2] at h
  have k2 := later_uniq laws i1 (filterUniqB_erase e2)
  have i2 := inv i1 k2
  have f2 : ∀ {b8 cs8}, filterUniqB C (none, cs1) = ((b8, cs8), .ok ()) → cs8 = cs2 := by
    intro b8 cs8 h8
    have := (filterUniqB_erase h8).symm.trans (filterUniqB_erase e2)
    exact (Prod.mk.inj this).1
  rcases e3 : filterUniqB C (b2, cs2) with ⟨⟨b3, cs3⟩, err | u⟩
  · -- interrupted in the second one
    rw [PyM.bind_error e3] at h
    have hcs' : cs3 = cs' := by cases err <;> cases h; rfl
    subst hcs'
    have hf := later_uniq_interrupted laws i2 e3
    refine ⟨comp k1 (comp k2 (all hf)), fun full hfull => ?_⟩
    rw [PyM.bind_ok (refineClicks_erase e1)] at hfull
    obtain ⟨_, ⟨b8, cs8⟩, h8, hfull⟩ := bind_ok_inv hfull
    obtain rfl := f2 h8
    obtain ⟨_, ⟨b9, cs9⟩, h9, hfull⟩ := bind_ok_inv hfull
    have k9 := later_uniq laws i2 (filterUniqB_erase h9)
    exact back i2 hf (comp k9 (roots_later laws hfull))
  rw [PyM.bind_ok e3] at h
  have k3 := later_uniq laws i2 (filterUniqB_erase e3)
  have i3 := inv i2 k3
  -- interrupted in the last filter, or not at all
  have h4 : cs' = cs3 ∨ cs' = (filterPosIntRoots roots cs3).1 := by
    rw [filterRootsB] at h
    rcases hs : step b3 with _ | b4
    · simp only [hs] at h
      exact .inl (Prod.mk.inj h).1.symm
    · simp only [hs, filterPosIntRoots] at h
      exact .inr (Prod.mk.inj h).1.symm
  have k4 : ∀ c' ∈ cs', ∃ c ∈ cs3, Later C Inv c c' := by
    intro c' hc'
    rcases h4 with rfl | rfl
    · exact ⟨c', hc', later_refl laws c'⟩
    · exact ⟨c', (filterPosIntRoots_mem (roots := roots) (cs := cs3) (r := .ok ()) rfl).1.subset hc', later_refl laws c'⟩
  refine ⟨comp k1 (comp k2 (comp k3 k4)), fun full hfull => ?_⟩
  rw [PyM.bind_ok (refineClicks_erase e1)] at hfull
  obtain ⟨_, ⟨b8, cs8⟩, h8, hfull⟩ := bind_ok_inv hfull
  obtain rfl := f2 h8
  obtain ⟨_, ⟨b9, cs9⟩, h9, hfull⟩ := bind_ok_inv hfull
  obtain rfl : cs9 = cs3 := (Prod.mk.inj ((filterUniqB_erase h9).symm.trans (filterUniqB_erase e3))).1
  intro f hf
  have hfull' : full = (filterPosIntRoots roots cs9).1 := by
    rw [filterRootsB] at hfull
    rcases hs : step b9 with _ | b4
    · simp only [hs] at hfull; cases hfull
    · simp only [hs, filterPosIntRoots] at hfull
      exact (congrArg (fun x => x.1.2) hfull).symm
  subst hfull'
  have hm := (filterPosIntRoots_mem (roots := roots) (cs := cs9) (r := .ok ()) rfl).1.subset hf
  rcases h4 with rfl | rfl
  · exact ⟨f, hm, (later_refl laws f (i3 f hm)).2⟩
  · exact ⟨f, hf, (later_refl laws f (i3 f hm)).2⟩

/-! ### The search -/

theorem uniqInnerB_none (C : LhsClass L) : ∀ (us : List (Click L × Bool)) (p : Click L), uniqInnerB C none us p = (none, uniqInner C us p)
  | [], p => rfl
  | (u, false) :: us, p => by rw [uniqInnerB, uniqInner, uniqInnerB_none C us p]
  | (u, true) :: us, p => by
    rw [uniqInnerB, uniqInner]
    simp only [step]
    rcases C.equiv u p with ⟨l, l', err | _ | _⟩
    · rfl
    · dsimp only
      rw [uniqInnerB_none C us]
    · rfl

theorem uniqLoopB_none (C : LhsClass L) : ∀ (ps : List (Click L)) (done : List (Click L × Bool)),
    uniqLoopB C none done ps = (none, uniqLoop C done ps)
  | [], done => rfl
  | p :: ps, done => by
    rw [uniqLoopB, uniqLoop]
    simp only [step, uniqInnerB_none]
    rcases uniqInner C done p with ⟨done', p', err | x⟩
    · rfl
    · exact uniqLoopB_none C ps _

theorem filterUniqB_none (C : LhsClass L) (cs : List (Click L)) :
    filterUniqB C (none, cs) = ((none, (filterUniq C cs).1), (filterUniq C cs).2) := by
  rw [filterUniqB, filterUniq]
  simp only [uniqLoopB_none]
  rcases uniqLoop C [] cs with ⟨done, rest, err | u⟩ <;> rfl

theorem refineLoop_budget {C : LhsClass L} {env : RefineEnv} {cs kept : List (Click L)} {b' : Option ℕ}
    (h : refineClicks C env (none, cs) = ((b', kept), .ok ())) : b' = none := by
  rw [refineClicks_erase h] at h
  cases h
  rfl

theorem bind_assoc_py {σ α β γ : Type} (m : PyM σ α) (f : α → PyM σ β) (g : β → PyM σ γ) :
    (m.bind f).bind g = m.bind fun a => (f a).bind g := by
  funext s
  rw [PyM.bind, PyM.bind, PyM.bind]
  rcases m s with ⟨s', e | a⟩ <;> rfl

/-- **C137 (no interrupt).** A search that is not interrupted is the search of C93 and C136: the interrupts considered here are the only
difference. -/
theorem C137_uninterrupted (C : LhsClass L) (E : SearchEnv L) (old : List (Click L)) : searchB C E none old = search C E none old := by
  have hlast : lastStageB C E.refine3 E.roots none = lastStage C E.refine3 E.roots none := by
    funext cs
    rw [lastStageB, lastStage]
    simp only [lastBody]
    rcases e1 : refineClicks C E.refine3 (none, cs) with ⟨⟨b1, cs1⟩, err | u⟩
    · rw [PyM.bind_error e1]
      cases err <;> rfl
    obtain rfl := refineLoop_budget e1
    rw [PyM.bind_ok e1]
    dsimp only
    rcases e2 : filterUniq C cs1 with ⟨cs2, err | u⟩
    · have e2' := filterUniqB_none C cs1
      rw [e2] at e2'
      rw [PyM.bind_error e2, PyM.bind_error e2']
      cases err <;> rfl
    have e2' := filterUniqB_none C cs1
    rw [e2] at e2'
    rw [PyM.bind_ok e2, PyM.bind_ok e2']
    rcases e3 : filterUniq C cs2 with ⟨cs3, err | u⟩
    · have e3' := filterUniqB_none C cs2
      rw [e3] at e3'
      rw [PyM.bind_error e3, PyM.bind_error e3']
      cases err <;> rfl
    have e3' := filterUniqB_none C cs2
    rw [e3] at e3'
    rw [PyM.bind_ok e3, PyM.bind_ok e3']
    rfl
  rw [searchB, hlast, search, searchFirst]
  show PyM.bind _ _ old = PyM.bind _ _ old
  simp only [Bind.bind, bind_assoc_py]

/-- The complete search ends the last stage normally. -/
theorem search_split {C : LhsClass L} {Inv : L → Prop} {key : Click L → κ} {out : κ → κ → Except PyErr Bool}
    (laws : SearchLaws C Inv key out) (hout : ∀ k k', out k k' ≠ .error .keyboardInterrupt) {E : SearchEnv L}
    (hn : NoInterrupt E.refine3) (hos : ∀ o ∈ E.gen.1, Inv o) (htr : E.trunc = true) {old cs : List (Click L)}
    (h : search C E none old = (cs, .ok ())) :
    ∃ cs6, searchFirst C E old = (cs6, .ok ()) ∧ lastBody C E.refine3 E.roots (none, cs6) = ((none, cs), .ok ()) := by
  rw [← C137_uninterrupted, searchB] at h
  obtain ⟨_, cs6, h6, h⟩ := bind_ok_inv h
  refine ⟨cs6, h6, ?_⟩
  have k6 := track_first laws hos htr h6
  rw [lastStageB] at h
  simp only [lastBody] at h ⊢
  have n7 := refineClicks_calm laws.lhs hn fun c hc => (k6 c hc).1
  rcases e7 : refineClicks C E.refine3 (none, cs6) with ⟨⟨b7, cs7⟩, err | u⟩
  · rw [e7] at n7
    rw [PyM.bind_error e7] at h
    cases err <;> first | exact absurd rfl n7 | cases h
  obtain rfl := refineLoop_budget e7
  rw [PyM.bind_ok e7] at h ⊢
  have k7 := track_refine laws (env := E.refine3) htr k6 e7
  have n8 := filterUniq_calm laws.equiv (fun k k' => hout k.1 k'.1) fun c hc => (k7 c hc).1
  rcases e8 : filterUniqB C (none, cs7) with ⟨⟨b8, cs8⟩, err | u⟩
  · rw [PyM.bind_error e8] at h
    rw [filterUniqB_none] at e8
    rw [(Prod.mk.inj e8).2] at n8
    cases err <;> first | exact absurd rfl n8 | cases h
  rw [PyM.bind_ok e8] at h ⊢
  have k8 := track_uniq laws k7 (filterUniqB_erase e8)
  rw [filterUniqB_none] at e8
  obtain rfl : none = b8 := congrArg (fun x => x.1.1) e8
  have n9 := filterUniq_calm laws.equiv (fun k k' => hout k.1 k'.1) fun c hc => (k8 c hc).1
  rcases e9 : filterUniqB C (none, cs8) with ⟨⟨b9, cs9⟩, err | u⟩
  · rw [PyM.bind_error e9] at h
    rw [filterUniqB_none] at e9
    rw [(Prod.mk.inj e9).2] at n9
    cases err <;> first | exact absurd rfl n9 | cases h
  rw [PyM.bind_ok e9] at h ⊢
  rw [filterUniqB_none] at e9
  obtain rfl : none = b9 := congrArg (fun x => x.1.1) e9
  simp only [filterRootsB, step, filterPosIntRoots] at h ⊢
  rw [(Prod.mk.inj h).1]

/-- The continued fraction has passed the tests before the last stage: as `Passes` without the last refinement and the test of the roots. -/
structure Spec.PassesEarly (C : LhsClass L) (E : SearchEnv L) (a b : Polys) (post : ℕ) (k : ℚ) (t : Conv) : Prop where
  found : ∃ o ∈ E.gen.1, ∃ w s es, C.val o = .fin w ∧ Int.fract |w| = k ∧ (C.isDegenerate o).2 = .ok false ∧
    E.eng (.fin k) = .ok s ∧ stored E.table s = some (.list es) ∧ ((a, b), post) ∈ es
  refine1 : Agrees E.refine1 a b post k none
  fast : E.fast a b = .ok true
  estimate : E.estimate a b = .ok t
  type : t.1 = .exp ∨ t.1 = .superExp
  refine2 : Agrees E.refine2 a b post k (some t)

/-- **C137.** Ctrl-C at any point of the last stage of a search, if the run ends normally: every result of the complete search is
reported, with the same continued fraction, function and convergence, and an LHS of the same value up to sign and an integer. -/
theorem C137_cancelled {C : LhsClass L} {Inv : L → Prop} {key : Click L → κ} {out : κ → κ → Except PyErr Bool}
    (laws : SearchLaws C Inv key out) (hout : ∀ k k', out k k' ≠ .error .keyboardInterrupt) {E : SearchEnv L}
    (hn : NoInterrupt E.refine3) (hos : ∀ o ∈ E.gen.1, Inv o) (htr : E.trunc = true) {budget : Option ℕ} {old cs cs' : List (Click L)}
    (h : search C E none old = (cs, .ok ())) (h' : searchB C E budget old = (cs', .ok ())) :
    ∀ c ∈ cs, ∃ c' ∈ cs', Spec.SameResult C c c' := by
  obtain ⟨cs6, h6, hl⟩ := search_split laws hout hn hos htr h
  rw [searchB] at h'
  rw [PyM.bind_ok h6] at h'
  exact (lastStageB_later laws (fun c hc => (track_first laws hos htr h6 c hc).1) h').2 cs hl

/-- **C137 (what is reported).** Ctrl-C at any point of the last stage: whatever is reported has passed all tests before it, with an LHS that
has, up to sign and an integer, the value whose key passed them. -/
theorem C137_sound {C : LhsClass L} {Inv : L → Prop} {key : Click L → κ} {out : κ → κ → Except PyErr Bool}
    (laws : SearchLaws C Inv key out) {E : SearchEnv L}
    (hos : ∀ o ∈ E.gen.1, Inv o) (htr : E.trunc = true) {budget : Option ℕ} {old cs' : List (Click L)}
    (h' : searchB C E budget old = (cs', .ok ())) {c : Click L} (hc : c ∈ cs') :
    ∃ t v v', c.conv = some t ∧ C.val c.lhs = .fin v' ∧ (∃ n : ℤ, v' = v + n ∨ v' = -v + n) ∧
      Spec.PassesEarly C E c.a c.b c.post (Int.fract |v|) t := by
  rw [searchB] at h'
  obtain ⟨_, cs6, h6, h'⟩ := bind_ok_inv h'
  have k6 := track_first laws hos htr h6
  obtain ⟨c0, hc0, hl⟩ := (lastStageB_later laws (fun c hc => (k6 c hc).1) h').1 c hc
  obtain ⟨hi, o, w, v, ⟨ho, hw, hd, s, es, hs, hes, he⟩, hv, hk, ⟨r1, hf, t, ht, htt, hct⟩, r2⟩ := k6 c0 hc0
  obtain ⟨-, e1, e2, e3, e4, v0, v', hv0, hv', hu⟩ := hl hi
  rw [hv] at hv0
  cases hv0
  rw [hct] at r2
  rw [htr] at hs
  refine ⟨t, v, v', e4.trans hct, hv', hu, ?_⟩
  rw [e1, e2, e3, hk]
  exact ⟨⟨o, ho, w, s, es, hw, rfl, hd, hs, hes, he⟩, r1, hf, ht, htt, r2⟩

/-- C137 for ULCD searches with the code's own evaluators and convergence tests. -/
theorem C137_code {x : ℚ} {E : SearchEnv Ulcd} (A : Analysis) (required : ℚ → ℚ → Except PyErr ℤ) (n1 : ℕ) (n2 n3 : ℤ)
    (heng : ∀ x, E.eng x ≠ .error .keyboardInterrupt) (hreq : ∀ x y, required x y ≠ .error .keyboardInterrupt)
    (hfun : ∀ f ∈ E.funcs, ∀ x, f x ≠ .error .keyboardInterrupt) (htr : E.trunc = true) (hos : ∀ o ∈ E.gen.1, UlcdOk x o)
    {budget : Option ℕ} {old cs cs' : List (Click Ulcd)} (h : search ulcdClass (E.withCode A required n1 n2 n3) none old = (cs, .ok ()))
    (h' : searchB ulcdClass (E.withCode A required n1 n2 n3) budget old = (cs', .ok ())) {c : Click Ulcd} (hc : c ∈ cs) :
    ∃ c' ∈ cs', c'.a = c.a ∧ c'.b = c.b ∧ c'.post = c.post ∧ c'.conv = c.conv ∧
      ∃ n : ℤ, c'.lhs.val = c.lhs.val + n ∨ c'.lhs.val = -c.lhs.val + n := by
  obtain ⟨c', hc', e1, e2, e3, e4, v, v', hv, hv', hu⟩ := C137_cancelled (E := E.withCode A required n1 n2 n3) (ulcd_searchLaws x) ulcdIsEquiv_calm
    ⟨heng, evalInfo_calm hreq n3 E.accuracy3, hfun⟩ hos htr h h' c hc
  have hv : Num.fin c.lhs.val = .fin v := hv
  have hv' : Num.fin c'.lhs.val = .fin v' := hv'
  cases hv
  cases hv'
  exact ⟨c', hc', e1, e2, e3, e4, hu⟩

/-- The hypotheses of `C137_code`, and with them those of `C137_cancelled` and `C137_sound`: the search of `exGoldenCode` with Ctrl-C in the refinement, in the first filter and in the last one: the result is there each time. -/
example : (∀ o ∈ exGolden.gen.1, UlcdOk (26180 / 10000) o) ∧
    (search ulcdClass exGoldenCode none []).2.toOption = some () ∧
    (search ulcdClass exGoldenCode none []).1.map (fun c => (c.a, c.b, c.lhs.val)) = [([[1]], [[1]], 26180 / 10000)] ∧
    (∀ n ∈ [2, 7, 9], (searchB ulcdClass exGoldenCode (some n) []).2.toOption = some () ∧
      (searchB ulcdClass exGoldenCode (some n) []).1.map (fun c => (c.a, c.b, c.lhs.val)) = [([[1]], [[1]], 26180 / 10000)]) ∧
    (lastBody ulcdClass exGoldenCode.refine3 exGoldenCode.roots (some 2, (searchFirst ulcdClass exGoldenCode []).1)).2.toOption = none ∧
    (lastBody ulcdClass exGoldenCode.refine3 exGoldenCode.roots (some 7, (searchFirst ulcdClass exGoldenCode []).1)).2.toOption = none :=
  ⟨(exSearch_hyps (w := 26180 / 10000) (by norm_num) 0).2.1, by decide +kernel, by decide +kernel, by decide +kernel, by decide +kernel,
    by decide +kernel⟩

/-- A search that is cancelled may report more: here the last test would remove the only result. -/
example : (search ulcdClass { exGoldenCode with roots := fun _ => [(1, 0)] } none []).1.map (fun c => (c.a, c.b)) = [] ∧
    (searchB ulcdClass { exGoldenCode with roots := fun _ => [(1, 0)] } (some 2) []).1.map (fun c => (c.a, c.b)) = [([[1]], [[1]])] :=
  ⟨by decide +kernel, by decide +kernel⟩

end PiCF
