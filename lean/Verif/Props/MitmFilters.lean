import Verif.Props.MitmRefine

/-!
# C59: the uniqueness filter
-/

namespace PiCF
open PiCF.Spec PiCF.Hashtable PiCF.Mitm PiCF.EnumPoly PiCF.Lhs PiCF.ContFrac
open Polynomial

variable {L κ : Type}

/-- What the uniqueness filter relies on: what `is_equiv` answers (or raises) depends only on a key of the two clicks, and
the call changes neither key (the objects may be modified). -/
structure EquivLaws (C : LhsClass L) (Inv : L → Prop) (key : Click L → κ) (out : κ → κ → Except PyErr Bool) : Prop where
  run : ∀ u p : Click L, Inv u.lhs → Inv p.lhs → ∃ l l', C.equiv u p = (l, l', out (key u) (key p)) ∧ Inv l ∧ Inv l' ∧
    key { u with lhs := l } = key u ∧ key { p with lhs := l' } = key p

/-- The same click as far as the comparison is concerned. -/
structure SameKey (Inv : L → Prop) (key : Click L → κ) (c c' : Click L) : Prop where
  click : SameClick c c'
  key_eq : key c' = key c
  inv : Inv c.lhs → Inv c'.lhs

theorem SameKey.refl (Inv : L → Prop) (key : Click L → κ) (c : Click L) : SameKey Inv key c c :=
  ⟨⟨rfl, rfl, rfl, rfl⟩, rfl, id⟩

theorem SameKey.trans {Inv : L → Prop} {key : Click L → κ} {c c' c'' : Click L} (h : SameKey Inv key c c')
    (h' : SameKey Inv key c' c'') : SameKey Inv key c c'' :=
  ⟨⟨h'.click.1.trans h.click.1, h'.click.2.1.trans h.click.2.1, h'.click.2.2.1.trans h.click.2.2.1,
    h'.click.2.2.2.trans h.click.2.2.2⟩, h'.key_eq.trans h.key_eq, fun i => h'.inv (h.inv i)⟩

/-- Flagged lists that are the same. -/
def SameFlag (Inv : L → Prop) (key : Click L → κ) (x y : Click L × Bool) : Prop := SameKey Inv key x.1 y.1 ∧ y.2 = x.2

theorem sameFlag_refl (Inv : L → Prop) (key : Click L → κ) (l : List (Click L × Bool)) :
    List.Forall₂ (SameFlag Inv key) l l := List.forall₂_same.2 fun x _ => ⟨SameKey.refl _ _ x.1, rfl⟩

theorem forall₂_trans' {α : Type} {R : α → α → Prop} (ht : ∀ a b c, R a b → R b c → R a c) {l1 l2 l3 : List α}
    (h1 : List.Forall₂ R l1 l2) (h2 : List.Forall₂ R l2 l3) : List.Forall₂ R l1 l3 := by
  induction h1 generalizing l3 with
  | nil => cases h2; exact .nil
  | cons h _ ih =>
    cases h2 with
    | cons h' h2 => exact .cons (ht _ _ _ h h') (ih h2)

theorem forall₂_append_inv {α : Type} {R : α → α → Prop} : ∀ {l1 l2 l : List α}, List.Forall₂ R (l1 ++ l2) l →
    ∃ m1 m2, List.Forall₂ R l1 m1 ∧ List.Forall₂ R l2 m2 ∧ l = m1 ++ m2
  | [], _, l, h => ⟨[], l, .nil, h, rfl⟩
  | _ :: l1, _, _, h => by
    rw [List.cons_append] at h
    cases h with
    | cons h1 h2 =>
      obtain ⟨m1, m2, a, b, rfl⟩ := forall₂_append_inv h2
      exact ⟨_ :: m1, m2, .cons h1 a, b, rfl⟩

theorem inv_sameKey {Inv : L → Prop} {key : Click L → κ} {l l' : List (Click L)} (h : List.Forall₂ (SameKey Inv key) l l')
    (hi : ∀ c ∈ l, Inv c.lhs) : ∀ c ∈ l', Inv c.lhs := by
  induction h with
  | nil => simp
  | cons h1 _ ih2 =>
    intro x hx
    rcases List.mem_cons.1 hx with rfl | hx
    · exact h1.inv (hi _ List.mem_cons_self)
    · exact ih2 (fun y hy => hi y (List.mem_cons_of_mem _ hy)) x hx

theorem map_filter_true (ps : List (Click L)) : ((ps.map (·, true)).filter (·.2)).map (·.1) = ps := by
  induction ps with
  | nil => rfl
  | cons p ps ih => simpa using ih

theorem uniqInner_spec {C : LhsClass L} {Inv : L → Prop} {key : Click L → κ} {out : κ → κ → Except PyErr Bool}
    (laws : EquivLaws C Inv key out) : ∀ (us : List (Click L × Bool)) (p : Click L), (∀ x ∈ us, Inv x.1.lhs) → Inv p.lhs →
    ∃ us' p' r, uniqInner C us p = (us', p', r) ∧ List.Forall₂ (SameFlag Inv key) us us' ∧ SameKey Inv key p p' ∧
      (r = .ok true → ∀ x ∈ us, x.2 = true → out (key x.1) (key p) = .ok false) ∧
      (r = .ok false → ∃ x ∈ us, x.2 = true ∧ out (key x.1) (key p) = .ok true) ∧
      ((∀ x ∈ us, x.2 = true → out (key x.1) (key p) = .ok false) → r = .ok true) := by
  intro us
  induction us with
  | nil => intro p _ _; exact ⟨[], p, .ok true, rfl, .nil, SameKey.refl _ _ p, by simp, by simp, by simp⟩
  | cons u us ih =>
    intro p hus hp
    obtain ⟨u, flag⟩ := u
    cases flag with
    | false =>
      obtain ⟨us', p', r, e, h1, h2, h3, h4, h5⟩ := ih p (fun x hx => hus x (List.mem_cons_of_mem _ hx)) hp
      refine ⟨(u, false) :: us', p', r, by rw [uniqInner, e], .cons ⟨SameKey.refl _ _ u, rfl⟩ h1, h2, ?_, ?_, ?_⟩
      · intro hr x hx hf
        rcases List.mem_cons.1 hx with rfl | hx
        · cases hf
        · exact h3 hr x hx hf
      · intro hr
        obtain ⟨x, hx, hf⟩ := h4 hr
        exact ⟨x, List.mem_cons_of_mem _ hx, hf⟩
      · intro hall
        exact h5 fun x hx => hall x (List.mem_cons_of_mem _ hx)
    | true =>
      obtain ⟨l, l', e, i, i', k, k'⟩ := laws.run u p (hus _ List.mem_cons_self) hp
      have su : SameKey Inv key u { u with lhs := l } := ⟨⟨rfl, rfl, rfl, rfl⟩, k, fun _ => i⟩
      have sp : SameKey Inv key p { p with lhs := l' } := ⟨⟨rfl, rfl, rfl, rfl⟩, k', fun _ => i'⟩
      rw [uniqInner, e]
      rcases ho : out (key u) (key p) with err | b
      · refine ⟨_, _, _, rfl, .cons ⟨su, rfl⟩ (sameFlag_refl _ _ _), sp, by simp, by simp, ?_⟩
        intro hall
        have := hall (u, true) List.mem_cons_self rfl
        rw [ho] at this
        cases this
      · cases b with
        | true =>
          refine ⟨_, _, _, rfl, .cons ⟨su, rfl⟩ (sameFlag_refl _ _ _), sp, by simp, fun _ => ⟨_, List.mem_cons_self, rfl, ho⟩, ?_⟩
          intro hall
          have := hall (u, true) List.mem_cons_self rfl
          rw [ho] at this
          cases this
        | false =>
          obtain ⟨us', p', r, e2, h1, h2, h3, h4, h5⟩ :=
            ih { p with lhs := l' } (fun x hx => hus x (List.mem_cons_of_mem _ hx)) i'
          rw [k'] at h3 h4 h5
          refine ⟨({ u with lhs := l }, true) :: us', p', r, by simp only [e2], .cons ⟨su, rfl⟩ h1, sp.trans h2, ?_, ?_, ?_⟩
          · intro hr x hx hf
            rcases List.mem_cons.1 hx with rfl | hx
            · exact ho
            · exact h3 hr x hx hf
          · intro hr
            obtain ⟨x, hx, hf⟩ := h4 hr
            exact ⟨x, List.mem_cons_of_mem _ hx, hf⟩
          · intro hall
            exact h5 fun x hx => hall x (List.mem_cons_of_mem _ hx)

/-- The specification of the filter on a list of clicks flagged as kept or dropped: a kept click differs from all earlier
kept ones, a dropped one is equivalent to an earlier kept one. -/
def FlagsRight (key : Click L → κ) (out : κ → κ → Except PyErr Bool) (fs : List (Click L × Bool)) : Prop :=
  ∀ l1 c b l2, fs = l1 ++ (c, b) :: l2 →
    (b = true → ∀ x ∈ l1, x.2 = true → out (key x.1) (key c) = .ok false) ∧
    (b = false → ∃ x ∈ l1, x.2 = true ∧ out (key x.1) (key c) = .ok true)

theorem flagsRight_append {key : Click L → κ} {out : κ → κ → Except PyErr Bool} {fs : List (Click L × Bool)}
    (h : FlagsRight key out fs) {c : Click L} {b : Bool}
    (hc : (b = true → ∀ x ∈ fs, x.2 = true → out (key x.1) (key c) = .ok false) ∧
      (b = false → ∃ x ∈ fs, x.2 = true ∧ out (key x.1) (key c) = .ok true)) : FlagsRight key out (fs ++ [(c, b)]) := by
  intro l1 c' b' l2 e
  rcases List.eq_nil_or_concat l2 with rfl | ⟨l3, y, rfl⟩
  · obtain ⟨rfl, e2⟩ := List.append_inj' e rfl
    cases e2
    exact hc
  · rw [List.concat_eq_append, ← List.cons_append, ← List.append_assoc] at e
    obtain ⟨rfl, -⟩ := List.append_inj' e rfl
    exact h l1 c' b' l3 rfl

theorem uniqLoop_spec {C : LhsClass L} {Inv : L → Prop} {key : Click L → κ} {out : κ → κ → Except PyErr Bool}
    (laws : EquivLaws C Inv key out) : ∀ (ps : List (Click L)) (fs done : List (Click L × Bool)),
    List.Forall₂ (SameFlag Inv key) fs done → (∀ x ∈ fs, Inv x.1.lhs) → (∀ p ∈ ps, Inv p.lhs) → FlagsRight key out fs →
    (∀ done' rest, uniqLoop C done ps = (done', rest, .ok ()) → ∃ fs', fs'.map (·.1) = fs.map (·.1) ++ ps ∧
      List.Forall₂ (SameFlag Inv key) fs' done' ∧ FlagsRight key out fs') := by
  intro ps
  induction ps with
  | nil =>
    intro fs done hs _ _ hr done' rest h
    cases h
    exact ⟨fs, by simp, hs, hr⟩
  | cons p ps ih =>
    intro fs done hs hi hp hr done' rest h
    have hid : ∀ x ∈ done, Inv x.1.lhs := by
      clear hr h
      induction hs with
      | nil => simp
      | cons h1 _ ih2 =>
        intro x hx
        rcases List.mem_cons.1 hx with rfl | hx
        · exact h1.1.inv (hi _ List.mem_cons_self)
        · exact ih2 (fun y hy => hi y (List.mem_cons_of_mem _ hy)) x hx
    obtain ⟨done2, p', r, e, h1, h2, h3, h4, -⟩ := uniqInner_spec laws done p hid (hp p List.mem_cons_self)
    rw [uniqLoop, e] at h
    have hs2 := forall₂_trans' (fun a b c h h' => ⟨h.1.trans h'.1, h'.2.trans h.2⟩) hs h1
    cases r with
    | error err => cases h
    | ok b =>
      simp only at h
      have key_mem : ∀ P : κ → Prop, (∀ x ∈ done, x.2 = true → P (key x.1)) ↔ (∀ x ∈ fs, x.2 = true → P (key x.1)) := by
        intro P
        clear hid hr h h1 h3 h4 e hs2 hi
        induction hs with
        | nil => simp
        | cons h1 _ ih2 => simp only [List.forall_mem_cons, ih2, h1.1.key_eq, h1.2]
      have key_mem' : ∀ P : κ → Prop, (∃ x ∈ done, x.2 = true ∧ P (key x.1)) ↔ (∃ x ∈ fs, x.2 = true ∧ P (key x.1)) := by
        intro P
        have := key_mem fun k => ¬ P k
        constructor
        · rintro ⟨x, hx, hf, hP⟩
          by_contra hn
          exact (this.2 fun y hy hf' hP' => hn ⟨y, hy, hf', hP'⟩) x hx hf hP
        · rintro ⟨x, hx, hf, hP⟩
          by_contra hn
          exact (this.1 fun y hy hf' hP' => hn ⟨y, hy, hf', hP'⟩) x hx hf hP
      have hr2 : FlagsRight key out (fs ++ [(p, b)]) := by
        refine flagsRight_append hr ⟨fun hb => ?_, fun hb => ?_⟩
        · exact (key_mem fun k => out k (key p) = .ok false).1 (h3 (by rw [hb]))
        · exact (key_mem' fun k => out k (key p) = .ok true).1 (h4 (by rw [hb]))
      obtain ⟨fs', e1, e2, e3⟩ := ih (fs ++ [(p, b)]) (done2 ++ [(p', b)])
        (List.rel_append hs2 (.cons ⟨h2, rfl⟩ .nil))
        (by
          intro x hx
          rcases List.mem_append.1 hx with hx | hx
          · exact hi x hx
          · rw [List.mem_singleton] at hx
            subst hx
            exact hp p List.mem_cons_self)
        (fun q hq => hp q (List.mem_cons_of_mem _ hq)) hr2 done' rest h
      exact ⟨fs', by rw [e1]; simp, e2, e3⟩

theorem filter_sameFlag {Inv : L → Prop} {key : Click L → κ} {fs done : List (Click L × Bool)}
    (h : List.Forall₂ (SameFlag Inv key) fs done) :
    List.Forall₂ (SameKey Inv key) ((fs.filter (·.2)).map (·.1)) ((done.filter (·.2)).map (·.1)) := by
  induction h with
  | nil => exact .nil
  | @cons x y _ _ h1 _ ih =>
    obtain ⟨x, b⟩ := x
    obtain ⟨y, b'⟩ := y
    obtain ⟨h1, rfl⟩ := h1
    cases b' with
    | true => exact .cons h1 ih
    | false => exact ih

/-- **C59.** For every list of clicks and every equivalence test: if `filter_uniq_params` returns, its result is, in order,
the sublist of the kept clicks (same a, b, function, convergence info and comparison key) of a marking of the list such
that a kept click is not equivalent to any earlier kept one, and a dropped click is equivalent to an earlier kept
one. -/
theorem C59_unique {C : LhsClass L} {Inv : L → Prop} {key : Click L → κ} {out : κ → κ → Except PyErr Bool}
    (laws : EquivLaws C Inv key out) {cs cs' : List (Click L)} (hcs : ∀ c ∈ cs, Inv c.lhs)
    (h : filterUniq C cs = (cs', .ok ())) :
    ∃ fs : List (Click L × Bool), fs.map (·.1) = cs ∧ FlagsRight key out fs ∧
      List.Forall₂ (SameKey Inv key) ((fs.filter (·.2)).map (·.1)) cs' := by
  rw [filterUniq] at h
  split at h
  · rename_i done rest hl
    cases h
    obtain ⟨fs, e1, e2, e3⟩ := uniqLoop_spec laws cs [] [] .nil (by simp) hcs (by
      intro l1 c b l2 e
      cases l1 <;> cases e) done rest hl
    exact ⟨fs, by simpa using e1, e3, filter_sameFlag e2⟩
  · cases h

theorem uniqLoop_all {C : LhsClass L} {Inv : L → Prop} {key : Click L → κ} {out : κ → κ → Except PyErr Bool}
    (laws : EquivLaws C Inv key out) : ∀ (ps : List (Click L)) (done : List (Click L × Bool)),
    (∀ x ∈ done, Inv x.1.lhs ∧ x.2 = true) → (∀ p ∈ ps, Inv p.lhs) →
    (∀ x ∈ done, ∀ p ∈ ps, out (key x.1) (key p) = .ok false) →
    ps.Pairwise (fun u p => out (key u) (key p) = .ok false) →
    ∃ done2 ps2, uniqLoop C done ps = (done2 ++ ps2.map (·, true), [], .ok ()) ∧ List.Forall₂ (SameFlag Inv key) done done2 ∧
      List.Forall₂ (SameKey Inv key) ps ps2 := by
  intro ps
  induction ps with
  | nil => intro done hd _ _ _; exact ⟨done, [], by simp [uniqLoop], sameFlag_refl _ _ _, .nil⟩
  | cons p ps ih =>
    intro done hd hp hdp hpp
    obtain ⟨done2, p', r, e, h1, h2, -, -, h5⟩ := uniqInner_spec laws done p (fun x hx => (hd x hx).1) (hp p List.mem_cons_self)
    have hr := h5 fun x hx _ => hdp x hx p List.mem_cons_self
    subst hr
    rw [uniqLoop, e]
    simp only
    have hd2 : ∀ x ∈ done2, Inv x.1.lhs ∧ x.2 = true ∧ ∃ y ∈ done, key x.1 = key y.1 := by
      clear hdp ih e h5
      induction h1 with
      | nil => simp
      | cons h1 _ ih2 =>
        intro x hx
        rcases List.mem_cons.1 hx with rfl | hx
        · have := hd _ List.mem_cons_self
          exact ⟨h1.1.inv this.1, by rw [h1.2, this.2], _, List.mem_cons_self, h1.1.key_eq⟩
        · obtain ⟨a, b, y, hy, hk⟩ := ih2 (fun y hy => hd y (List.mem_cons_of_mem _ hy)) x hx
          exact ⟨a, b, y, List.mem_cons_of_mem _ hy, hk⟩
    obtain ⟨hpp1, hpp2⟩ := List.pairwise_cons.1 hpp
    obtain ⟨d3, ps3, e3, f1, f2⟩ := ih (done2 ++ [(p', true)]) (by
        intro x hx
        rcases List.mem_append.1 hx with hx | hx
        · exact ⟨(hd2 x hx).1, (hd2 x hx).2.1⟩
        · rw [List.mem_singleton] at hx
          subst hx
          exact ⟨h2.inv (hp p List.mem_cons_self), rfl⟩)
      (fun q hq => hp q (List.mem_cons_of_mem _ hq)) (by
        intro x hx q hq
        rcases List.mem_append.1 hx with hx | hx
        · obtain ⟨-, -, y, hy, hk⟩ := hd2 x hx
          rw [hk]
          exact hdp y hy q (List.mem_cons_of_mem _ hq)
        · rw [List.mem_singleton] at hx
          subst hx
          show out (key p') (key q) = _
          rw [h2.key_eq]
          exact hpp1 q hq) hpp2
    obtain ⟨d4, x4, g1, g2, rfl⟩ := forall₂_append_inv f1
    cases g2 with
    | @cons _ y4 _ _ g2 g3 =>
      cases g3
      obtain ⟨y4, b4⟩ := y4
      obtain ⟨g2, hb⟩ := g2
      simp only at hb
      subst hb
      refine ⟨d4, y4 :: ps3, by rw [e3]; simp, ?_, .cons (h2.trans g2) f2⟩
      exact forall₂_trans' (fun a b c h h' => ⟨h.1.trans h'.1, h'.2.trans h.2⟩) h1 g1

theorem flags_pairwise {key : Click L → κ} {out : κ → κ → Except PyErr Bool} : ∀ {fs : List (Click L × Bool)},
    FlagsRight key out fs → ((fs.filter (·.2)).map (·.1)).Pairwise fun u p => out (key u) (key p) = .ok false := by
  intro fs
  induction fs using List.reverseRecOn with
  | nil => intro _; exact .nil
  | append_singleton fs x ih =>
    intro h
    have h' : FlagsRight key out fs := by
      intro l1 c b l2 e
      exact h l1 c b (l2 ++ [x]) (by rw [e]; simp)
    obtain ⟨c, b⟩ := x
    rw [List.filter_append, List.map_append, List.pairwise_append]
    refine ⟨ih h', ?_, ?_⟩
    · cases b <;> simp
    · intro u hu p hp
      cases b with
      | false => simp at hp
      | true =>
        simp only [List.filter_cons_of_pos, List.filter_nil, List.map_cons, List.map_nil, List.mem_singleton] at hp
        subst hp
        obtain ⟨x, hx, rfl⟩ := List.mem_map.1 hu
        exact (h fs p true [] rfl).1 rfl x (List.mem_of_mem_filter hx) (List.mem_filter.1 hx).2

theorem pairwise_sameKey {Inv : L → Prop} {key : Click L → κ} {out : κ → κ → Except PyErr Bool} {l l' : List (Click L)}
    (h : List.Forall₂ (SameKey Inv key) l l') (hp : l.Pairwise fun u p => out (key u) (key p) = .ok false) :
    l'.Pairwise fun u p => out (key u) (key p) = .ok false := by
  induction h with
  | nil => exact .nil
  | cons h1 h2 ih =>
    obtain ⟨hp1, hp2⟩ := List.pairwise_cons.1 hp
    refine List.pairwise_cons.2 ⟨?_, ih hp2⟩
    intro q hq
    rw [h1.key_eq]
    clear ih hp hp2
    induction h2 with
    | nil => cases hq
    | cons h3 _ ih3 =>
      rcases List.mem_cons.1 hq with rfl | hq
      · rw [h3.key_eq]; exact hp1 _ List.mem_cons_self
      · exact ih3 (fun q hq => hp1 q (List.mem_cons_of_mem _ hq)) hq

/-- **C59 (twice is once).** After a run that returned, a second run returns and keeps every click. -/
theorem C59_twice {C : LhsClass L} {Inv : L → Prop} {key : Click L → κ} {out : κ → κ → Except PyErr Bool}
    (laws : EquivLaws C Inv key out) {cs cs' : List (Click L)} (hcs : ∀ c ∈ cs, Inv c.lhs)
    (h : filterUniq C cs = (cs', .ok ())) :
    ∃ cs'', filterUniq C cs' = (cs'', .ok ()) ∧ List.Forall₂ (SameKey Inv key) cs' cs'' := by
  obtain ⟨fs, rfl, hr, hf⟩ := C59_unique laws hcs h
  have hinv : ∀ c ∈ cs', Inv c.lhs := by
    have : ∀ c ∈ (fs.filter (·.2)).map (·.1), Inv c.lhs := by
      intro c hc
      obtain ⟨x, hx, rfl⟩ := List.mem_map.1 hc
      exact hcs _ (List.mem_map.2 ⟨x, List.mem_of_mem_filter hx, rfl⟩)
    exact inv_sameKey hf this
  obtain ⟨d, ps, e, h1, h2⟩ := uniqLoop_all laws cs' [] (by simp) hinv (by simp) (pairwise_sameKey hf (flags_pairwise hr))
  cases h1
  refine ⟨ps, ?_, h2⟩
  rw [filterUniq, e]
  simp only [List.nil_append, map_filter_true]

/-! ### The two LHS classes satisfy the contract -/

/-- The uniqueness key of a ULCD click. -/
def ulcdKey (c : Click Ulcd) : UlcdResult := ⟨c.a, c.b, c.lhs.params, c.post⟩

theorem ulcd_equivLaws : EquivLaws ulcdClass (fun _ => True) ulcdKey ulcdIsEquiv where
  run u p _ _ := ⟨u.lhs, p.lhs, rfl, trivial, trivial, rfl, rfl⟩

/-- The canonical numerator and denominator. -/
noncomputable def rfCanonPolys (s : RF) : ℤ[X] × ℤ[X] :=
  (ofCoeffs s.canonalizeParams.1.num, ofCoeffs s.canonalizeParams.1.den)

theorem rfCanonPolys_congr {s t : RF} (hs : s.Inv) (ht : t.Inv) (h1 : t.num = s.num) (h2 : t.den = s.den) :
    rfCanonPolys t = rfCanonPolys s := by
  obtain ⟨s', n, d, e, -, -, -, hn, hd, -, -, p, p'⟩ := RF.canonalizeParams_eq hs
  obtain ⟨t', m, c, f, -, -, -, hm, hc, -, -, q, q'⟩ := RF.canonalizeParams_eq ht
  have hg := polyGcd_ne_zero (p := ofCoeffs s.num) hs.den_ne
  rw [h1, h2] at hm hc
  have e1 : m = n := mul_left_cancel₀ hg (hm.symm.trans hn)
  have e2 : c = d := mul_left_cancel₀ hg (hc.symm.trans hd)
  subst e1
  subst e2
  rw [rfCanonPolys, rfCanonPolys, e, f, p, p', q, q']

theorem rfCanonPolys_idem {s : RF} (hs : s.Inv) : rfCanonPolys s.canonalizeParams.1 = rfCanonPolys s := by
  obtain ⟨s', n, d, e, i, -, -, hn, hd, hd0, h1, h2, h3⟩ := RF.canonalizeParams_eq hs
  have hnum : ofCoeffs s'.num = _ := (congrArg ofCoeffs h2).trans (ofCoeffs_sympoly2poly _)
  have hden : ofCoeffs s'.den = d := (congrArg ofCoeffs h3).trans (ofCoeffs_sympoly2poly _)
  have hrel := isRelPrime_of_gcd hs.den_ne hn hd
  obtain ⟨s'', e'', a1, a2, -⟩ := RF.canon_idem i (by rw [hnum, hden]; exact isRelPrime_sub_mul hrel _) (by
    rw [hnum, hden, coeff_zero_quotient n d hd0 _]
    rw [Int.ceil_sub_intCast, sub_self]) ⟨_, h2⟩ ⟨_, h3⟩
  rw [rfCanonPolys, rfCanonPolys, e, e'', a1, a2]

/-- The uniqueness key of a rational function click. -/
noncomputable def rfKey (c : Click RF) : Polys × Polys × ℕ × ℤ[X] × ℤ[X] := (c.a, c.b, c.post, rfCanonPolys c.lhs)

/-- What the test for rational functions computes from the keys: quotient (without constant term) and remainder of the
canonical numerator by the canonical denominator, the second fraction inverted for reciprocal functions. -/
noncomputable def rfOut (k1 k2 : Polys × Polys × ℕ × ℤ[X] × ℤ[X]) : Except PyErr Bool :=
  if inversePair k1.2.2.1 k2.2.2.1 = false ∧ k1.2.2.1 ≠ k2.2.2.1 then .ok false
  else
    match rrDiv k1.2.2.2.1 k1.2.2.2.2 with
    | .error e => .error e
    | .ok (q1, r1) =>
      match (if inversePair k1.2.2.1 k2.2.2.1 then rrDiv k2.2.2.2.2 k2.2.2.2.1 else rrDiv k2.2.2.2.1 k2.2.2.2.2) with
      | .error e => .error e
      | .ok (q2, r2) =>
        open Classical in
        .ok (decide (k1.2.1 = k2.2.1 ∧ (k1.1 = k2.1 ∨ k1.1 = negTuple k2.1) ∧
          q1 - C (q1.eval 0) = q2 - C (q2.eval 0) ∧ r1 = r2))

theorem rf_equivLaws : EquivLaws rfClass RF.Inv rfKey rfOut where
  run u p hu hp := by
    show ∃ l l', rfIsEquiv _ _ _ _ _ _ _ _ = _ ∧ _
    rw [rfIsEquiv, rfOut]
    have hk : ∀ c : Click RF, (rfKey c).2.2.1 = c.post := fun _ => rfl
    rw [hk, hk]
    by_cases hpost : inversePair u.post p.post = false ∧ u.post ≠ p.post
    · exact ⟨u.lhs, p.lhs, by rw [if_pos hpost, if_pos hpost], hu, hp, rfl, rfl⟩
    rw [if_neg hpost, if_neg hpost]
    obtain ⟨t1, n1, d1, e1, i1, -⟩ := RF.canonalizeParams_eq hu
    obtain ⟨t2, n2, d2, e2, i2, -⟩ := RF.canonalizeParams_eq hp
    have k1 := rfCanonPolys_idem hu
    have k2 := rfCanonPolys_idem hp
    have v1 : rfCanonPolys u.lhs = (ofCoeffs t1.num, ofCoeffs t1.den) := by rw [rfCanonPolys, e1]
    have v2 : rfCanonPolys p.lhs = (ofCoeffs t2.num, ofCoeffs t2.den) := by rw [rfCanonPolys, e2]
    rw [e1] at k1
    rw [e2] at k2
    obtain ⟨u1, f1, j1, -, g1, g1', -⟩ := RF.numeratorSym_eq i1
    obtain ⟨w1, f1', j1', -, m1, m1', -⟩ := RF.denominatorSym_eq j1
    obtain ⟨u2, f2, j2, -, g2, g2', -⟩ := RF.numeratorSym_eq i2
    obtain ⟨w2, f2', j2', -, m2, m2', -⟩ := RF.denominatorSym_eq j2
    rw [g1'] at f1'
    rw [g2'] at f2'
    have c1 : rfCanonPolys w1 = rfCanonPolys u.lhs :=
      (rfCanonPolys_congr i1 j1' (m1.trans g1) (m1'.trans g1')).trans k1
    have c2' : rfCanonPolys u2 = rfCanonPolys p.lhs := (rfCanonPolys_congr i2 j2 g2 g2').trans k2
    have c2 : rfCanonPolys w2 = rfCanonPolys p.lhs :=
      (rfCanonPolys_congr i2 j2' (m2.trans g2) (m2'.trans g2')).trans k2
    simp only [e1, e2, f1, f1', f2, f2', rfKey, v1, v2]
    cases hq : rrDiv (ofCoeffs t1.num) (ofCoeffs t1.den) with
    | error e => exact ⟨w1, t2, rfl, j1', i2, by rw [c1, v1], by rw [k2, v2]⟩
    | ok qr =>
      obtain ⟨q1, r1⟩ := qr
      simp only
      cases hq2 : (if inversePair u.post p.post then rrDiv (ofCoeffs t2.den) (ofCoeffs t2.num)
          else rrDiv (ofCoeffs t2.num) (ofCoeffs t2.den)) with
      | error e => exact ⟨w1, w2, rfl, j1', j2', by rw [c1, v1], by rw [c2, v2]⟩
      | ok qr2 => exact ⟨w1, w2, rfl, j1', j2', by rw [c1, v1], by rw [c2, v2]⟩

/-- **C59 (ULCD).** With ULCD left hand sides and non-zero denominators the filter always returns. -/
theorem C59_ulcd_returns {cs : List (Click Ulcd)} (hcs : ∀ c ∈ cs, c.lhs.params.2.2.2 ≠ 0) :
    ∃ cs', filterUniq ulcdClass cs = (cs', .ok ()) := by
  have inner : ∀ (us : List (Click Ulcd × Bool)) (p : Click Ulcd), (∀ x ∈ us, x.1.lhs.params.2.2.2 ≠ 0) →
      p.lhs.params.2.2.2 ≠ 0 → ∃ b, uniqInner ulcdClass us p = (us, p, .ok b) := by
    intro us
    induction us with
    | nil => intro p _ _; exact ⟨true, rfl⟩
    | cons u us ih =>
      intro p hus hp
      obtain ⟨b, e⟩ := ih p (fun x hx => hus x (List.mem_cons_of_mem _ hx)) hp
      obtain ⟨u, flag⟩ := u
      cases flag with
      | false => exact ⟨b, by rw [uniqInner, e]⟩
      | true =>
        obtain ⟨b', hb, -⟩ := ulcdIsEquiv_iff (ulcdKey u) (ulcdKey p) (hus _ List.mem_cons_self) hp
        have : ulcdClass.equiv u p = (u.lhs, p.lhs, .ok b') := by
          show (_, _, ulcdIsEquiv (ulcdKey u) (ulcdKey p)) = _
          rw [hb]
        cases b' with
        | true => exact ⟨false, by rw [uniqInner, this]⟩
        | false => exact ⟨b, by rw [uniqInner, this]; simp only [e]⟩
  have loop : ∀ (ps : List (Click Ulcd)) (done : List (Click Ulcd × Bool)), (∀ x ∈ done, x.1.lhs.params.2.2.2 ≠ 0) →
      (∀ p ∈ ps, p.lhs.params.2.2.2 ≠ 0) → ∃ d r, uniqLoop ulcdClass done ps = (d, r, .ok ()) := by
    intro ps
    induction ps with
    | nil => intro done _ _; exact ⟨done, [], rfl⟩
    | cons p ps ih =>
      intro done hd hp
      obtain ⟨b, e⟩ := inner done p hd (hp p List.mem_cons_self)
      rw [uniqLoop, e]
      refine ih _ ?_ fun q hq => hp q (List.mem_cons_of_mem _ hq)
      intro x hx
      rcases List.mem_append.1 hx with hx | hx
      · exact hd x hx
      · rw [List.mem_singleton] at hx
        subst hx
        exact hp p List.mem_cons_self
  obtain ⟨d, r, e⟩ := loop cs [] (by simp) hcs
  exact ⟨_, by rw [filterUniq, e]⟩

/-- A concrete case: of three clicks the second is a multiple of the first and is dropped. -/
example : (filterUniq ulcdClass [⟨[[1, 2]], [[3]], Ulcd.mk (2, 1, 2, 2) 3 1, 0, none⟩,
    ⟨[[-1, -2]], [[3]], Ulcd.mk (-1, -2, -1, 1) 3 1, 0, none⟩, ⟨[[5]], [[3]], Ulcd.mk (2, 1, 2, 2) 3 1, 0, none⟩]).1.map (·.a) =
    [[[1, 2]], [[5]]] := by decide +kernel

end PiCF
