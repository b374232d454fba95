import Verif.Props.Repeat
import Verif.Props.CompleteRf

/-!
# C144: the order of the filters does not matter
-/

namespace PiCF
open PiCF.Spec PiCF.Hashtable PiCF.Mitm PiCF.EnumPoly PiCF.Lhs PiCF.ContFrac

variable {L κ : Type}

/-- A step that looks at the continued fractions only: it keeps the clicks `keep` says, and sets what is known of the convergence to `note`. -/
def LooksAtPolys (F : PyM (List (Click L)) Unit) (keep : Polys → Polys → Bool) (note : Polys → Polys → Option Conv → Option Conv) : Prop :=
  ∀ cs cs', F cs = (cs', .ok ()) → cs' = (cs.filter fun c => keep c.a c.b).map fun c => { c with conv := note c.a c.b c.conv }

theorem looks_exp (fast : Polys → Polys → Except PyErr Bool) (report : Polys → Polys → Except PyErr Unit) (print : Bool) :
    LooksAtPolys (L := L) (filterExp fast report print) (fun a b => match fast a b with | .ok true => true | _ => false) (fun _ _ t => t) := by
  intro cs cs' h
  rw [filterExp] at h
  cases hl : filterExp.loop fast report print cs with
  | error e => rw [hl] at h; cases h
  | ok r =>
    rw [hl] at h
    cases h
    rw [List.map_id']
    exact filterExp_loop hl

theorem looks_roots (roots : List ℤ → List (ℚ × ℚ)) :
    LooksAtPolys (L := L) (filterPosIntRoots roots) (fun _ b => !((b.flatMap fun p => roots p.reverse).any isPosIntRoot)) (fun _ _ t => t) := by
  intro cs cs' h
  rw [filterPosIntRoots] at h
  cases h
  rw [List.map_id']

/-- The clicks kept by the filter for the type of convergence. -/
def keepsApproach (estimate : Polys → Polys → Except PyErr Conv) (white black : Option (List ApproachType)) (a b : Polys) : Bool :=
  match estimate a b with
  | .ok conv => decide ((white.getD [] ≠ [] ∧ conv.1 ∈ white.getD []) ∨ (black.getD [] ≠ [] ∧ conv.1 ∉ black.getD []))
  | .error _ => false

theorem approachLoop_looks {build : Polys → Polys → Except PyErr Unit} {estimate : Polys → Polys → Except PyErr Conv} {white black : Option (List ApproachType)} :
    ∀ {cs cs' : List (Click L)}, approachLoop build estimate (white.getD []) (black.getD []) cs = .ok cs' →
    cs' = (cs.filter fun c => keepsApproach estimate white black c.a c.b).map fun c => { c with conv := (estimate c.a c.b).toOption } := by
  intro cs
  induction cs with
  | nil => intro cs' h; cases h; rfl
  | cons c cs ih =>
    intro cs' h
    rw [approachLoop] at h
    cases hb : build c.a c.b with
    | error e => rw [hb] at h; cases h
    | ok u =>
      rw [hb] at h
      simp only at h
      cases he : estimate c.a c.b with
      | error e =>
        have hk : keepsApproach estimate white black c.a c.b = false := by rw [keepsApproach, he]
        rw [he] at h
        rw [List.filter_cons_of_neg (by rw [hk]; exact Bool.false_ne_true)]
        cases e <;> first | cases h | exact ih h
      | ok conv =>
        rw [he] at h
        simp only at h
        cases hl : approachLoop build estimate (white.getD []) (black.getD []) cs with
        | error e => rw [hl] at h; cases h
        | ok r =>
          rw [hl] at h
          simp only at h
          split at h
          · rename_i hacc
            cases h
            have hk : keepsApproach estimate white black c.a c.b = true := by rw [keepsApproach, he]; exact decide_eq_true hacc
            rw [List.filter_cons_of_pos (by exact hk), List.map_cons, he, ← ih hl]
            rfl
          · rename_i hacc
            cases h
            have hk : keepsApproach estimate white black c.a c.b = false := by rw [keepsApproach, he]; exact decide_eq_false hacc
            rw [List.filter_cons_of_neg (by rw [hk]; exact Bool.false_ne_true)]
            exact ih hl

theorem looks_approach (build : Polys → Polys → Except PyErr Unit) (estimate : Polys → Polys → Except PyErr Conv) (white black : Option (List ApproachType)) :
    LooksAtPolys (L := L) (filterByApproach build estimate white black) (keepsApproach estimate white black) (fun a b _ => (estimate a b).toOption) := by
  intro cs cs' h
  rw [filterByApproach] at h
  split at h
  · cases h
  · split at h
    · cases h
    · cases hl : approachLoop build estimate (white.getD []) (black.getD []) cs with
      | error e => rw [hl] at h; cases h
      | ok r =>
        rw [hl] at h
        cases h
        exact approachLoop_looks hl

/-- The filters that look at the continued fractions only, with arbitrary arguments. -/
inductive PolyFilter (estimate : Polys → Polys → Except PyErr Conv) : PyM (List (Click L)) Unit → Prop
  | exp (fast report print) : PolyFilter estimate (filterExp fast report print)
  | roots (roots) : PolyFilter estimate (filterPosIntRoots roots)
  | approach (build white black) : PolyFilter estimate (filterByApproach build estimate white black)

theorem PolyFilter.looks {estimate : Polys → Polys → Except PyErr Conv} {F : PyM (List (Click L)) Unit} (h : PolyFilter estimate F) :
    ∃ keep note, LooksAtPolys F keep note ∧ (note = (fun _ _ t => t) ∨ note = fun a b _ => (estimate a b).toOption) := by
  cases h with
  | exp fast report print => exact ⟨_, _, looks_exp fast report print, .inl rfl⟩
  | roots roots => exact ⟨_, _, looks_roots roots, .inl rfl⟩
  | approach build white black => exact ⟨_, _, looks_approach build estimate white black, .inr rfl⟩

/-- **C144 (filters).** Two of the filters by speed, type of convergence and integer roots give the same clicks in either order, if both orders return. -/
theorem C144_filters {estimate : Polys → Polys → Except PyErr Conv} {F G : PyM (List (Click L)) Unit} (hF : PolyFilter estimate F)
    (hG : PolyFilter estimate G) {cs f fg g gf : List (Click L)} (h1 : F cs = (f, .ok ())) (h2 : G f = (fg, .ok ())) (h3 : G cs = (g, .ok ()))
    (h4 : F g = (gf, .ok ())) : fg = gf := by
  obtain ⟨k1, n1, l1, hn1⟩ := hF.looks
  obtain ⟨k2, n2, l2, hn2⟩ := hG.looks
  rw [l2 _ _ h2, l1 _ _ h1, l1 _ _ h4, l2 _ _ h3]
  rw [List.filter_map, List.filter_map, List.map_map, List.map_map, List.filter_filter, List.filter_filter]
  have e : (fun c : Click L => ((fun c : Click L => k2 c.a c.b) ∘ fun c : Click L => { c with conv := n1 c.a c.b c.conv }) c && k1 c.a c.b) =
      fun c : Click L => ((fun c : Click L => k1 c.a c.b) ∘ fun c : Click L => { c with conv := n2 c.a c.b c.conv }) c && k2 c.a c.b := by
    funext c
    exact Bool.and_comm _ _
  rw [e]
  congr 1
  funext c
  rcases hn1 with rfl | rfl <;> rcases hn2 with rfl | rfl <;> rfl

/-- A click is dropped by each of two filters, one is kept. -/
example : filterExp (L := Unit) (fun a _ => .ok (a != [[2]])) (fun _ _ => .ok ()) false
      [⟨[[1]], [[1]], (), 0, none⟩, ⟨[[2]], [[1]], (), 0, none⟩, ⟨[[3]], [[1]], (), 0, none⟩] =
      ([⟨[[1]], [[1]], (), 0, none⟩, ⟨[[3]], [[1]], (), 0, none⟩], .ok ()) ∧
    filterByApproach (L := Unit) (fun _ _ => .ok ()) (fun a _ => if a = [[1]] then .ok (.exp, none) else .ok (.poly, none)) (some [.exp]) none
      [⟨[[1]], [[1]], (), 0, none⟩, ⟨[[3]], [[1]], (), 0, none⟩] = ([⟨[[1]], [[1]], (), 0, some (.exp, none)⟩], .ok ()) := ⟨rfl, rfl⟩

/-! ### The filter for unique parameters -/

/-- Equivalent clicks have the same `b`, and the same `a` up to sign. -/
def EquivPolys (key : Click L → κ) (out : κ → κ → Except PyErr Bool) : Prop :=
  ∀ u p, out (key u) (key p) = .ok true → u.b = p.b ∧ (u.a = p.a ∨ u.a = negTuple p.a)

theorem ulcd_equivPolys : EquivPolys ulcdKey ulcdIsEquiv := by
  intro u p h
  rw [ulcdIsEquiv] at h
  split at h
  · have h := Except.ok.inj h
    rw [Bool.and_eq_true, Bool.and_eq_true] at h
    have := of_decide_eq_true h.1.1
    exact ⟨this.2, .inl this.1⟩
  · split at h
    · cases h
    · split at h
      · rename_i hh; exact hh
      · cases h

theorem rf_equivPolys : EquivPolys rfKey rfOut := by
  intro u p h
  rw [rfOut] at h
  split at h
  · cases h
  · split at h
    · cases h
    · split at h
      · cases h
      · have h := Except.ok.inj h
        have := of_decide_eq_true h
        exact ⟨this.1, this.2.1⟩

theorem FlagsRight.init {key : Click L → κ} {out : κ → κ → Except PyErr Bool} {fs : List (Click L × Bool)} {y : Click L × Bool}
    (h : FlagsRight key out (fs ++ [y])) : FlagsRight key out fs := by
  intro l1 c b l2 e
  exact h l1 c b (l2 ++ [y]) (by rw [e]; simp)

/-- Flags of a list and of the same list filtered by something that does not distinguish equivalent clicks. -/
theorem flags_filter {key : Click L → κ} {out : κ → κ → Except PyErr Bool} {keep : Click L → Bool} {r : Click L → Click L}
    (hr : ∀ c, key (r c) = key c) (hk : ∀ u p, out (key u) (key p) = .ok true → keep u = keep p) :
    ∀ (fs gs : List (Click L × Bool)), FlagsRight key out fs → FlagsRight key out gs →
      gs.map (·.1) = ((fs.map (·.1)).filter keep).map r → gs = (fs.filter fun x => keep x.1).map fun x => (r x.1, x.2) := by
  intro fs
  induction fs using List.reverseRecOn with
  | nil =>
    intro gs _ _ e
    cases gs with
    | nil => rfl
    | cons g gs => cases e
  | append_singleton fs x ih =>
    intro gs hf hg e
    obtain ⟨c, b⟩ := x
    rw [List.map_append, List.filter_append, List.map_append] at e
    rw [List.filter_append, List.map_append]
    by_cases hc : keep c = true
    · simp only [List.map_cons, List.map_nil, List.filter_cons, hc, if_true, List.filter_nil] at e ⊢
      rcases List.eq_nil_or_concat gs with rfl | ⟨hs, y, rfl⟩
      · exact absurd e (by simp)
      · rw [List.concat_eq_append] at hg e ⊢
        rw [List.map_append] at e
        obtain ⟨e1, e2⟩ := List.append_inj' e rfl
        have ih := ih hs hf.init hg.init e1
        obtain ⟨c', b'⟩ := y
        have e2 : c' = r c := by simpa using e2
        subst e2
        have h1 := hf fs c b [] rfl
        have h2 := hg hs (r c) b' [] rfl
        have hb : b' = b := by
          cases b with
          | true =>
            cases b' with
            | true => rfl
            | false =>
              obtain ⟨x, hx, hx1, hx2⟩ := h2.2 rfl
              rw [ih] at hx
              obtain ⟨z, hz, rfl⟩ := List.mem_map.1 hx
              rw [hr, hr, h1.1 rfl z (List.mem_of_mem_filter hz) hx1] at hx2
              cases hx2
          | false =>
            cases b' with
            | false => rfl
            | true =>
              obtain ⟨x, hx, hx1, hx2⟩ := h1.2 rfl
              have hm : (r x.1, x.2) ∈ hs := by
                rw [ih]
                exact List.mem_map.2 ⟨x, List.mem_filter.2 ⟨hx, (hk _ _ hx2).trans hc⟩, rfl⟩
              have := h2.1 rfl _ hm hx1
              rw [hr, hr, hx2] at this
              cases this
        rw [hb, ih]
    · simp only [List.map_cons, List.map_nil, List.filter_cons, hc, List.filter_nil, List.append_nil, if_false, Bool.false_eq_true] at e ⊢
      exact ih gs hf.init hg e

theorem forall₂_filter_map {α β : Type} {R : α → α → Prop} {S : β → β → Prop} {k : α → Bool} {r : α → β} (hk : ∀ x y, R x y → k x = k y)
    (hr : ∀ x y, R x y → S (r x) (r y)) : ∀ {l l' : List α}, List.Forall₂ R l l' → List.Forall₂ S ((l.filter k).map r) ((l'.filter k).map r) := by
  intro l l' h
  induction h with
  | nil => exact .nil
  | @cons x y l l' hxy _ ih =>
    by_cases h : k x = true
    · rw [List.filter_cons_of_pos h, List.filter_cons_of_pos ((hk _ _ hxy).symm.trans h)]
      exact .cons (hr _ _ hxy) ih
    · rw [List.filter_cons_of_neg h, List.filter_cons_of_neg (by rwa [← hk _ _ hxy])]
      exact ih

/-- A filter that does not distinguish a continued fraction from the one with negated `a`. -/
def SignBlind (F : PyM (List (Click L)) Unit) : Prop :=
  (∃ fast report print, F = filterExp fast report print ∧ ∀ a b, fast (negTuple a) b = fast a b) ∨
  (∃ roots, F = filterPosIntRoots roots) ∨
  ∃ build estimate white black, F = filterByApproach build estimate white black ∧ ∀ a b, estimate (negTuple a) b = estimate a b

theorem SignBlind.looks {F : PyM (List (Click L)) Unit} (h : SignBlind F) :
    ∃ keep note, LooksAtPolys F keep note ∧ ∀ a b, keep (negTuple a) b = keep a b := by
  rcases h with ⟨fast, report, print, rfl, h⟩ | ⟨roots, rfl⟩ | ⟨build, estimate, white, black, rfl, h⟩
  · exact ⟨_, _, looks_exp fast report print, fun a b => by rw [h]⟩
  · exact ⟨_, _, looks_roots roots, fun _ _ => rfl⟩
  · exact ⟨_, _, looks_approach build estimate white black, fun a b => by rw [keepsApproach, keepsApproach, h]⟩

/-- **C144 (unique).** Dropping equivalent clicks before or after one of these filters leaves the same clicks, with the same left hand sides as far as the
comparison looks at them, if both orders return. -/
theorem C144_unique {C : LhsClass L} {Inv : L → Prop} {key : Click L → κ} {out : κ → κ → Except PyErr Bool} (laws : EquivLaws C Inv key out)
    (hp : EquivPolys key out) (hkey : ∀ (c : Click L) t, key { c with conv := t } = key c) {F : PyM (List (Click L)) Unit} (hF : SignBlind F)
    {cs u uf f fu : List (Click L)} (hi : ∀ c ∈ cs, Inv c.lhs) (h1 : filterUniq C cs = (u, .ok ())) (h2 : F u = (uf, .ok ()))
    (h3 : F cs = (f, .ok ())) (h4 : filterUniq C f = (fu, .ok ())) :
    List.Forall₂ (fun c c' => SameClick c c' ∧ key c' = key c) uf fu := by
  obtain ⟨keep, note, hl, hs⟩ := hF.looks
  have hf := hl _ _ h3
  have hif : ∀ c ∈ f, Inv c.lhs := by
    intro c hc
    rw [hf] at hc
    obtain ⟨c', hc', rfl⟩ := List.mem_map.1 hc
    exact hi c' (List.mem_of_mem_filter hc')
  obtain ⟨fs, rfl, hr1, hu⟩ := C59_unique laws hi h1
  obtain ⟨gs, hgs, hr2, hfu⟩ := C59_unique laws hif h4
  have hk : ∀ u p : Click L, out (key u) (key p) = .ok true → keep u.a u.b = keep p.a p.b := by
    intro u p h
    obtain ⟨eb, ea | ea⟩ := hp u p h
    · rw [ea, eb]
    · rw [ea, eb, hs]
  have hg := flags_filter (keep := fun c => keep c.a c.b) (r := fun c => { c with conv := note c.a c.b c.conv }) (fun c => hkey c _) hk fs gs hr1 hr2
    (hgs.trans hf)
  rw [hl _ _ h2]
  have e : (gs.filter (·.2)).map (·.1) =
      (((fs.filter (·.2)).map (·.1)).filter fun c => keep c.a c.b).map fun c => { c with conv := note c.a c.b c.conv } := by
    rw [hg, List.filter_map, List.filter_map, List.map_map, List.map_map, List.filter_filter, List.filter_filter]
    congr 1
    refine List.filter_congr fun x _ => ?_
    exact Bool.and_comm _ _
  rw [e] at hfu
  have h5 : List.Forall₂ (fun c c' : Click L => SameClick c c' ∧ key c' = key c)
      ((((fs.filter (·.2)).map (·.1)).filter fun c => keep c.a c.b).map fun c => { c with conv := note c.a c.b c.conv })
      ((u.filter fun c => keep c.a c.b).map fun c => { c with conv := note c.a c.b c.conv }) := by
    refine forall₂_filter_map (R := SameKey Inv key) ?_ ?_ hu
    · rintro x y ⟨⟨e1, e2, -, -⟩, -, -⟩
      show keep x.a x.b = keep y.a y.b
      rw [e1, e2]
    · rintro x y ⟨⟨e1, e2, e3, e4⟩, e5, -⟩
      refine ⟨⟨e1, e2, e3, ?_⟩, (hkey y _).trans (e5.trans (hkey x _).symm)⟩
      show note y.a y.b y.conv = note x.a x.b x.conv
      rw [e1, e2, e4]
  have h6 : List.Forall₂ (fun c c' : Click L => SameClick c c' ∧ key c' = key c) _ fu := hfu.imp fun _ _ h => ⟨h.click, h.key_eq⟩
  have h7 := h5.flip.imp (S := fun c c' : Click L => SameClick c c' ∧ key c' = key c) fun x y h =>
    ⟨⟨h.1.1.symm, h.1.2.1.symm, h.1.2.2.1.symm, h.1.2.2.2.symm⟩, h.2.symm⟩
  exact forall₂_trans' (fun a b c h h' => ⟨⟨h'.1.1.trans h.1.1, h'.1.2.1.trans h.1.2.1, h'.1.2.2.1.trans h.1.2.2.1, h'.1.2.2.2.trans h.1.2.2.2⟩,
    h'.2.trans h.2⟩) h7 h6

/-- **C144 (unique, code).** With the code's own functions, for both LHS classes, whatever the numerical library. -/
theorem C144_unique_code (A : Analysis) (roots : List ℤ → List (ℚ × ℚ)) (print : Bool) (white black : Option (List ApproachType)) :
    (∀ F ∈ [filterExp (L := Ulcd) fastNew (reportNew A) print, filterPosIntRoots roots,
        filterByApproach (fun a b => (ContFrac.init a b).map fun _ => ()) (estimateNew A) white black],
      ∀ {cs u uf f fu : List (Click Ulcd)}, filterUniq ulcdClass cs = (u, .ok ()) → F u = (uf, .ok ()) → F cs = (f, .ok ()) →
        filterUniq ulcdClass f = (fu, .ok ()) → List.Forall₂ (fun c c' => SameClick c c' ∧ c'.lhs.params = c.lhs.params) uf fu) ∧
    ∀ F ∈ [filterExp (L := RF) fastNew (reportNew A) print, filterPosIntRoots roots,
        filterByApproach (fun a b => (ContFrac.init a b).map fun _ => ()) (estimateNew A) white black],
      ∀ {cs u uf f fu : List (Click RF)}, (∀ c ∈ cs, c.lhs.Inv) → filterUniq rfClass cs = (u, .ok ()) → F u = (uf, .ok ()) → F cs = (f, .ok ()) →
        filterUniq rfClass f = (fu, .ok ()) → List.Forall₂ (fun c c' => SameClick c c' ∧ rfCanonPolys c'.lhs = rfCanonPolys c.lhs) uf fu := by
  have blind : ∀ (L : Type) (F : PyM (List (Click L)) Unit), F ∈ [filterExp (L := L) fastNew (reportNew A) print, filterPosIntRoots roots,
      filterByApproach (fun a b => (ContFrac.init a b).map fun _ => ()) (estimateNew A) white black] → SignBlind F := by
    intro L F hF
    have sym := signFree_code exRfSearch A (fun _ _ => .ok 0) le_rfl 0 0 exRf_signFree.odd
    simp only [List.mem_cons, List.not_mem_nil, or_false] at hF
    rcases hF with rfl | rfl | rfl
    · exact .inl ⟨_, _, _, rfl, sym.fast⟩
    · exact .inr (.inl ⟨_, rfl⟩)
    · exact .inr (.inr ⟨_, _, _, _, rfl, sym.estimate⟩)
  constructor
  · intro F hF cs u uf f fu h1 h2 h3 h4
    exact (C144_unique ulcd_equivLaws ulcd_equivPolys (fun _ _ => rfl) (blind _ F hF) (fun _ _ => trivial) h1 h2 h3 h4).imp fun _ _ h =>
      ⟨h.1, congrArg UlcdResult.params h.2⟩
  · intro F hF cs u uf f fu hi h1 h2 h3 h4
    exact (C144_unique rf_equivLaws rf_equivPolys (fun _ _ => rfl) (blind _ F hF) hi h1 h2 h3 h4).imp fun _ _ h =>
      ⟨h.1, congrArg (fun k => k.2.2.2) h.2⟩

/-- Four clicks, of which the second repeats the first with the other sign, and the third is dropped by the filter with its copy. -/
example :
    let c : List ℤ → ℤ → Click Ulcd := fun a s => ⟨[a], [[1]], ⟨(0, s, 0, 1), 12349 / 10000, s * (12349 / 10000)⟩, 0, none⟩
    let F := filterExp (L := Ulcd) (fun a _ => .ok (a.map (fun p => p.map Int.natAbs) != [[2]])) (fun _ _ => .ok ()) false
    filterUniq ulcdClass [c [1] 1, c [-1] (-1), c [2] 1, c [-2] (-1)] = ([c [1] 1, c [2] 1], .ok ()) ∧ F [c [1] 1, c [2] 1] = ([c [1] 1], .ok ()) ∧
    F [c [1] 1, c [-1] (-1), c [2] 1, c [-2] (-1)] = ([c [1] 1, c [-1] (-1)], .ok ()) ∧
    filterUniq ulcdClass [c [1] 1, c [-1] (-1)] = ([c [1] 1], .ok ()) := by
  refine ⟨?_, rfl, rfl, ?_⟩ <;> rfl

/-! ### Refinement -/

/-- What the refinement makes of a click, if it is not interrupted. -/
def refined (C : LhsClass L) (env : RefineEnv) (c : Click L) : Option (Click L) :=
  match refineOne C env ⟨none, c⟩ with
  | (s, .ok true) => some s.click
  | _ => none

theorem refineLoop_refined {C : LhsClass L} {Inv : L → Prop} (laws : LhsLaws C Inv) {env : RefineEnv} (hn : NoInterrupt env) :
    ∀ {cs all kept : List (Click L)} {b : Option ℕ}, (∀ c ∈ cs, Inv c.lhs) → refineLoop C env none cs = (b, all, kept, .ok ()) →
    kept = cs.filterMap (refined C env) := by
  intro cs
  induction cs with
  | nil => intro all kept b _ h; cases h; rfl
  | cons c cs ih =>
    intro all kept b hi h
    rw [refineLoop] at h
    have hs := (Calm.refineOne laws hn ⟨none, c⟩ ⟨rfl, hi c List.mem_cons_self⟩).1.1
    rcases h1 : Mitm.refineOne C env ⟨none, c⟩ with ⟨s, e | keep⟩
    · rw [h1] at h; cases h
    · rw [h1] at h hs
      simp only at h hs
      rw [hs] at h
      rcases h2 : refineLoop C env none cs with ⟨b2, all2, kept2, r2⟩
      rw [h2] at h
      cases h
      have ih := ih (fun x hx => hi x (List.mem_cons_of_mem _ hx)) h2
      cases keep with
      | true =>
        have : refined C env c = some s.click := by rw [refined, h1]
        rw [List.filterMap_cons_some this, ← ih]
        rfl
      | false =>
        have : refined C env c = none := by rw [refined, h1]
        rw [List.filterMap_cons_none this, ← ih]
        rfl

theorem refineClicks_refined {C : LhsClass L} {Inv : L → Prop} (laws : LhsLaws C Inv) {env : RefineEnv} (hn : NoInterrupt env)
    {cs kept : List (Click L)} {b : Option ℕ} (hi : ∀ c ∈ cs, Inv c.lhs) (h : refineClicks C env (none, cs) = ((b, kept), .ok ())) :
    kept = cs.filterMap (refined C env) := by
  rw [refineClicks] at h
  split at h
  · rename_i b2 all kept2 hl
    cases h
    exact refineLoop_refined laws hn hi hl
  · cases h

theorem refined_same {C : LhsClass L} {env : RefineEnv} {c c' : Click L} (h : refined C env c = some c') : SameClick c c' := by
  rw [refined] at h
  split at h
  · rename_i s h1
    cases h
    have := refineOne_same C env ⟨none, c⟩
    rwa [h1] at this
  · cases h

/-- The same state with other convergence information. -/
def withConv (t : Option Conv) (s : RSt L) : RSt L := { s with click := { s.click with conv := t } }

/-- The program does not look at the convergence information. -/
def Ignores {α : Type} (t : Option Conv) (m : PyM (RSt L) α) : Prop := ∀ s, m (withConv t s) = (withConv t (m s).1, (m s).2)

theorem Ignores.bind {α β : Type} {t : Option Conv} {x : PyM (RSt L) α} {f : α → PyM (RSt L) β} (hx : Ignores t x) (hf : ∀ a, Ignores t (f a)) :
    Ignores t (x >>= f) := by
  intro s
  show PyM.bind x f _ = (withConv t (PyM.bind x f s).1, (PyM.bind x f s).2)
  rw [PyM.bind, PyM.bind, hx s]
  rcases x s with ⟨s1, e | a⟩
  · rfl
  · exact hf a s1

theorem Ignores.pure {α : Type} (t : Option Conv) (a : α) : Ignores t (Pure.pure a : PyM (RSt L) α) := fun _ => rfl

theorem Ignores.lift {α : Type} (t : Option Conv) (r : Except PyErr α) : Ignores (L := L) t (Mitm.lift r) := by
  cases r <;> exact fun _ => rfl

theorem Ignores.tick (t : Option Conv) : Ignores t (Mitm.tick (L := L)) := by
  rintro ⟨_ | _ | n, c⟩ <;> rfl

theorem Ignores.onLhs {α : Type} (t : Option Conv) (m : PyM L α) : Ignores t (Mitm.onLhs m) := fun _ => rfl

theorem Ignores.asRuntimeError {α : Type} {t : Option Conv} (arg : Except PyErr ℤ) {m : PyM (RSt L) α} (h : Ignores t m) :
    Ignores t (Mitm.asRuntimeError arg m) := by
  intro s
  rw [Mitm.asRuntimeError, Mitm.asRuntimeError, h s]
  rcases m s with ⟨s1, e | a⟩
  · cases arg <;> rfl
  · rfl

theorem Ignores.adjust (C : LhsClass L) (t : Option Conv) (rhs lhs : Num) : Ignores t (Mitm.adjust C rhs lhs) := by
  rw [Mitm.adjust]
  refine (Ignores.tick t).bind fun _ => Ignores.bind ?_ fun _ => (Ignores.tick t).bind fun _ =>
    (Ignores.asRuntimeError _ ((Ignores.tick t).bind fun _ => (Ignores.lift t _).bind fun n => Ignores.onLhs t _)).bind fun _ =>
    (Ignores.tick t).bind fun _ => (Ignores.onLhs t _).bind fun _ => Ignores.tick t
  rw [flipIf]
  split
  · exact Ignores.onLhs t _
  · exact Ignores.pure t _

theorem refineOne_ignores (C : LhsClass L) {env : RefineEnv} (he : ∀ a b t t', env.eval a b t = env.eval a b t') (t : Option Conv) :
    Ignores t (Mitm.refineOne C env) := by
  rw [Mitm.refineOne]
  refine (Ignores.tick t).bind fun _ => ?_
  intro s
  have hr : rhsValue env (withConv t s).click = rhsValue env s.click := by
    have := he s.click.a s.click.b t s.click.conv
    rw [rhsValue, rhsValue]
    simp only [withConv, this]
  rw [PyM.bind_ok (show PyM.get (withConv t s) = (withConv t s, .ok (withConv t s)) from rfl), PyM.bind_ok (show PyM.get s = (s, .ok s) from rfl), hr]
  cases rhsValue env s.click with
  | error e => cases e <;> rfl
  | ok y =>
    refine ((Ignores.tick t).bind fun _ => ?_) s
    split
    · refine (Ignores.lift t _).bind fun _ => (Ignores.lift t _).bind fun _ => (Ignores.lift t _).bind fun same => ?_
      cases same
      · exact Ignores.pure t _
      · exact (Ignores.adjust C t _ _).bind fun _ => Ignores.pure t _
    · exact Ignores.pure t _

theorem refined_ignores (C : LhsClass L) {env : RefineEnv} (he : ∀ a b t t', env.eval a b t = env.eval a b t') (t : Option Conv) (c : Click L) :
    refined C env { c with conv := t } = (refined C env c).map fun c => { c with conv := t } := by
  have := refineOne_ignores C he t ⟨none, c⟩
  rw [refined, refined]
  rw [show (⟨none, { c with conv := t }⟩ : RSt L) = withConv t ⟨none, c⟩ from rfl, this]
  rcases Mitm.refineOne C env ⟨none, c⟩ with ⟨s, e | _ | _⟩ <;> rfl

/-- **C144 (refinement).** Refining before or after the filters by speed of convergence and by integer roots gives the same list, if both orders return; and
with a constant number of iterations, or any evaluation that does not use the convergence information, also for the filter by type of convergence. -/
theorem C144_refine {C : LhsClass L} {Inv : L → Prop} (laws : LhsLaws C Inv) {env : RefineEnv} (hn : NoInterrupt env) {F : PyM (List (Click L)) Unit}
    (hF : (∃ fast report print, F = filterExp fast report print) ∨ (∃ roots, F = filterPosIntRoots roots) ∨
      (∃ build estimate white black, F = filterByApproach build estimate white black) ∧ ∀ a b t t', env.eval a b t = env.eval a b t')
    {cs r rf f fr : List (Click L)} {b b' : Option ℕ} (hi : ∀ c ∈ cs, Inv c.lhs) (h1 : refineClicks C env (none, cs) = ((b, r), .ok ()))
    (h2 : F r = (rf, .ok ())) (h3 : F cs = (f, .ok ())) (h4 : refineClicks C env (none, f) = ((b', fr), .ok ())) : rf = fr := by
  obtain ⟨keep, note, hl, hno⟩ : ∃ keep note, LooksAtPolys F keep note ∧ ∀ c : Click L,
      refined C env { c with conv := note c.a c.b c.conv } = (refined C env c).map fun c => { c with conv := note c.a c.b c.conv } := by
    rcases hF with ⟨fast, report, print, rfl⟩ | ⟨roots, rfl⟩ | ⟨⟨build, estimate, white, black, rfl⟩, he⟩
    · exact ⟨_, _, looks_exp fast report print, fun c => by simp⟩
    · exact ⟨_, _, looks_roots roots, fun c => by simp⟩
    · refine ⟨_, _, looks_approach build estimate white black, fun c => ?_⟩
      rw [refined_ignores C he]
      cases hc : refined C env c with
      | none => rfl
      | some c' =>
        obtain ⟨e1, e2, -, -⟩ := refined_same hc
        simp only [Option.map_some, e1, e2]
  have hf := hl _ _ h3
  have hr := hl _ _ h2
  have hif : ∀ c ∈ f, Inv c.lhs := by
    intro c hc
    rw [hf] at hc
    obtain ⟨c', hc', rfl⟩ := List.mem_map.1 hc
    exact hi c' (List.mem_of_mem_filter hc')
  rw [hr, refineClicks_refined laws hn hi h1, refineClicks_refined laws hn hif h4, hf, List.filter_filterMap, List.filterMap_map, List.filterMap_filter,
    List.map_filterMap]
  congr 1
  funext c
  simp only [Function.comp, hno]
  cases hc : refined C env c with
  | none => simp
  | some c' =>
    obtain ⟨e1, e2, -, -⟩ := refined_same hc
    by_cases hk : keep c.a c.b = true
    · simp [Option.filter, e1, e2, hk]
    · simp [Option.filter, e1, e2, hk]

/-- The left hand sides `x` and `x + 2` for the constant `x = 1.2349`. -/
def exShifted : List (Click Ulcd) :=
  [⟨[[1]], [[1]], ⟨(0, 1, 0, 1), 12349 / 10000, 12349 / 10000⟩, 0, none⟩, ⟨[[1]], [[1]], ⟨(0, 1, 2, 1), 12349 / 10000, 32349 / 10000⟩, 0, none⟩]

/-- **C144 (violated).** Refinement and the filter for unique parameters do not commute: the left hand sides `x` and `x + 2` of a continued fraction with
value `5.2348` are different, and refinement makes `x + 3` of both, so the result is there twice if equivalent ones are dropped before the refinement, and once if
they are dropped after it. -/
theorem C144_refine_unique_violated :
    (refineClicks ulcdClass (exRefine (52348 / 10000) 3) (none, (filterUniq ulcdClass exShifted).1)).1.2.map (fun c => (c.lhs.params, c.lhs.val)) =
      [((0, 1, 3, 1), 42349 / 10000), ((0, 1, 3, 1), 42349 / 10000)] ∧
    (filterUniq ulcdClass (refineClicks ulcdClass (exRefine (52348 / 10000) 3) (none, exShifted)).1.2).1.map (fun c => (c.lhs.params, c.lhs.val)) =
      [((0, 1, 3, 1), 42349 / 10000)] ∧
    ∀ c ∈ exShifted, UlcdOk (12349 / 10000) c.lhs := by
  refine ⟨by decide +kernel, by decide +kernel, ?_⟩
  intro c hc
  simp only [exShifted, List.mem_cons, List.not_mem_nil, or_false] at hc
  rcases hc with rfl | rfl
  · exact ⟨rfl, by norm_num, ⟨one_ne_zero, one_ne_zero⟩, by norm_num [ulcdExpr]⟩
  · exact ⟨rfl, by norm_num, ⟨one_ne_zero, one_ne_zero⟩, by norm_num [ulcdExpr]⟩

/-- The refinement keeps both clicks, and the filter drops a third one. -/
example : (refineClicks ulcdClass (exRefine (52348 / 10000) 3) (none, exShifted)).1.2.length = 2 ∧
    (filterExp (L := Ulcd) (fun a _ => .ok (a != [[2]])) (fun _ _ => .ok ()) false
      (exShifted ++ [⟨[[2]], [[1]], ⟨(0, 1, 2, 1), 12349 / 10000, 32349 / 10000⟩, 0, none⟩])).1 = exShifted := by
  exact ⟨by decide +kernel, rfl⟩

end PiCF
