import Verif.Props.MoreDigits

/-!
# C143: repeating a filter changes nothing
-/

namespace PiCF
open PiCF.Spec PiCF.Hashtable PiCF.Mitm PiCF.EnumPoly PiCF.Lhs PiCF.ContFrac

variable {L κ : Type}

theorem signed_sides {y : ℚ} (w : ℚ) : (0 < y → 0 ≤ signed y w) ∧ (y < 0 → signed y w ≤ 0) := by
  rw [signed]
  constructor
  · intro h
    split
    · rename_i hc; rcases hc with ⟨_, h'⟩ | ⟨h', _⟩ <;> linarith
    · rename_i hc; push Not at hc
      by_contra hn
      exact absurd (hc.2 (by linarith)) (by linarith)
  · intro h
    split
    · rename_i hc; rcases hc with ⟨h', _⟩ | ⟨_, h'⟩ <;> linarith
    · rename_i hc; push Not at hc
      by_contra hn
      exact absurd (hc.1 (by linarith)) (by linarith)

theorem truncZ_rest (q : ℚ) : truncZ (q - truncZ q) = 0 := by
  rw [truncZ]
  have : -1 < q - truncZ q ∧ q - truncZ q < 1 := by
    rw [truncZ]
    split
    · exact ⟨by linarith [Int.floor_le q], by linarith [Int.lt_floor_add_one q]⟩
    · exact ⟨by linarith [Int.ceil_lt_add_one q], by linarith [Int.le_ceil q]⟩
  split
  · exact Int.floor_eq_iff.2 ⟨by push_cast; assumption, by push_cast; linarith⟩
  · rename_i h
    exact Int.ceil_eq_iff.2 ⟨by push_cast; linarith, by push_cast; linarith⟩

/-- An adjusted value is not adjusted again. -/
theorem adjusted_again (y w : ℚ) : signed y (signed y w + truncZ (y - signed y w)) = signed y w + truncZ (y - signed y w) ∧
    truncZ (y - (signed y w + truncZ (y - signed y w))) = 0 := by
  have hs := signed_sides (y := y) w
  generalize signed y w = u at *
  refine ⟨?_, by rw [← sub_sub]; exact truncZ_rest _⟩
  have hv : (0 < y → 0 ≤ u + truncZ (y - u)) ∧ (y < 0 → u + truncZ (y - u) ≤ 0) := by
    rw [truncZ]
    constructor
    · intro h
      have hu := hs.1 h
      split
      · have : (0 : ℚ) ≤ (⌊y - u⌋ : ℚ) := by exact_mod_cast Int.floor_nonneg.2 (by assumption)
        linarith
      · linarith [Int.le_ceil (y - u)]
    · intro h
      have hu := hs.2 h
      split
      · linarith [Int.floor_le (y - u)]
      · rename_i hn
        have : ⌈y - u⌉ ≤ 0 := Int.ceil_le.2 (by push_cast; linarith)
        have : (⌈y - u⌉ : ℚ) ≤ 0 := by exact_mod_cast this
        linarith
  rw [signed, if_neg]
  rintro (⟨h1, h2⟩ | ⟨h1, h2⟩)
  · linarith [hv.2 h2]
  · linarith [hv.1 h2]

/-- A click that passes the refinement and needs no adjustment. -/
def Settled (C : LhsClass L) (Inv : L → Prop) (env : RefineEnv) (c : Click L) : Prop :=
  Inv c.lhs ∧ ∃ v f r y s s', C.val c.lhs = .fin v ∧ env.funcs[c.post]? = some f ∧ env.eval c.a c.b c.conv = .ok r ∧ f r = .ok (.fin y) ∧ y ≠ 0 ∧
    env.eng (.fin (searchKey env.trunc y)) = .ok s ∧ env.eng (.fin (searchKey env.trunc v)) = .ok s' ∧
    sliceTo s (env.accuracy + 2) = sliceTo s' (env.accuracy + 2) ∧ signed y v = v ∧ truncZ (y - v) = 0

theorem refineOne_settled {C : LhsClass L} {Inv : L → Prop} (laws : LhsLaws C Inv) (fin : ∀ l, Inv l → ∃ v, C.val l = .fin v) {env : RefineEnv}
    (ht : env.trunc = true) {s s' : RSt L} (hi : Inv s.click.lhs) (h : refineOne C env s = (s', .ok true)) : Settled C Inv env s'.click := by
  obtain ⟨h1, h2⟩ := refineOne_ok h
  obtain ⟨f, r, y', t, k, t', hf1, hf2, hf3, h0, ht1, hk, ht2, hsl⟩ := h1.1 rfl
  obtain ⟨e1, e2, e3, e4⟩ : SameClick s.click s'.click := by
    have := refineOne_same C env s
    rw [h] at this
    exact this
  obtain ⟨y, s1, s2, hy, hcl, rfl, ha⟩ := h2 rfl
  obtain ⟨f', r', hf1', hf2', hf3'⟩ := rhsValue_ok hy
  rw [hf1] at hf1'; cases hf1'
  rw [hf2] at hf2'; cases hf2'
  rw [hf3] at hf3'; cases hf3'
  obtain ⟨w, hw⟩ := fin _ hi
  rw [hw] at ha hk
  cases hk
  obtain ⟨hi', hval⟩ := adjust_ok laws (by rw [hcl]; exact hi) (by rw [hcl]; exact hw) ha
  obtain ⟨v', hv'⟩ := fin _ hi'
  have hval := hval.resolve_right fun h => by rw [hv'] at h; cases h.1
  refine ⟨hi', _, f, r, _, t, t', hval, by rw [e3]; exact hf1, by rw [e1, e2, e4]; exact hf2, hf3, h0, ht1, ?_, hsl, adjusted_again _ w⟩
  rw [ht] at ht2 ⊢
  simp only [searchKey, if_true] at ht2 ⊢
  rw [fract_abs_adjust h0]
  exact ht2

/-- The same click, with the same value and a valid left hand side. -/
def Unchanged (C : LhsClass L) (Inv : L → Prop) (c c' : Click L) : Prop := SameClick c c' ∧ C.val c'.lhs = C.val c.lhs ∧ Inv c'.lhs

theorem Settled.refineOne {C : LhsClass L} {Inv : L → Prop} (laws : LhsLaws C Inv) (fin : ∀ l, Inv l → ∃ v, C.val l = .fin v) {env : RefineEnv}
    {c : Click L} (h : Settled C Inv env c) : ∃ c', Mitm.refineOne C env ⟨none, c⟩ = (⟨none, c'⟩, .ok true) ∧ Unchanged C Inv c c' := by
  obtain ⟨hi, v, f, r, y, s, s', hv, hf, hr, hy, h0, hs, hs', hsl, hsg, htr⟩ := h
  obtain ⟨c', ea, hi'⟩ := adjust_none laws.total (y := y) hi hv
  have hrun : Mitm.refineOne C env ⟨none, c⟩ = (⟨none, c'⟩, .ok true) := by
    rw [Mitm.refineOne, PyM.bind_ok (show tick _ = (_, .ok ()) from rfl), PyM.bind_ok (show PyM.get _ = (_, .ok _) from rfl)]
    have hrv : rhsValue env c = .ok (.fin y) := by rw [rhsValue_eq hf hr, hy]
    simp only [hrv]
    rw [PyM.bind_ok (show tick _ = (_, .ok ()) from rfl), if_pos (by simpa [Num.isNormal] using h0), truncate_abs, hv, truncate_abs,
      PyM.bind_ok (show lift _ _ = (_, .ok _) from rfl), PyM.bind_ok (show lift _ _ = (_, .ok _) from rfl)]
    simp only [compareDec, hs, hs']
    rw [PyM.bind_ok (show lift _ _ = (_, .ok _) from rfl), if_pos, PyM.bind_ok ea]
    · rfl
    · rw [show env.accuracy + 1 + 1 = env.accuracy + 2 by ring]
      exact decide_eq_true hsl
  refine ⟨c', hrun, ?_, ?_, hi'⟩
  · have := refineOne_same C env ⟨none, c⟩
    rw [hrun] at this
    exact this
  · obtain ⟨-, hval⟩ := adjust_ok laws (s := ⟨none, c⟩) (s' := ⟨none, c'⟩) hi hv ea
    obtain ⟨v', hv'⟩ := fin _ hi'
    have hval := hval.resolve_right fun h => by rw [hv'] at h; cases h.1
    rw [hsg, htr] at hval
    rw [hval, hv]
    simp

theorem Settled.fewer {C : LhsClass L} {Inv : L → Prop} {env : RefineEnv} {m : ℤ} (hm : m = env.accuracy ∨ 0 ≤ m ∧ m ≤ env.accuracy) {c : Click L}
    (h : Settled C Inv env c) : Settled C Inv { env with accuracy := m } c := by
  obtain ⟨hi, v, f, r, y, s, s', hv, hf, hr, hy, h0, hs, hs', hsl, hrest⟩ := h
  refine ⟨hi, v, f, r, y, s, s', hv, hf, hr, hy, h0, hs, hs', ?_, hrest⟩
  rcases hm with rfl | ⟨h0, h1⟩
  · exact hsl
  · exact sliceTo_mono (by show 0 ≤ m + 2; omega) (by show m + 2 ≤ _; omega) hsl

theorem refineLoop_settled {C : LhsClass L} {Inv : L → Prop} (laws : LhsLaws C Inv) (fin : ∀ l, Inv l → ∃ v, C.val l = .fin v) {env : RefineEnv}
    (ht : env.trunc = true) : ∀ (cs : List (Click L)) (b b' : Option ℕ) (all kept : List (Click L)), (∀ c ∈ cs, Inv c.lhs) →
    refineLoop C env b cs = (b', all, kept, .ok ()) → ∀ c ∈ kept, Settled C Inv env c := by
  intro cs
  induction cs with
  | nil => intro b b' all kept _ h; cases h; nofun
  | cons c cs ih =>
    intro b b' all kept hi h
    rw [refineLoop] at h
    rcases h1 : Mitm.refineOne C env ⟨b, c⟩ with ⟨s, e | keep⟩
    · rw [h1] at h; cases h
    · rw [h1] at h
      simp only at h
      rcases h2 : refineLoop C env s.budget cs with ⟨b2, all2, kept2, r2⟩
      rw [h2] at h
      cases h
      have ih := ih _ _ _ _ (fun x hx => hi x (List.mem_cons_of_mem _ hx)) h2
      cases keep with
      | false => simpa using ih
      | true =>
        intro x hx
        simp only [if_true, List.mem_cons] at hx
        rcases hx with rfl | hx
        · exact refineOne_settled laws fin ht (hi c List.mem_cons_self) h1
        · exact ih x hx

theorem settled_loop {C : LhsClass L} {Inv : L → Prop} (laws : LhsLaws C Inv) (fin : ∀ l, Inv l → ∃ v, C.val l = .fin v) {env : RefineEnv} :
    ∀ cs : List (Click L), (∀ c ∈ cs, Settled C Inv env c) →
    ∃ cs', refineLoop C env none cs = (none, cs', cs', .ok ()) ∧ List.Forall₂ (Unchanged C Inv) cs cs' := by
  intro cs
  induction cs with
  | nil => intro _; exact ⟨[], rfl, .nil⟩
  | cons c cs ih =>
    intro h
    obtain ⟨c', e, hu⟩ := (h c List.mem_cons_self).refineOne laws fin
    obtain ⟨cs', e2, hus⟩ := ih fun x hx => h x (List.mem_cons_of_mem _ hx)
    refine ⟨c' :: cs', ?_, .cons hu hus⟩
    rw [refineLoop, e]
    simp only [e2, if_true]

/-- **C143 (refinement).** With `trunc_integer` (the default), for both LHS classes: after a refinement that returned, the same refinement, or one
that compares fewer digits, returns, keeps every click, and changes neither the continued fractions nor the values of the left hand sides. -/
theorem C143_refine_partial {C : LhsClass L} {Inv : L → Prop} {key : Click L → κ} {out : κ → κ → Except PyErr Bool} (laws : SearchLaws C Inv key out)
    {env : RefineEnv} (ht : env.trunc = true) {m : ℤ} (hm : m = env.accuracy ∨ 0 ≤ m ∧ m ≤ env.accuracy) {b b' : Option ℕ}
    {cs kept : List (Click L)} (hi : ∀ c ∈ cs, Inv c.lhs) (h : refineClicks C env (b, cs) = ((b', kept), .ok ())) :
    ∃ kept', refineClicks C { env with accuracy := m } (none, kept) = ((none, kept'), .ok ()) ∧ List.Forall₂ (Unchanged C Inv) kept kept' := by
  rw [refineClicks] at h
  split at h
  · rename_i b2 all kept2 hl
    cases h
    have hs := refineLoop_settled laws.lhs laws.finite ht _ _ _ _ _ hi hl
    obtain ⟨kept', e, hu⟩ := settled_loop laws.lhs laws.finite _ fun c hc => (hs c hc).fewer hm
    exact ⟨kept', by rw [refineClicks, e], hu⟩
  · cases h

/-- `5.2348` and `3.2349` up to 3 digits: the value is adjusted once (to `4.2349`). -/
example : ∃ kept, refineClicks ulcdClass (exRefine (52348 / 10000) 3) (none, [⟨[[1]], [[1]], exUlcd (32349 / 10000), 0, none⟩]) = ((none, kept), .ok ()) ∧
    kept.map (fun c => c.lhs.val) = [42349 / 10000] := by
  obtain ⟨kept, h⟩ := C56_refine_returns (ulcd_laws (32349 / 10000)).total (env := exRefine (52348 / 10000) 3)
    (fun q => ⟨_, rfl⟩) (cs := [⟨[[1]], [[1]], exUlcd (32349 / 10000), 0, none⟩])
    (by
      intro c hc
      rw [List.mem_singleton] at hc
      subst hc
      exact ⟨exUlcd_ok (by norm_num), ⟨_, rfl⟩, _, rfl, .inl ⟨_, rfl, .inl ⟨_, rfl⟩⟩⟩)
  refine ⟨kept, h, ?_⟩
  have : (refineClicks ulcdClass (exRefine (52348 / 10000) 3) (none, [⟨[[1]], [[1]], exUlcd (32349 / 10000), 0, none⟩])).1.2.map
    (fun c => c.lhs.val) = [42349 / 10000] := by decide +kernel
  rwa [h] at this

/-- The same without `trunc_integer`, with texts that have all digits before the point. -/
def exRefineWhole (y : ℚ) (accuracy : ℤ) : RefineEnv :=
  { exRefine y accuracy with
    trunc := false
    eng := fun
      | .fin q => .ok (Nat.toDigits 10 ⌊q⌋.toNat ++ ['.'] ++ Nat.toDigits 10 ⌊q * 100 % 100⌋.toNat)
      | _ => .error .valueError }

/-- **C143 (violated).** Without `trunc_integer` the adjustment can spoil a match: of `100000.1` and `10000.95` the first five characters agree, so the
click is kept with the left hand side raised to `99999.95`; the same refinement then drops it. -/
theorem C143_whole_violated :
    (refineClicks ulcdClass (exRefineWhole (1000001 / 10) 3) (none, [⟨[[1]], [[1]], exUlcd (1000095 / 100), 0, none⟩])).1.2.map
      (fun c => c.lhs.val) = [9999995 / 100] ∧
    ((refineClicks ulcdClass (exRefineWhole (1000001 / 10) 3) (none,
      (refineClicks ulcdClass (exRefineWhole (1000001 / 10) 3) (none, [⟨[[1]], [[1]], exUlcd (1000095 / 100), 0, none⟩])).1.2)).1.2.length) = 0 :=
  ⟨by decide +kernel, by decide +kernel⟩

theorem filterExp_passes {fast : Polys → Polys → Except PyErr Bool} {report : Polys → Polys → Except PyErr Unit} {print : Bool} :
    ∀ {cs cs' : List (Click L)}, filterExp.loop fast report print cs = .ok cs' → ∀ c ∈ cs', fast c.a c.b = .ok true := by
  intro cs
  induction cs with
  | nil => intro cs' h; cases h; nofun
  | cons c cs ih =>
    intro cs' h
    rw [filterExp.loop] at h
    cases hf : fast c.a c.b with
    | error e => rw [hf] at h; cases h
    | ok b =>
      rw [hf] at h
      cases b with
      | true =>
        simp only at h
        cases hl : filterExp.loop fast report print cs with
        | error e => rw [hl] at h; cases h
        | ok r =>
          rw [hl] at h
          cases h
          intro x hx
          rcases List.mem_cons.1 hx with rfl | hx
          · exact hf
          · exact ih hl x hx
      | false =>
        simp only at h
        split at h
        · cases h
        · exact ih h

theorem filterExp_all {fast : Polys → Polys → Except PyErr Bool} {report : Polys → Polys → Except PyErr Unit} {print : Bool} :
    ∀ {cs : List (Click L)}, (∀ c ∈ cs, fast c.a c.b = .ok true) → filterExp.loop fast report print cs = .ok cs := by
  intro cs
  induction cs with
  | nil => intro _; rfl
  | cons c cs ih =>
    intro h
    rw [filterExp.loop, h c List.mem_cons_self]
    simp only
    rw [ih fun x hx => h x (List.mem_cons_of_mem _ hx)]

/-- What a click kept by `filter_clicks_by_approach_type` is like. -/
def Estimated (build : Polys → Polys → Except PyErr Unit) (estimate : Polys → Polys → Except PyErr Conv) (white black : List ApproachType) (c : Click L) :
    Prop := build c.a c.b = .ok () ∧ ∃ conv, estimate c.a c.b = .ok conv ∧ c.conv = some conv ∧
      ((white ≠ [] ∧ conv.1 ∈ white) ∨ (black ≠ [] ∧ conv.1 ∉ black))

theorem approachLoop_estimated {build : Polys → Polys → Except PyErr Unit} {estimate : Polys → Polys → Except PyErr Conv} {white black : List ApproachType} :
    ∀ {cs cs' : List (Click L)}, approachLoop build estimate white black cs = .ok cs' → ∀ c ∈ cs', Estimated build estimate white black c := by
  intro cs
  induction cs with
  | nil => intro cs' h; cases h; nofun
  | cons c cs ih =>
    intro cs' h
    rw [approachLoop] at h
    cases hb : build c.a c.b with
    | error e => rw [hb] at h; cases h
    | ok u =>
      rw [hb] at h
      simp only at h
      cases he : estimate c.a c.b with
      | error e =>
        rw [he] at h
        cases e <;> first | cases h | exact ih h
      | ok conv =>
        rw [he] at h
        simp only at h
        cases hl : approachLoop build estimate white black cs with
        | error e => rw [hl] at h; cases h
        | ok r =>
          rw [hl] at h
          simp only at h
          split at h
          · rename_i hacc
            cases h
            intro x hx
            rcases List.mem_cons.1 hx with rfl | hx
            · exact ⟨hb, conv, he, rfl, hacc⟩
            · exact ih hl x hx
          · cases h
            exact ih hl

theorem approachLoop_all {build : Polys → Polys → Except PyErr Unit} {estimate : Polys → Polys → Except PyErr Conv} {white black : List ApproachType} :
    ∀ {cs : List (Click L)}, (∀ c ∈ cs, Estimated build estimate white black c) → approachLoop build estimate white black cs = .ok cs := by
  intro cs
  induction cs with
  | nil => intro _; rfl
  | cons c cs ih =>
    intro h
    obtain ⟨hb, conv, he, hc, hacc⟩ := h c List.mem_cons_self
    rw [approachLoop, hb]
    simp only [he]
    rw [ih fun x hx => h x (List.mem_cons_of_mem _ hx)]
    simp only
    rw [if_pos hacc, ← hc]

/-- **C143 (filters).** After a filter by the speed of convergence, by positive integer roots, or by approach type has returned, the same filter returns and
changes nothing. -/
theorem C143_filters {cs cs' : List (Click L)} :
    (∀ fast report print, filterExp fast report print cs = (cs', .ok ()) → filterExp fast report print cs' = (cs', .ok ())) ∧
    (∀ roots, filterPosIntRoots roots cs = (cs', .ok ()) → filterPosIntRoots roots cs' = (cs', .ok ())) ∧
    ∀ build estimate white black, filterByApproach build estimate white black cs = (cs', .ok ()) →
      filterByApproach build estimate white black cs' = (cs', .ok ()) := by
  refine ⟨?_, ?_, ?_⟩
  · intro fast report print h
    rw [filterExp] at h ⊢
    cases hl : filterExp.loop fast report print cs with
    | error e => rw [hl] at h; cases h
    | ok r =>
      rw [hl] at h
      cases h
      rw [filterExp_all (filterExp_passes hl)]
  · intro roots h
    rw [filterPosIntRoots] at h ⊢
    cases h
    rw [List.filter_filter]
    simp
  · intro build estimate white black h
    rw [filterByApproach] at h ⊢
    split at h
    · cases h
    · split at h
      · cases h
      · rename_i h1 h2
        rw [if_neg h1, if_neg h2]
        cases hl : approachLoop build estimate (white.getD []) (black.getD []) cs with
        | error e => rw [hl] at h; cases h
        | ok r =>
          rw [hl] at h
          cases h
          rw [approachLoop_all (approachLoop_estimated hl)]

/-- A click dropped, a click kept. -/
example : (filterByApproach (L := Unit) (fun _ _ => .ok ()) (fun a _ => if a = [[1]] then .ok (.exp, none) else .ok (.poly, none)) (some [.exp]) none
    [⟨[[1]], [[1]], (), 0, none⟩, ⟨[[2]], [[1]], (), 0, none⟩]) = ([⟨[[1]], [[1]], (), 0, some (.exp, none)⟩], .ok ()) := rfl

/-- **C143 (unique).** The second of the two calls of `filter_uniq_params` in main.py:152-153 drops nothing: it returns, and the clicks have the same
continued fractions, functions and values. -/
theorem C143_unique {C : LhsClass L} {Inv : L → Prop} {key : Click L → κ} {out : κ → κ → Except PyErr Bool} (laws : SearchLaws C Inv key out)
    {cs cs' : List (Click L)} (hi : ∀ c ∈ cs, Inv c.lhs) (h : filterUniq C cs = (cs', .ok ())) :
    ∃ cs'', filterUniq C cs' = (cs'', .ok ()) ∧ List.Forall₂ (fun c c' => SameClick c c' ∧ C.val c'.lhs = C.val c.lhs) cs' cs'' := by
  obtain ⟨cs'', e, hf⟩ := C59_twice laws.equiv hi h
  exact ⟨cs'', e, hf.imp fun c c' h => ⟨h.click, congrArg Prod.snd h.key_eq⟩⟩

end PiCF
