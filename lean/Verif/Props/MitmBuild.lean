import Mathlib.Data.List.Perm.Basic
import Verif.Model.Mitm
import Verif.Spec.Mitm
import Verif.Lemmas.Hashtable

/-!
# C51, C52, C53: building the hashtable
-/

namespace PiCF
open PiCF.Spec PiCF.Hashtable PiCF.Mitm PiCF.EnumPoly

/-- What a build may do to the table: it keeps everything, in place, and adds only entries allowed by `J`. -/
structure Grows (J : ℚ → Entry → Prop) (t t' : Table (Val Entry)) : Prop where
  accuracy : t'.accuracy = t.accuracy
  history : t'.history = t.history
  pre : ∀ κ, entries t κ <+: entries t' κ
  added : ∀ κ e, e ∈ entries t' κ → e ∈ entries t κ ∨ ∃ k, κ = .num k ∧ J k e
  nodup : (∀ κ, (entries t κ).Nodup) → ∀ κ, (entries t' κ).Nodup
  wf : WF t → WF t'
  others : ∀ κ, (∀ k, κ ≠ .num k) → t'.data.get? κ = t.data.get? κ
  keys : ∀ κ, present t κ → present t' κ

theorem Grows.refl (J : ℚ → Entry → Prop) (t : Table (Val Entry)) : Grows J t t :=
  ⟨rfl, rfl, fun _ => List.prefix_rfl, fun _ _ h => .inl h, id, id, fun _ _ => rfl, fun _ => id⟩

theorem Grows.trans {J : ℚ → Entry → Prop} {t1 t2 t3 : Table (Val Entry)} (h : Grows J t1 t2) (h' : Grows J t2 t3) :
    Grows J t1 t3 where
  accuracy := h'.accuracy.trans h.accuracy
  history := h'.history.trans h.history
  pre κ := (h.pre κ).trans (h'.pre κ)
  added κ e he := (h'.added κ e he).elim (h.added κ e) .inr
  nodup hn := h'.nodup (h.nodup hn)
  wf hw := h'.wf (h.wf hw)
  others κ hκ := (h'.others κ hκ).trans (h.others κ hκ)
  keys κ hk := h'.keys κ (h.keys κ hk)

theorem Grows.mono {J J' : ℚ → Entry → Prop} (hJ : ∀ k e, J k e → J' k e) {t t' : Table (Val Entry)} (h : Grows J t t') :
    Grows J' t t' :=
  { h with added := fun κ e he => (h.added κ e he).imp id fun ⟨k, hk, hj⟩ => ⟨k, hk, hJ k e hj⟩ }

theorem entries_of_get (t : Table (Val Entry)) (κ : Key) {es : List Entry} (h : t.get κ (.list []) = .list es) :
    entries t κ = es := by
  rw [Table.get] at h
  rw [entries]
  cases hg : t.data.get? κ with
  | none => rw [hg] at h; simpa using h
  | some w =>
    rw [hg, Option.getD_some] at h
    subst h
    rfl

theorem store_grows (k : ℚ) (e : Entry) (s : BSt) : Grows (fun k' e' => k' = k ∧ e' = e) s.table (store k e s).1.table := by
  rw [store]
  split
  · exact Grows.refl _ _
  · rename_i es hes
    have hent := entries_of_get s.table _ hes
    split
    · exact Grows.refl _ _
    · rename_i hmem
      have hnew : ∀ κ, entries { s.table with data := s.table.data.set (.num k) (.list (es ++ [e])) } κ =
          if κ = .num k then es ++ [e] else entries s.table κ := by
        intro κ
        rw [entries, Dict.get?_set]
        by_cases hk : κ = .num k
        · rw [if_pos hk, if_pos hk]
        · rw [if_neg hk, if_neg hk]; rfl
      refine ⟨rfl, rfl, ?_, ?_, ?_, ?_, ?_, ?_⟩
      · intro κ
        rw [hnew]
        split
        · rename_i hk; rw [hk, hent]; exact List.prefix_append _ _
        · exact List.prefix_rfl
      · intro κ e' he'
        rw [hnew] at he'
        split at he'
        · rename_i hk
          rcases List.mem_append.1 he' with h | h
          · left; rw [hk, hent]; exact h
          · right; exact ⟨k, hk, rfl, List.mem_singleton.1 h⟩
        · exact .inl he'
      · intro hn κ
        rw [hnew]
        split
        · have := hn (.num k)
          rw [hent] at this
          rw [List.nodup_append]
          refine ⟨this, by simp, ?_⟩
          intro a ha b hb
          rw [List.mem_singleton.1 hb]
          rintro rfl
          exact hmem ha
        · exact hn κ
      · intro hw; exact Dict.nodup_set hw _ _
      · intro κ hκ; exact Dict.get?_set_ne _ _ (hκ k)
      · intro κ hκ
        rw [present, Dict.keys_set]
        split
        · exact hκ
        · exact List.mem_append_left _ hκ

theorem toInt_abs (y : ℚ) : toInt (.fin |y|) = .ok ⌊|y|⌋ := by rw [toInt, if_pos (abs_nonneg y)]

theorem truncate_abs (trunc : Bool) (y : ℚ) : truncate trunc (absNum (.fin y)) = .ok (.fin (searchKey trunc y)) := by
  rw [truncate, absNum, searchKey]
  cases trunc
  · rfl
  · simp only [if_true]
    rw [toInt_abs]
    rfl

/-- What one function contributes. -/
def FuncJ (env : Env) (pa pb : Polys) (v : ℚ) (i : ℕ) (k : ℚ) (e : Entry) : Prop :=
  e = ((pa, pb), i) ∧ ∃ f y, env.funcs[i]? = some f ∧ f (.fin v) = .ok (.fin y) ∧ y ≠ 0 ∧ k = searchKey env.trunc y

theorem funcBody_grows (env : Env) (pa pb : Polys) (v : ℚ) (i : ℕ) (s : BSt) :
    Grows (FuncJ env pa pb v i) s.table (funcBody env pa pb (.fin v) i s).1.table := by
  rw [funcBody]
  cases hf : env.funcs[i]? with
  | none => exact Grows.refl _ _
  | some f =>
    simp only
    cases hy : f (.fin v) with
    | error e => exact Grows.refl _ _
    | ok y =>
      simp only
      cases y with
      | inf => exact Grows.refl _ _
      | nan => exact Grows.refl _ _
      | fin y =>
        by_cases h0 : y = 0
        · rw [if_neg (by simp [Num.isNormal, h0])]; exact Grows.refl _ _
        · rw [if_pos (by simp [Num.isNormal, h0]), truncate_abs]
          have := store_grows (searchKey env.trunc y) ((pa, pb), i) ⟨s.table, true, s.evals, s.fevals ++ [((pa, pb), i)]⟩
          refine Grows.mono ?_ this
          rintro k e ⟨rfl, rfl⟩
          exact ⟨rfl, f, y, hf, hy, h0, rfl⟩

theorem bind_rel {σ α β : Type} {R : σ → σ → Prop} (htrans : ∀ a b c, R a b → R b c → R a c) {x : PyM σ α} {f : α → PyM σ β}
    {s : σ} (hx : R s (x s).1) (hf : ∀ a s', x s = (s', .ok a) → R s' (f a s').1) : R s ((x >>= f) s).1 := by
  rcases hxs : x s with ⟨s', e | a⟩
  · rw [PyM.bind_error hxs]; rw [hxs] at hx; exact hx
  · rw [PyM.bind_ok hxs]
    rw [hxs] at hx
    exact htrans _ _ _ hx (hf a s' hxs)

theorem funcLoop_grows (env : Env) (pa pb : Polys) (v : ℚ) (is : List ℕ) (s : BSt) :
    Grows (fun k e => ∃ i ∈ is, FuncJ env pa pb v i k e) s.table (funcLoop env pa pb (.fin v) is s).1.table := by
  induction is generalizing s with
  | nil => exact Grows.refl _ _
  | cons i is ih =>
    rw [funcLoop]
    refine bind_rel (R := fun a b : BSt => Grows _ a.table b.table) (fun a b c => Grows.trans) ?_ ?_
    · exact Grows.mono (fun k e h => ⟨i, by simp, h⟩) (funcBody_grows env pa pb v i s)
    · intro _ s' _
      exact Grows.mono (fun k e ⟨j, hj, h⟩ => ⟨j, by simp [hj], h⟩) (ih s')

theorem bind_ok_inv {σ α β : Type} {x : PyM σ α} {f : α → PyM σ β} {s s'' : σ} {b : β} (h : (x >>= f) s = (s'', .ok b)) :
    ∃ a s', x s = (s', .ok a) ∧ f a s' = (s'', .ok b) := by
  rcases hxs : x s with ⟨s', e | a⟩
  · rw [PyM.bind_error hxs] at h; cases h
  · rw [PyM.bind_ok hxs] at h; exact ⟨a, s', rfl, h⟩

theorem store_complete {k : ℚ} {e : Entry} {s s' : BSt} (h : store k e s = (s', .ok ())) : e ∈ entries s'.table (.num k) := by
  rw [store] at h
  split at h
  · cases h
  · rename_i es hes
    split at h
    · rename_i hm; cases h; rw [entries_of_get _ _ hes]; exact hm
    · cases h
      show e ∈ entries { s.table with data := s.table.data.set (.num k) (.list (es ++ [e])) } (.num k)
      rw [entries]
      simp

theorem funcBody_complete {env : Env} {pa pb : Polys} {v : ℚ} {i : ℕ} {s s' : BSt}
    (h : funcBody env pa pb (.fin v) i s = (s', .ok ())) {k : ℚ} {e : Entry} (hj : FuncJ env pa pb v i k e) :
    e ∈ entries s'.table (.num k) := by
  obtain ⟨rfl, f, y, hf, hy, h0, rfl⟩ := hj
  rw [funcBody] at h
  simp only [hf, hy] at h
  rw [if_pos (by simp [Num.isNormal, h0]), truncate_abs] at h
  exact store_complete h

theorem funcLoop_complete {env : Env} {pa pb : Polys} {v : ℚ} (is : List ℕ) : ∀ {s s' : BSt},
    funcLoop env pa pb (.fin v) is s = (s', .ok ()) → ∀ {i k e}, i ∈ is → FuncJ env pa pb v i k e →
    e ∈ entries s'.table (.num k) := by
  induction is with
  | nil => intro _ _ _ _ _ _ hi; cases hi
  | cons j is ih =>
    intro s s' h i k e hi hj
    rw [funcLoop] at h
    obtain ⟨⟨⟩, s1, h1, h2⟩ := bind_ok_inv h
    rcases List.mem_cons.1 hi with rfl | hi
    · have := funcLoop_grows env pa pb v is s1
      rw [h2] at this
      exact (this.pre _).subset (funcBody_complete h1 hj)
    · exact ih h2 hi hj

theorem selected_ok {env : Env} {sel : List Obj} (h : selected env = .ok sel) : sel = env.filter.dedup.map .pair := by
  rw [selected] at h
  split at h
  · exact (Except.ok.inj h).symm
  · cases h

theorem toEval_eq (is : List ℕ) (bl : List Entry) (pa pb : Polys) :
    toEval (is.map .pair) bl pa pb = some (is.map .pair) ∨ (is = [] ∧ toEval (is.map .pair) bl pa pb = none) := by
  rw [toEval]
  split
  · have : (is.map Obj.pair).filter (fun o => decide
        (o ∉ (bl.filter fun e => decide (e.1 = (pa, pb))).map fun e => Obj.int e.2)) = is.map Obj.pair := by
      rw [List.filter_eq_self]
      intro o ho
      obtain ⟨i, _, rfl⟩ := List.mem_map.1 ho
      simp
    simp only [this]
    cases is with
    | nil => right; exact ⟨rfl, rfl⟩
    | cons i is => left; rfl
  · exact .inl rfl

theorem map_index_pair (is : List ℕ) : (is.map Obj.pair).map Obj.index = is := by
  rw [List.map_map]
  exact List.map_id' is

/-- What one pair contributes. -/
def PairJ (env : Env) (pa pb : Polys) (k : ℚ) (e : Entry) : Prop :=
  e.1 = (pa, pb) ∧ Belongs env.cfv env.funcs env.filter env.trunc k e

theorem pairJ_iff (env : Env) (pa pb : Polys) (k : ℚ) (e : Entry) :
    PairJ env pa pb k e ↔ ∃ v, env.cfv pa pb = .ok (.fin v) ∧ v ≠ 0 ∧ ∃ i ∈ env.filter, FuncJ env pa pb v i k e := by
  constructor
  · obtain ⟨⟨a, b⟩, i⟩ := e
    rintro ⟨he, v, f, y, hc, hv, hi, hf, hy, h0, hk⟩
    cases he
    exact ⟨v, hc, hv, i, hi, rfl, f, y, hf, hy, h0, hk⟩
  · rintro ⟨v, hc, hv, i, hi, rfl, f, y, hf, hy, h0, hk⟩
    exact ⟨rfl, v, f, y, hc, hv, hi, hf, hy, h0, hk⟩

theorem abBody_grows {env : Env} (ho : IsSetOrder env.order) {sel : List Obj} (hsel : selected env = .ok sel) (bl : List Entry)
    (pa pb : Polys) (s : BSt) : Grows (PairJ env pa pb) s.table (abBody env sel bl pa pb s).1.table := by
  rw [selected_ok hsel, abBody]
  rcases toEval_eq env.filter.dedup bl pa pb with h | ⟨-, h⟩
  swap
  · rw [h]; exact Grows.refl _ _
  rw [h]
  simp only
  split
  · exact Grows.refl _ _
  · exact Grows.refl _ _
  · rename_i v hv
    split
    · rename_i hn
      cases v with
      | inf => cases hn
      | nan => cases hn
      | fin v =>
        have := funcLoop_grows env pa pb v (env.order ((env.filter.dedup.map Obj.pair).map Obj.index))
          ⟨s.table, s.kBound, s.evals ++ [(pa, pb)], s.fevals⟩
        refine Grows.mono ?_ this
        rintro k e ⟨i, hi, hj⟩
        rw [map_index_pair] at hi
        refine (pairJ_iff env pa pb k e).2 ⟨v, hv, by simpa [Num.isNormal] using hn, i, ?_, hj⟩
        exact List.mem_dedup.1 ((ho _ (List.nodup_dedup _)).subset hi)
    · exact Grows.refl _ _

theorem abBody_complete {env : Env} (ho : IsSetOrder env.order) {sel : List Obj} (hsel : selected env = .ok sel) {bl : List Entry}
    {pa pb : Polys} {s s' : BSt} (h : abBody env sel bl pa pb s = (s', .ok ())) {k : ℚ} {e : Entry} (hj : PairJ env pa pb k e) :
    e ∈ entries s'.table (.num k) := by
  obtain ⟨v, hc, hv, i, hi, hf⟩ := (pairJ_iff env pa pb k e).1 hj
  have hi' : i ∈ env.filter.dedup := List.mem_dedup.2 hi
  rw [selected_ok hsel, abBody] at h
  rcases toEval_eq env.filter.dedup bl pa pb with h' | ⟨h', -⟩
  swap
  · rw [h'] at hi'; cases hi'
  rw [h'] at h
  simp only [hc] at h
  rw [if_pos (by simp [Num.isNormal, hv]), map_index_pair] at h
  exact funcLoop_complete _ h ((ho _ (List.nodup_dedup _)).mem_iff.2 hi') hf

/-- What a build contributes. -/
def BuildJ (env : Env) (abs : List (Polys × Polys)) (k : ℚ) (e : Entry) : Prop :=
  e.1 ∈ abs ∧ Belongs env.cfv env.funcs env.filter env.trunc k e

theorem abLoop_grows {env : Env} (ho : IsSetOrder env.order) {sel : List Obj} (hsel : selected env = .ok sel) (bl : List Entry)
    (abs : List (Polys × Polys)) (s : BSt) : Grows (BuildJ env abs) s.table (abLoop env sel bl abs s).1.table := by
  induction abs generalizing s with
  | nil => exact Grows.refl _ _
  | cons ab abs ih =>
    rw [abLoop]
    refine bind_rel (R := fun a b : BSt => Grows _ a.table b.table) (fun a b c => Grows.trans) ?_ ?_
    · exact Grows.mono (fun k e h => ⟨by rw [h.1]; simp, h.2⟩) (abBody_grows ho hsel bl ab.1 ab.2 s)
    · intro _ s' _
      exact Grows.mono (fun k e h => ⟨List.mem_cons_of_mem _ h.1, h.2⟩) (ih s')

theorem abLoop_complete {env : Env} (ho : IsSetOrder env.order) {sel : List Obj} (hsel : selected env = .ok sel) {bl : List Entry}
    (abs : List (Polys × Polys)) : ∀ {s s' : BSt}, abLoop env sel bl abs s = (s', .ok ()) → ∀ {k e}, BuildJ env abs k e →
    e ∈ entries s'.table (.num k) := by
  induction abs with
  | nil => intro _ _ _ _ _ hj; cases hj.1
  | cons ab abs ih =>
    intro s s' h k e hj
    rw [abLoop] at h
    obtain ⟨⟨⟩, s1, h1, h2⟩ := bind_ok_inv h
    rcases List.mem_cons.1 hj.1 with hab | hab
    · have := abLoop_grows ho hsel bl abs s1
      rw [h2] at this
      exact (this.pre _).subset (abBody_complete ho hsel h1 ⟨hab, hj.2⟩)
    · exact ih h2 ⟨hab, hj.2⟩

theorem iter_grows {env : Env} (ho : IsSetOrder env.order) (validate : Bool) (gen : List (Polys × Polys) × Except PyErr Unit)
    (s : BSt) : Grows (BuildJ env gen.1) s.table (iter2hashtable env validate gen s).1.table := by
  rw [iter2hashtable]
  split
  · exact Grows.refl _ _
  · rename_i sel hsel
    split
    · exact Grows.refl _ _
    · rename_i bl _
      have := abLoop_grows ho hsel bl gen.1 s
      split <;> rename_i hr <;> rw [hr] at this <;> exact this

theorem iter_complete {env : Env} (ho : IsSetOrder env.order) {validate : Bool} {gen : List (Polys × Polys) × Except PyErr Unit}
    {s s' : BSt} (h : iter2hashtable env validate gen s = (s', .ok ())) {k : ℚ} {e : Entry} (hj : BuildJ env gen.1 k e) :
    e ∈ entries s'.table (.num k) := by
  rw [iter2hashtable] at h
  split at h
  · cases h
  · rename_i sel hsel
    split at h
    · cases h
    · rename_i bl _
      split at h
      · cases h
      · rename_i s1 hr
        obtain ⟨rfl, -⟩ := Prod.mk.inj h
        exact abLoop_complete ho hsel _ hr hj

/-- The pairs the enumerator of `enum_poly_params.py` yields (characterised in C34). -/
def enumerated (manip : Manip) (cfg : Config) (ra rb : Ranges) : List (Polys × Polys) :=
  (polysGenerator manip { cfg with genContFrac := false } ra rb).1.map fun it => (it.pas, it.pbs)

theorem build_grows {env : Env} (ho : IsSetOrder env.order) (manip : Manip) (cfg : Config) (validate : Bool) (ra rb : Ranges)
    (t : Table (Val Entry)) :
    Grows (BuildJ env (enumerated manip cfg ra rb)) t (buildHashtable env manip cfg validate ra rb t).1 :=
  iter_grows ho validate (enumerated manip cfg ra rb, (polysGenerator manip { cfg with genContFrac := false } ra rb).2)
    ⟨t, false, [], []⟩

/-! ### C51 -/

/-- **C51 (sound).** Whatever the outcome (also when an exception stops the build), every entry of the table after
`build_hashtable` was there before under the same key, or its pair was enumerated and it belongs under this key. -/
theorem C51_sound {env : Env} (ho : IsSetOrder env.order) (manip : Manip) (cfg : Config) (validate : Bool) (ra rb : Ranges)
    (t : Table (Val Entry)) (κ : Key) (e : Entry)
    (he : e ∈ entries (buildHashtable env manip cfg validate ra rb t).1 κ) :
    e ∈ entries t κ ∨
      ∃ k, κ = .num k ∧ e.1 ∈ enumerated manip cfg ra rb ∧ Belongs env.cfv env.funcs env.filter env.trunc k e :=
  (build_grows ho manip cfg validate ra rb t).added κ e he

/-- **C51 (complete).** After a `build_hashtable` that returns normally, every enumerated pair is stored for every selected
function, under every key where it belongs. -/
theorem C51_complete {env : Env} (ho : IsSetOrder env.order) {manip : Manip} {cfg : Config} {validate : Bool} {ra rb : Ranges}
    {t t' : Table (Val Entry)} (h : buildHashtable env manip cfg validate ra rb t = (t', .ok ())) {k : ℚ} {e : Entry}
    (hab : e.1 ∈ enumerated manip cfg ra rb) (hb : Belongs env.cfv env.funcs env.filter env.trunc k e) :
    e ∈ entries t' (.num k) := by
  rw [buildHashtable] at h
  simp only [Prod.mk.injEq] at h
  obtain ⟨h1, h2⟩ := h
  subst h1
  exact iter_complete ho (Prod.ext rfl h2) ⟨hab, hb⟩

/-- Exact post-processing `x ↦ x` and `x ↦ x**2`, continued fractions of depth 2, and the selection of both. -/
def exEnv : Env where
  funcs := [fun x => .ok x, fun | .fin q => .ok (.fin (q ^ 2)) | x => .ok x]
  filter := [0, 1, 1]
  trunc := true
  cfv := polysValue 2
  order := id

/-- `2 + 1/2 = 5/2`: stored under `1/2`, and `25/4` under `1/4`. -/
example : IsSetOrder exEnv.order ∧
    iter2hashtable exEnv true ([([[2]], [[1]])], .ok ()) ⟨Table.init 3, false, [], []⟩ =
      (⟨⟨4, [], [(.num (1 / 2), .list [(([[2]], [[1]]), 0)]), (.num (1 / 4), .list [(([[2]], [[1]]), 1)])]⟩, true,
        [([[2]], [[1]])], [(([[2]], [[1]]), 0), (([[2]], [[1]]), 1)]⟩, .ok ()) := by
  refine ⟨fun l _ => List.Perm.refl l, ?_⟩
  decide +kernel

/-! ### C52 -/

/-- A sequence of builds, with arbitrary settings each (the selection, the functions, the ranges and the enumerator class
may change in between); an exception may end any of them. -/
def builds : List (Env × Manip × Config × Bool × Ranges × Ranges) → Table (Val Entry) → Table (Val Entry)
  | [], t => t
  | (env, manip, cfg, validate, ra, rb) :: bs, t => builds bs (buildHashtable env manip cfg validate ra rb t).1

/-- **C52.** Any sequence of builds keeps all earlier entries (every list of entries is only extended at its end), and
never stores an entry twice under one key. -/
theorem C52_no_loss_no_duplicates (bs : List (Env × Manip × Config × Bool × Ranges × Ranges))
    (ho : ∀ b ∈ bs, IsSetOrder b.1.order) (t : Table (Val Entry)) :
    (∀ κ, entries t κ <+: entries (builds bs t) κ) ∧ (∀ κ, present t κ → present (builds bs t) κ) ∧
    ((∀ κ, (entries t κ).Nodup) → ∀ κ, (entries (builds bs t) κ).Nodup) ∧ (WF t → WF (builds bs t)) := by
  induction bs generalizing t with
  | nil => exact ⟨fun _ => List.prefix_rfl, fun _ => id, id, id⟩
  | cons b bs ih =>
    obtain ⟨env, manip, cfg, validate, ra, rb⟩ := b
    have g := build_grows (ho _ List.mem_cons_self) manip cfg validate ra rb t
    obtain ⟨h1, h2, h3, h4⟩ := ih (fun b hb => ho b (by simp [hb])) (buildHashtable env manip cfg validate ra rb t).1
    exact ⟨fun κ => (g.pre κ).trans (h1 κ), fun κ h => h2 κ (g.keys κ h), fun h => h3 (g.nodup h), fun h => h4 (g.wf h)⟩

theorem store_present {k : ℚ} {e : Entry} {s : BSt} (h : e ∈ entries s.table (.num k)) : (store k e s).1.table = s.table := by
  rw [store]
  split
  · rfl
  · rename_i es hes
    rw [entries_of_get _ _ hes] at h
    rw [if_pos h]

theorem funcBody_noop {env : Env} {pa pb : Polys} {v : ℚ} {i : ℕ} {s : BSt}
    (h : ∀ k e, FuncJ env pa pb v i k e → e ∈ entries s.table (.num k)) :
    (funcBody env pa pb (.fin v) i s).1.table = s.table := by
  rw [funcBody]
  cases hf : env.funcs[i]? with
  | none => rfl
  | some f =>
    simp only
    cases hy : f (.fin v) with
    | error e => rfl
    | ok y =>
      simp only
      cases y with
      | inf => rfl
      | nan => rfl
      | fin y =>
        by_cases h0 : y = 0
        · rw [if_neg (by simp [Num.isNormal, h0])]
        · rw [if_pos (by simp [Num.isNormal, h0]), truncate_abs]
          exact store_present (s := ⟨s.table, true, s.evals, s.fevals ++ [((pa, pb), i)]⟩) (h _ _ ⟨rfl, f, y, hf, hy, h0, rfl⟩)

theorem bind_noop {σ α β γ : Type} (g : σ → γ) {x : PyM σ α} {f : α → PyM σ β} {s : σ} (hx : g (x s).1 = g s)
    (hf : ∀ a s', g s' = g s → g (f a s').1 = g s') : g ((x >>= f) s).1 = g s := by
  rcases hxs : x s with ⟨s', e | a⟩
  · rw [PyM.bind_error hxs]; rw [hxs] at hx; exact hx
  · rw [PyM.bind_ok hxs]
    rw [hxs] at hx
    exact (hf a s' hx).trans hx

theorem funcLoop_noop {env : Env} {pa pb : Polys} {v : ℚ} {t : Table (Val Entry)} (is : List ℕ)
    (h : ∀ i ∈ is, ∀ k e, FuncJ env pa pb v i k e → e ∈ entries t (.num k)) :
    ∀ {s : BSt}, s.table = t → (funcLoop env pa pb (.fin v) is s).1.table = s.table := by
  induction is with
  | nil => intro s _; rfl
  | cons i is ih =>
    intro s hs
    rw [funcLoop]
    refine bind_noop BSt.table ?_ ?_
    · apply funcBody_noop
      rw [hs]
      exact h i (by simp)
    · intro _ s' hs'
      exact ih (fun j hj => h j (by simp [hj])) (hs'.trans hs)

theorem abBody_noop {env : Env} (ho : IsSetOrder env.order) {sel : List Obj} (hsel : selected env = .ok sel) (bl : List Entry)
    {pa pb : Polys} {s : BSt} (h : ∀ k e, PairJ env pa pb k e → e ∈ entries s.table (.num k)) :
    (abBody env sel bl pa pb s).1.table = s.table := by
  rw [selected_ok hsel, abBody]
  rcases toEval_eq env.filter.dedup bl pa pb with h' | ⟨-, h'⟩
  swap
  · rw [h']
  rw [h']
  simp only
  split
  · rfl
  · rfl
  · rename_i v hv
    split
    · rename_i hn
      cases v with
      | inf => cases hn
      | nan => cases hn
      | fin v =>
        refine funcLoop_noop (t := s.table) (s := ⟨s.table, s.kBound, s.evals ++ [(pa, pb)], s.fevals⟩) _ ?_ rfl
        intro i hi k e hj
        rw [map_index_pair] at hi
        refine h k e ((pairJ_iff env pa pb k e).2 ⟨v, hv, by simpa [Num.isNormal] using hn, i, ?_, hj⟩)
        exact List.mem_dedup.1 ((ho _ (List.nodup_dedup _)).subset hi)
    · rfl

theorem abLoop_noop {env : Env} (ho : IsSetOrder env.order) {sel : List Obj} (hsel : selected env = .ok sel) (bl : List Entry)
    {t : Table (Val Entry)} (abs : List (Polys × Polys)) (h : ∀ k e, BuildJ env abs k e → e ∈ entries t (.num k)) :
    ∀ {s : BSt}, s.table = t → (abLoop env sel bl abs s).1.table = s.table := by
  induction abs with
  | nil => intro s _; rfl
  | cons ab abs ih =>
    intro s hs
    rw [abLoop]
    refine bind_noop BSt.table ?_ ?_
    · apply abBody_noop ho hsel
      rw [hs]
      exact fun k e hj => h k e ⟨by rw [hj.1]; simp, hj.2⟩
    · intro _ s' hs'
      exact ih (fun k e hj => h k e ⟨List.mem_cons_of_mem _ hj.1, hj.2⟩) (hs'.trans hs)

theorem iter_noop {env : Env} (ho : IsSetOrder env.order) (validate : Bool) {gen : List (Polys × Polys) × Except PyErr Unit}
    {s : BSt} (h : ∀ k e, BuildJ env gen.1 k e → e ∈ entries s.table (.num k)) :
    (iter2hashtable env validate gen s).1.table = s.table := by
  rw [iter2hashtable]
  split
  · rfl
  · rename_i sel hsel
    split
    · rfl
    · rename_i bl _
      have := abLoop_noop ho hsel bl gen.1 h (s := s) rfl
      split <;> rename_i hr <;> rw [hr] at this <;> exact this

/-- **C52 (rebuilding).** After a build that returned normally, building again with the same ranges and settings leaves the
table exactly as it is, also if python now iterates over the set in another order, and with or without validation. -/
theorem C52_rebuild {env : Env} (ho : IsSetOrder env.order) {order' : List ℕ → List ℕ} (ho' : IsSetOrder order') {manip : Manip}
    {cfg : Config} {validate : Bool} {ra rb : Ranges} {t t' : Table (Val Entry)}
    (h : buildHashtable env manip cfg validate ra rb t = (t', .ok ())) (validate' : Bool) :
    (buildHashtable { env with order := order' } manip cfg validate' ra rb t').1 = t' :=
  iter_noop (env := { env with order := order' }) ho' validate' (s := ⟨t', false, [], []⟩)
    (fun _ _ hj => C51_complete ho h hj.1 hj.2)

/-- A complete build of one pair from ranges, and the same build again. -/
example : ∃ t, ((buildHashtable exEnv manipBasic {} true [[(2, 3)]] [[(1, 2)]] (Table.init 3)).1 = t ∧
    (buildHashtable exEnv manipBasic {} true [[(2, 3)]] [[(1, 2)]] (Table.init 3)).2.toOption = some ()) ∧
    (buildHashtable exEnv manipBasic {} true [[(2, 3)]] [[(1, 2)]] t).1 = t :=
  ⟨⟨4, [], [(.num (1 / 2), .list [(([[2]], [[1]]), 0)]), (.num (1 / 4), .list [(([[2]], [[1]]), 1)])]⟩,
    by decide +kernel, by decide +kernel⟩

/-! ### C53 -/

theorem abBody_validate {env : Env} {sel : List Obj} (hsel : selected env = .ok sel) (hne : env.filter ≠ []) (bl bl' : List Entry)
    (pa pb : Polys) : abBody env sel bl pa pb = abBody env sel bl' pa pb := by
  have hd : env.filter.dedup ≠ [] := by
    obtain ⟨i, is, hi⟩ := List.exists_cons_of_ne_nil hne
    intro h
    have : i ∈ env.filter.dedup := List.mem_dedup.2 (by simp [hi])
    rw [h] at this
    cases this
  funext s
  rw [selected_ok hsel, abBody, abBody]
  rcases toEval_eq env.filter.dedup bl pa pb with h | ⟨h, -⟩
  · rcases toEval_eq env.filter.dedup bl' pa pb with h' | ⟨h', -⟩
    · rw [h, h']
    · exact absurd h' hd
  · exact absurd h hd

theorem abLoop_validate {env : Env} {sel : List Obj} (hsel : selected env = .ok sel) (hne : env.filter ≠ []) (bl bl' : List Entry)
    (abs : List (Polys × Polys)) : abLoop env sel bl abs = abLoop env sel bl' abs := by
  induction abs with
  | nil => rfl
  | cons ab abs ih => rw [abLoop, abLoop, ih, abBody_validate hsel hne bl bl']

/-- **C53 (partial).** If the entries of the table can be read (all values are lists, except the parameters) and at least
one function is selected, the build with validation gives exactly the same table as the one without, and the same
outcome.
Missing: no work is saved, see `C53_validation_violated`. -/
theorem C53_validation_partial {env : Env} (hne : env.filter ≠ []) {gen : List (Polys × Polys) × Except PyErr Unit} {s : BSt}
    {bl : List Entry} (hbl : blacklist s.table.data = .ok bl) :
    iter2hashtable env true gen s = iter2hashtable env false gen s := by
  rw [iter2hashtable, iter2hashtable]
  cases hsel : selected env with
  | error e => rfl
  | ok sel =>
    simp only [if_true, hbl, Bool.false_eq_true, if_false]
    rw [abLoop_validate hsel hne bl []]

/-- Building again, with the table of the example for C51 and its parameters. -/
example : exEnv.filter ≠ [] ∧ blacklist ([(.num (1 / 2), .list [(([[2]], [[1]]), 0)]), (paramsKey, .item (([], []), 0))] :
    List (Key × Val Entry)) = .ok [(([[2]], [[1]]), 0)] :=
  ⟨by decide, rfl⟩

/-- **C53 (negated).** With validation, a build over pairs that are all stored already for all selected functions evaluates
every one of them again, for every function: the set of pairs `(i, f)` minus a set of integers `i` is the same set.
(Here: the second of two identical builds.) -/
theorem C53_validation_violated :
    ∃ t, iter2hashtable exEnv true ([([[2]], [[1]])], .ok ()) ⟨Table.init 3, false, [], []⟩ =
        (⟨t, true, [([[2]], [[1]])], [(([[2]], [[1]]), 0), (([[2]], [[1]]), 1)]⟩, .ok ()) ∧
      iter2hashtable exEnv true ([([[2]], [[1]])], .ok ()) ⟨t, false, [], []⟩ =
        (⟨t, true, [([[2]], [[1]])], [(([[2]], [[1]]), 0), (([[2]], [[1]]), 1)]⟩, .ok ()) :=
  ⟨⟨4, [], [(.num (1 / 2), .list [(([[2]], [[1]]), 0)]), (.num (1 / 4), .list [(([[2]], [[1]]), 1)])]⟩,
    by decide +kernel, by decide +kernel⟩

/-- **C53 (negated, work).** In general: validation never changes which continued fractions are evaluated. -/
theorem C53_same_work_violated {env : Env} (hne : env.filter ≠ []) {gen : List (Polys × Polys) × Except PyErr Unit} {s : BSt}
    {bl : List Entry} (hbl : blacklist s.table.data = .ok bl) :
    (iter2hashtable env true gen s).1.evals = (iter2hashtable env false gen s).1.evals ∧
    (iter2hashtable env true gen s).1.fevals = (iter2hashtable env false gen s).1.fevals := by
  rw [C53_validation_partial hne hbl]
  exact ⟨rfl, rfl⟩

end PiCF
