import Verif.Model.Expand
import Verif.Props.Distribute

/-!
# C108, C109: a stored hashtable is expanded
-/

namespace PiCF
open PiCF.Spec PiCF.EnumPoly PiCF.Hashtable PiCF.Mitm

/-! ### When a build on a filled table ends normally -/

theorem abBody_ok_bl {env : Env} (ho : IsSetOrder env.order) {sel : List Obj} (hsel : selected env = .ok sel) {bl : List Entry}
    (hbl : ∀ e ∈ bl, ∃ v, env.cfv e.1.1 e.1.2 = .ok v) {pa pb : Polys} {s : BSt} (h : ListNum s.table) :
    ((abBody env sel bl pa pb s).2 = .ok () ↔ Quiet env (pa, pb)) ∧ ListNum (abBody env sel bl pa pb s).1.table := by
  rcases toEval_eq env.filter.dedup bl pa pb with h' | ⟨hf, h'⟩
  · have := abBody_ok ho hsel (pa := pa) (pb := pb) h
    rw [selected_ok hsel, abBody] at this ⊢
    rw [h']
    simpa [toEval] using this
  · have hany : (bl.any fun e => decide (e.1 = (pa, pb))) = true := by
      by_contra hn
      rw [toEval, if_neg hn] at h'
      cases h'
    obtain ⟨e, he, hab⟩ := List.any_eq_true.1 hany
    obtain ⟨v, hv⟩ := hbl e he
    rw [of_decide_eq_true hab] at hv
    have hnil : env.filter = [] := by
      rcases hl : env.filter with _ | ⟨i, l⟩
      · rfl
      · have : i ∈ env.filter.dedup := List.mem_dedup.2 (by rw [hl]; simp)
        rw [hf] at this; cases this
    rw [selected_ok hsel, abBody, h']
    refine ⟨?_, h⟩
    simp only [true_iff]
    exact .inr ⟨v, hv, fun _ i hi => by rw [hnil] at hi; cases hi⟩

theorem abLoop_ok_bl {env : Env} (ho : IsSetOrder env.order) {sel : List Obj} (hsel : selected env = .ok sel) {bl : List Entry}
    (hbl : ∀ e ∈ bl, ∃ v, env.cfv e.1.1 e.1.2 = .ok v) (abs : List (Polys × Polys)) : ∀ {s : BSt}, ListNum s.table →
    ((abLoop env sel bl abs s).2 = .ok () ↔ ∀ ab ∈ abs, Quiet env ab) ∧ ListNum (abLoop env sel bl abs s).1.table := by
  induction abs with
  | nil => intro s h; exact ⟨by simp [abLoop, pure, PyM.pure], h⟩
  | cons ab abs ih =>
    intro s h
    rw [abLoop]
    have := bind_ok_iff (I := fun s : BSt => ListNum s.table) (abBody_ok_bl ho hsel hbl (pa := ab.1) (pb := ab.2) h)
      (y := abLoop env sel bl abs) (Q := ∀ ab ∈ abs, Quiet env ab) (fun s' h' => by rw [exists_unit]; exact ih h')
    rw [exists_unit] at this
    rw [List.forall_mem_cons]
    exact this

/-- The table of an object as the program leaves it in the file, for precisions of at least 8. -/
structure Sound (cfv : Polys → Polys → Except PyErr Num) (t : Table (Val Entry)) : Prop where
  wf : WF t
  only : ∀ κ, present t κ → κ = paramsKey ∨ ∃ k, κ = .num k
  lists : ListNum t
  nodup : ∀ κ, (entries t κ).Nodup
  vals : ∀ k e, e ∈ entries t (.num k) → ∃ v, cfv e.1.1 e.1.2 = .ok v
  long : 9 ≤ t.accuracy
  old : ∀ h ∈ t.history, 9 ≤ h

theorem blacklist_ok : ∀ (d : Dict Key (Val Entry)), (∀ k v, (k, v) ∈ d → k = paramsKey ∨ ∃ es, v = .list es) →
    ∃ bl, blacklist d = .ok bl ∧ ∀ e ∈ bl, ∃ k es, (k, .list es) ∈ d ∧ k ≠ paramsKey ∧ e ∈ es
  | [], _ => ⟨[], rfl, fun _ he => by cases he⟩
  | (k, v) :: d, h => by
    obtain ⟨bl, hbl, hm⟩ := blacklist_ok d fun k' v' h' => h k' v' (List.mem_cons_of_mem _ h')
    have hm' : ∀ e ∈ bl, ∃ k' es, (k', Val.list es) ∈ (k, v) :: d ∧ k' ≠ paramsKey ∧ e ∈ es := fun e he => by
      obtain ⟨k', es, h1, h2⟩ := hm e he
      exact ⟨k', es, List.mem_cons_of_mem _ h1, h2⟩
    by_cases hk : k = paramsKey
    · exact ⟨bl, by rw [Mitm.blacklist.eq_def]; simp [hk, hbl], hm'⟩
    · obtain ⟨es, rfl⟩ := (h k v (by simp)).resolve_left hk
      refine ⟨es ++ bl, by rw [Mitm.blacklist.eq_def]; simp [hk, hbl], fun e he => ?_⟩
      rcases List.mem_append.1 he with he | he
      · exact ⟨k, es, by simp, hk, he⟩
      · exact hm' e he

theorem get_of_present {V : Type} {t : Table V} {κ : Key} (h : present t κ) : ∃ v, t.data.get? κ = some v := by
  cases hg : t.data.get? κ with
  | none => exact absurd h ((Dict.get?_eq_none_iff _ _).1 hg)
  | some v => exact ⟨v, rfl⟩

theorem present_of_get {V : Type} {t : Table V} {κ : Key} {v : V} (h : t.data.get? κ = some v) : present t κ := by
  by_contra hn
  rw [(Dict.get?_eq_none_iff _ _).2 hn] at h
  cases h

theorem Sound.blacklist {cfv} {t : Table (Val Entry)} (h : Sound cfv t) :
    ∃ bl, Mitm.blacklist t.data = .ok bl ∧ ∀ e ∈ bl, ∃ v, cfv e.1.1 e.1.2 = .ok v := by
  have key : ∀ k v, (k, v) ∈ t.data → k = paramsKey ∨ ∃ q, k = .num q ∧ t.data.get? k = some v := fun k v hm => by
    have hg := Dict.get?_of_mem h.wf hm
    rcases h.only k (present_of_get hg) with h1 | ⟨q, rfl⟩
    · exact .inl h1
    · exact .inr ⟨q, rfl, hg⟩
  obtain ⟨bl, hbl, hm⟩ := blacklist_ok t.data fun k v hm => by
    rcases key k v hm with h1 | ⟨q, rfl, hg⟩
    · exact .inl h1
    · exact .inr (h.lists q v hg)
  refine ⟨bl, hbl, fun e he => ?_⟩
  obtain ⟨k, es, h1, h2, h3⟩ := hm e he
  obtain ⟨q, rfl, hg⟩ := (key k _ h1).resolve_left h2
  exact h.vals q e (by rw [entries, hg]; exact h3)

/-- A build on such a table ends normally under the same conditions as on a new one. -/
theorem build_ok_sound {env : Env} (ho : IsSetOrder env.order) (manip : Manip) (cfg : Config) (ra rb : Ranges)
    {t : Table (Val Entry)} (h : Sound env.cfv t) :
    ((buildHashtable env manip cfg true ra rb t).2 = .ok () ↔
      (∀ i ∈ env.filter, i < env.funcs.length) ∧ (∀ ab ∈ enumerated manip cfg ra rb, Quiet env ab) ∧
      (polysGenerator manip { cfg with genContFrac := false } ra rb).2 = .ok ()) ∧
    ListNum (buildHashtable env manip cfg true ra rb t).1 := by
  obtain ⟨bl, hbl, hv⟩ := h.blacklist
  rw [buildHashtable]
  simp only
  rw [iter2hashtable]
  simp only [if_true, hbl]
  have hs : (∀ i ∈ env.filter, i < env.funcs.length) ↔ ∃ sel, selected env = .ok sel := by
    rw [selected]
    split
    · rename_i h; simpa using h
    · rename_i h; simpa using h
  rw [hs]
  cases hsel : selected env with
  | error e => exact ⟨by simp, h.lists⟩
  | ok sel =>
    simp only [Except.ok.injEq, exists_eq', true_and]
    have := abLoop_ok_bl ho hsel hv (enumerated manip cfg ra rb) (s := ⟨t, false, [], []⟩) h.lists
    rw [← this.1]
    have key : ∀ (x : BSt × Except PyErr Unit) (g : Except PyErr Unit), ListNum x.1.table →
        ((match x with | (s, .error e) => (s, .error e) | (s, .ok ()) => (s, g) : BSt × Except PyErr Unit).2 = .ok () ↔
          x.2 = .ok () ∧ g = .ok ()) ∧
        ListNum (match x with | (s, .error e) => (s, .error e) | (s, .ok ()) => (s, g) : BSt × Except PyErr Unit).1.table := by
      rintro ⟨s', e | ⟨⟩⟩ g hl
      · exact ⟨by simp, hl⟩
      · exact ⟨by simp, hl⟩
    exact key _ _ this.2

/-- … and leaves such a table. -/
theorem build_sound {env : Env} (ho : IsSetOrder env.order) (manip : Manip) (cfg : Config) (ra rb : Ranges)
    {t : Table (Val Entry)} (h : Sound env.cfv t) : Sound env.cfv (buildHashtable env manip cfg true ra rb t).1 := by
  have g := build_grows ho manip cfg true ra rb t
  refine ⟨g.wf h.wf, fun κ hκ => ?_, (build_ok_sound ho manip cfg ra rb h).2, g.nodup h.nodup, fun k e he => ?_, ?_, ?_⟩
  · by_cases hn : ∃ k, κ = .num k
    · exact .inr hn
    · obtain ⟨v, hv⟩ := get_of_present hκ
      rw [g.others κ fun k hk => hn ⟨k, hk⟩] at hv
      exact h.only κ (present_of_get hv)
  · rcases g.added _ e he with he | ⟨k', -, -, hb⟩
    · exact h.vals k e he
    · obtain ⟨v, f, y, hv, -⟩ := hb
      exact ⟨_, hv⟩
  · rw [g.accuracy]; exact h.long
  · rw [g.history]; exact h.old

/-! ### The key `'parameters'` -/

theorem slice_params {n : ℤ} (h : 9 ≤ n) : sliceTo "parameters".toList (n + 1) = "parameters".toList := by
  rw [sliceTo, if_pos (by omega)]
  exact List.take_of_length_le (by show 10 ≤ _; omega)

theorem dropOld_params {V : Type} (d : Dict Key V) : ∀ (ks : List Key), (∀ k ∈ ks, k = paramsKey) →
    ∀ κ, κ ≠ paramsKey → (Table.dropOld d ks).get? κ = d.get? κ := by
  intro ks
  induction ks generalizing d with
  | nil => intro _ κ _; rfl
  | cons k ks ih =>
    intro h κ hκ
    rw [Table.dropOld, ih _ (fun k' hk' => h k' (List.mem_cons_of_mem _ hk')) κ hκ]
    split
    · rw [Dict.get?_erase_ne _ (by rw [h k (by simp)]; exact hκ)]
    · rfl

/-- Setting a string key changes nothing under numbers. -/
theorem setItem_num {V : Type} (eng : Eng) (s : Str) (v : V) (t : Table V) (k : ℚ) :
    (Table.setItem eng (.str s) v t).1.data.get? (.num k) = t.data.get? (.num k) := by
  rw [Table.setItem, Table.manipulateKey]
  simp only
  rw [Dict.get?_set_ne _ _ (by simp)]
  have : ∀ (l : List ℤ) (d : Dict Key V), (Table.dropOld d (l.map fun i => Key.str (sliceTo s (i + 1)))).get? (.num k) = d.get? (.num k) := by
    intro l
    induction l with
    | nil => intro d; rfl
    | cons i l ih =>
      intro d
      rw [List.map_cons, Table.dropOld, ih]
      split
      · exact Dict.get?_erase_ne _ (by simp)
      · rfl
  exact this _ _

theorem setItem_fields {V : Type} (eng : Eng) (s : Str) (v : V) (t : Table V) :
    (Table.setItem eng (.str s) v t).1.accuracy = t.accuracy ∧ (Table.setItem eng (.str s) v t).1.history = t.history ∧
    (WF t → WF (Table.setItem eng (.str s) v t).1) := by
  refine ⟨rfl, rfl, fun h => ?_⟩
  rw [Table.setItem, Table.manipulateKey]
  exact Dict.nodup_set (dropOld_nodup _ h) _ _

theorem entries_congr {t t' : Table (Val Entry)} {κ : Key} (h : t'.data.get? κ = t.data.get? κ) : entries t' κ = entries t κ := by
  rw [entries, entries, h]

theorem mark_sound {cfv} {t : Table (Val Entry)} (h : Sound cfv t) (p : Entry) :
    Sound cfv (Table.setItem mpfEng paramsKey (.item p) t).1 := by
  have hnum := setItem_num mpfEng "parameters".toList (.item p) t
  obtain ⟨ha, hh, hw⟩ := setItem_fields mpfEng "parameters".toList (Val.item p) t
  rw [show Key.str "parameters".toList = paramsKey from rfl] at hnum ha hh hw
  have hdata : (Table.setItem mpfEng paramsKey (.item p) t).1.data =
      (Table.dropOld t.data (t.history.map fun i => Key.str (sliceTo "parameters".toList (i + 1)))).set paramsKey (.item p) := by
    rw [Table.setItem, paramsKey, Table.manipulateKey]
    simp only
    rw [slice_params h.long]
  have hother : ∀ κ, κ ≠ paramsKey → (Table.setItem mpfEng paramsKey (.item p) t).1.data.get? κ = t.data.get? κ := fun κ hκ => by
    rw [hdata, Dict.get?_set_ne _ _ hκ, dropOld_params]
    · intro k hk
      obtain ⟨i, hi, rfl⟩ := List.mem_map.1 hk
      rw [slice_params (h.old i hi)]; rfl
    · exact hκ
  refine ⟨hw h.wf, fun κ hκ => ?_, fun k v hv => h.lists k v (by rw [← hnum]; exact hv), fun κ => ?_, fun k e he => ?_, ?_, ?_⟩
  · by_cases h' : κ = paramsKey
    · exact .inl h'
    · obtain ⟨v, hv⟩ := get_of_present hκ
      rw [hother κ h'] at hv
      exact h.only κ (present_of_get hv)
  · by_cases h' : κ = paramsKey
    · rw [entries, hdata, h', Dict.get?_set_self]; simp
    · rw [entries_congr (hother κ h')]; exact h.nodup κ
  · rw [entries_congr (hnum k)] at he
    exact h.vals k e he
  · rw [ha]; exact h.long
  · rw [hh]; exact h.old

theorem init_sound {cfv} {n : ℤ} (h : 8 ≤ n) : Sound cfv (Table.init n : Table (Val Entry)) :=
  ⟨List.nodup_nil, fun _ hκ => (nomatch hκ), fun _ _ hv => (nomatch hv), fun _ => List.nodup_nil, fun _ _ he => (nomatch he),
    (show 9 ≤ n + 1 by omega), fun _ hh => nomatch hh⟩

theorem update_sound {cfv} {t : Table (Val Entry)} {n : ℤ} (h : Sound cfv t) (hn : 8 ≤ n) : Sound cfv (t.updateAccuracy n) := by
  refine ⟨h.wf, h.only, h.lists, h.nodup, h.vals, ?_, fun i hi => ?_⟩
  · show 9 ≤ n + 1; omega
  · rcases List.mem_append.1 hi with hi | hi
    · exact h.old i hi
    · rw [List.mem_singleton.1 hi]; exact h.long

/-! ### Objects -/

/-- The values of the continued fractions of an object's table. -/
abbrev Object.Sound (x : Object) : Prop := PiCF.Sound (polysValue x.iters) x.set.table

theorem newObject_ok {o : Opts} {x : Object} (h : newObject o = .ok x) :
    x = ⟨⟨o.cls, o.special, Table.init o.prec, o.prec, o.filter, true⟩, o.iters, true⟩ := by
  rw [newObject, makeEnumer] at h
  split at h
  · cases h
  · rename_i heq
    split at heq
    · cases heq
    · cases heq; cases h; rfl

/-- The settings of a run that matter for what it enumerates and how it evaluates. -/
structure SameKind (o o' : Opts) : Prop where
  cls : o'.cls = o.cls
  special : o'.special = o.special
  iters : o'.iters = o.iters

/-- An object that a run with the options `o` could have made, with some table. -/
structure Kind (o : Opts) (x : Object) : Prop where
  valid : ∃ y, newObject o = .ok y
  cls : x.set.polyClass = o.cls
  special : x.set.special = o.special
  iters : x.iters = o.iters
  expOnly : x.expOnly = true
  sound : Object.Sound x

/-- What is built with the options `o`. -/
def contribution (w : Surroundings) (o : Opts) : ℚ → Entry → Prop :=
  BuildJ ⟨w.funcs, o.filter, true, polysValue o.iters, w.order⟩ (enumerated (manipOf w.maskOrder o.cls o.special)
    ⟨o.iters, true, true, false, true⟩ o.ra o.rb)

/-- When a build with the options `o` ends normally. -/
def Works (w : Surroundings) (o : Opts) : Prop :=
  (∀ i ∈ o.filter, i < w.funcs.length) ∧
  (∀ ab ∈ enumerated (manipOf w.maskOrder o.cls o.special) ⟨o.iters, true, true, false, true⟩ o.ra o.rb,
    Quiet ⟨w.funcs, o.filter, true, polysValue o.iters, w.order⟩ ab) ∧
  (polysGenerator (manipOf w.maskOrder o.cls o.special) ⟨o.iters, true, true, false, true⟩ o.ra o.rb).2 = .ok ()

/-- The build of an object whose settings are those of `o`. -/
theorem build_kind {w : Surroundings} (ho : IsSetOrder w.order) {o : Opts} {x : Object} (h : Kind o x) (hf : x.set.filter = o.filter)
    (ht : x.set.trunc = true) :
    ((x.build w o).2 = .ok () ↔ Works w o) ∧
    (∀ y, x.build w o = (y, .ok ()) → Kind o (y.mark w) ∧
      ∀ k, entries x.set.table (.num k) <+: entries (y.mark w).set.table (.num k) ∧
        ∀ e, e ∈ entries (y.mark w).set.table (.num k) ↔ e ∈ entries x.set.table (.num k) ∨ contribution w o k e) := by
  obtain ⟨⟨cls, special, table, prec, filter, trunc⟩, iters, expOnly⟩ := x
  obtain ⟨hv, h1, h2, h3, h4, hs⟩ := h
  simp only at h1 h2 h3 h4 hf ht
  subst h1 h2 h3 h4 hf ht
  set env : Env := ⟨w.funcs, o.filter, true, polysValue o.iters, w.order⟩ with henv
  set manip := manipOf w.maskOrder o.cls o.special with hm
  set cfg : Config := ⟨o.iters, true, true, false, true⟩ with hc
  have hbuild : Object.build w ⟨⟨o.cls, o.special, table, prec, o.filter, true⟩, o.iters, true⟩ o =
      (⟨⟨o.cls, o.special, (buildHashtable env manip cfg true o.ra o.rb table).1, prec, o.filter, true⟩, o.iters, true⟩,
        (buildHashtable env manip cfg true o.ra o.rb table).2) := rfl
  refine ⟨?_, fun y hy => ?_⟩
  · rw [hbuild]
    exact (build_ok_sound (env := env) ho manip cfg o.ra o.rb hs).1
  · rw [hbuild] at hy
    obtain ⟨rfl, hok⟩ := Prod.mk.inj hy
    have hsound := build_sound (env := env) ho manip cfg o.ra o.rb hs
    have g := build_grows (env := env) ho manip cfg true o.ra o.rb table
    refine ⟨⟨hv, rfl, rfl, rfl, rfl, mark_sound hsound w.params⟩, fun k => ?_⟩
    have he : entries (Object.mark w ⟨⟨o.cls, o.special, (buildHashtable env manip cfg true o.ra o.rb table).1, prec,
        o.filter, true⟩, o.iters, true⟩).set.table (.num k) =
        entries (buildHashtable env manip cfg true o.ra o.rb table).1 (.num k) :=
      entries_congr (setItem_num mpfEng _ _ _ _)
    rw [he]
    refine ⟨g.pre _, fun e => ⟨fun hmem => ?_, fun hmem => ?_⟩⟩
    · rcases g.added _ e hmem with h | ⟨k', hk, hj⟩
      · exact .inl h
      · cases hk; exact .inr hj
    · rcases hmem with h | h
      · exact (g.pre _).subset h
      · exact C51_complete (env := env) ho (Prod.ext rfl hok) h.1 h.2

theorem load_pickled {x : Object} (h : WF x.set.table) : x.pickled.load = x := by
  rw [Stored.load, Object.pickled]
  simp only
  rw [C30_pickle_round_trip _ h]

/-- A run that generates. -/
theorem generate_spec {w : Surroundings} (ho : IsSetOrder w.order) (hd : w.dump = none) {o : Opts} (hp : 8 ≤ o.prec) (file : Option Content) :
    ((∃ y, (tableStage w .generate o file).2 = .ok y) ↔ (∃ y, newObject o = .ok y) ∧ Works w o) ∧
    ∀ y, (tableStage w .generate o file).2 = .ok y → (tableStage w .generate o file).1 = some (.whole y.pickled) ∧ Kind o y ∧
      ∀ k e, e ∈ entries y.set.table (.num k) ↔ contribution w o k e := by
  rw [tableStage, obtainObject]
  cases hn : newObject o with
  | error e => simp
  | ok x =>
    have hx := newObject_ok hn
    have hk : Kind o x := by
      subst hx
      exact ⟨⟨_, hn⟩, rfl, rfl, rfl, rfl, init_sound hp⟩
    obtain ⟨h1, h2⟩ := build_kind ho hk (by rw [hx]) (by rw [hx])
    simp only [reduceCtorEq, if_false, Except.ok.injEq, exists_eq', true_and]
    rw [← h1]
    rcases hb : x.build w o with ⟨z, e | ⟨⟩⟩
    · simp
    · obtain ⟨hkind, hent⟩ := h2 z hb
      simp only [hd]
      refine ⟨⟨fun _ => trivial, fun _ => ⟨_, rfl⟩⟩, ?_⟩
      rintro y ⟨⟩
      refine ⟨rfl, hkind, fun k e => ?_⟩
      rw [(hent k).2 e]
      have : entries x.set.table (.num k) = [] := by rw [hx]; rfl
      rw [this]
      simp

/-- A run that expands a stored object. -/
theorem expand_spec {w : Surroundings} (ho : IsSetOrder w.order) (hd : w.dump = none) {o1 o : Opts} (hs : SameKind o1 o) (hp : 8 ≤ o.prec)
    {x : Object} (hx : Kind o1 x) :
    ((∃ y, (tableStage w .expand o (some (.whole x.pickled))).2 = .ok y) ↔ Works w o) ∧
    ∀ y, (tableStage w .expand o (some (.whole x.pickled))).2 = .ok y →
      (tableStage w .expand o (some (.whole x.pickled))).1 = some (.whole y.pickled) ∧ Kind o1 y ∧
      ∀ k, entries x.set.table (.num k) <+: entries y.set.table (.num k) ∧
        ∀ e, e ∈ entries y.set.table (.num k) ↔ e ∈ entries x.set.table (.num k) ∨ contribution w o k e := by
  have hvalid : ∃ y, newObject o = .ok y := by
    obtain ⟨y, hy⟩ := hx.valid
    rw [newObject] at hy ⊢
    rw [hs.cls, hs.special]
    cases hm : makeEnumer o1.cls o1.special with
    | error e => rw [hm] at hy; cases hy
    | ok c => exact ⟨_, rfl⟩
  let x' : Object := ⟨⟨x.set.polyClass, x.set.special, x.set.table.updateAccuracy o.prec, o.prec, o.filter, true⟩, x.iters, x.expOnly⟩
  have hred : x.redefine o = .ok x' := by
    rw [Object.redefine, redefineSettings, if_pos]
    rw [hx.cls, hs.cls, isInstance]
    cases o1.cls <;> rfl
  have hk : Kind o x' := by
    refine ⟨hvalid, ?_, ?_, ?_, hx.expOnly, ?_⟩
    · rw [hs.cls, ← hx.cls]
    · rw [hs.special, ← hx.special]
    · rw [hs.iters, ← hx.iters]
    · exact update_sound hx.sound hp
  obtain ⟨h1, h2⟩ := build_kind ho hk rfl rfl
  rw [tableStage, obtainObject]
  simp only [load_pickled hx.sound.wf, hred, reduceCtorEq, if_false]
  rw [← h1]
  rcases hb : x'.build w o with ⟨z, e | ⟨⟩⟩
  · simp
  · obtain ⟨hkind, hent⟩ := h2 z hb
    simp only [hd]
    refine ⟨⟨fun _ => trivial, fun _ => ⟨_, rfl⟩⟩, ?_⟩
    rintro y ⟨⟩
    refine ⟨rfl, ⟨hx.valid, ?_, ?_, ?_, hkind.expOnly, hkind.sound⟩, hent⟩
    · rw [hkind.cls, hs.cls]
    · rw [hkind.special, hs.special]
    · rw [hkind.iters, hs.iters]

/-! ### C108 -/

/-- The content of the file after runs that expand it, one after the other; some may end with an exception. -/
def expands (w : Surroundings) : List Opts → Option Content → Option Content
  | [], file => file
  | o :: os, file => expands w os (tableStage w .expand o file).1

/-- The entries under `κ` of the table in the file. -/
def storedEntries (file : Option Content) (κ : Key) : List Entry :=
  match file with
  | some (.whole s) => entries s.load.set.table κ
  | _ => []

theorem stored_pickled {x : Object} (h : WF x.set.table) (κ : Key) :
    storedEntries (some (.whole x.pickled)) κ = entries x.set.table κ := by
  rw [storedEntries, load_pickled h]

theorem expands_spec {w : Surroundings} (ho : IsSetOrder w.order) (hd : w.dump = none) {o1 : Opts} (os : List Opts) :
    (∀ o ∈ os, SameKind o1 o ∧ 8 ≤ o.prec) → ∀ {x : Object}, Kind o1 x →
    ∃ y, expands w os (some (.whole x.pickled)) = some (.whole y.pickled) ∧ Kind o1 y ∧
      ∀ k, entries x.set.table (.num k) <+: entries y.set.table (.num k) ∧
        ∀ e, e ∈ entries y.set.table (.num k) ↔ e ∈ entries x.set.table (.num k) ∨ ∃ o ∈ os, Works w o ∧ contribution w o k e := by
  induction os with
  | nil => intro _ x hx; exact ⟨x, rfl, hx, fun k => ⟨List.prefix_rfl, fun e => by simp⟩⟩
  | cons o os ih =>
    intro h x hx
    obtain ⟨hs, hp⟩ := h o (by simp)
    obtain ⟨h1, h2⟩ := expand_spec ho hd hs hp hx
    rw [expands]
    rcases hr : tableStage w .expand o (some (.whole x.pickled)) with ⟨f, e | y⟩
    · have hf : f = some (.whole x.pickled) := by
        rw [tableStage] at hr
        split at hr
        · exact (Prod.mk.inj hr).1.symm
        · rw [if_neg (by simp)] at hr
          split at hr
          · exact (Prod.mk.inj hr).1.symm
          · rw [hd] at hr; cases hr
      have hnw : ¬ Works w o := by
        rw [← h1, hr]; rintro ⟨y, hy⟩; cases hy
      obtain ⟨y, hy1, hy2, hy3⟩ := ih (fun o' ho' => h o' (List.mem_cons_of_mem _ ho')) hx
      refine ⟨y, by rw [hf]; exact hy1, hy2, fun k => ⟨(hy3 k).1, fun e => ?_⟩⟩
      rw [(hy3 k).2 e]
      simp [hnw]
    · rw [hr] at h1 h2
      obtain ⟨hf, hk, hent⟩ := h2 y rfl
      have hw : Works w o := h1.1 ⟨y, rfl⟩
      obtain ⟨z, hz1, hz2, hz3⟩ := ih (fun o' ho' => h o' (List.mem_cons_of_mem _ ho')) hk
      refine ⟨z, by simp only at hf ⊢; rw [hf]; exact hz1, hz2, fun k => ⟨(hent k).1.trans (hz3 k).1, fun e => ?_⟩⟩
      rw [(hz3 k).2 e, (hent k).2 e]
      simp [hw, or_assoc]

/-- **C108 (partial).** A hashtable is generated with the options `o1` and then expanded by any number of runs, with new ranges, functions and precisions
(of at least 8 digits), but with the same polynomial class and number of iterations.  Then a further such run ends normally iff generating a new
table with its options does.  And the file holds under every number exactly the entries of the tables that the runs would have generated
separately, each once; the ones generated first come first. -/
theorem C108_expand_partial {w : Surroundings} (ho : IsSetOrder w.order) (hd : w.dump = none) {o1 : Opts} {os : List Opts}
    (hp : ∀ o ∈ o1 :: os, 8 ≤ o.prec) (hs : ∀ o ∈ os, SameKind o1 o) (file : Option Content) {x1 : Object}
    (h1 : (tableStage w .generate o1 file).2 = .ok x1) {after : Option Content}
    (hafter : after = expands w os (tableStage w .generate o1 file).1) :
    (∀ o, SameKind o1 o → 8 ≤ o.prec → ((∃ x, (tableStage w .expand o after).2 = .ok x) ↔
      ∃ y, (tableStage w .generate o none).2 = .ok y)) ∧
    ∀ k, (storedEntries after (.num k)).Nodup ∧ entries x1.set.table (.num k) <+: storedEntries after (.num k) ∧
      ∀ e, e ∈ storedEntries after (.num k) ↔
        ∃ o ∈ o1 :: os, ∃ y, (tableStage w .generate o none).2 = .ok y ∧ e ∈ entries y.set.table (.num k) := by
  have hp1 := hp o1 (by simp)
  obtain ⟨g1, g2⟩ := generate_spec ho hd hp1 file
  obtain ⟨hf, hk, hent⟩ := g2 x1 h1
  obtain ⟨y, hy1, hy2, hy3⟩ := expands_spec ho hd os (fun o h => ⟨hs o h, hp o (List.mem_cons_of_mem _ h)⟩) hk
  rw [hf, hy1] at hafter
  subst hafter
  have hvalid : ∀ o, SameKind o1 o → ∃ y, newObject o = .ok y := fun o hso => by
    obtain ⟨y, hy⟩ := hk.valid
    rw [newObject] at hy ⊢
    rw [hso.cls, hso.special]
    cases hm : makeEnumer o1.cls o1.special with
    | error e => rw [hm] at hy; cases hy
    | ok c => exact ⟨_, rfl⟩
  have hgen : ∀ o, SameKind o1 o → 8 ≤ o.prec → ((∃ y, (tableStage w .generate o none).2 = .ok y) ↔ Works w o) := fun o hso hpo => by
    rw [(generate_spec ho hd hpo none).1, and_iff_right (hvalid o hso)]
  refine ⟨fun o hso hpo => by rw [(expand_spec ho hd hso hpo hy2).1, hgen o hso hpo], fun k => ?_⟩
  rw [stored_pickled hy2.sound.wf]
  refine ⟨hy2.sound.nodup _, (hy3 k).1, fun e => ?_⟩
  have hself : SameKind o1 o1 := ⟨rfl, rfl, rfl⟩
  have hone : ∀ o ∈ o1 :: os, ((∃ y, (tableStage w .generate o none).2 = .ok y ∧ e ∈ entries y.set.table (.num k)) ↔
      Works w o ∧ contribution w o k e) := fun o hmem => by
    have hso : SameKind o1 o := by
      rcases List.mem_cons.1 hmem with rfl | hmem
      · exact hself
      · exact hs o hmem
    rw [← hgen o hso (hp o hmem)]
    constructor
    · rintro ⟨y, hy, he⟩
      exact ⟨⟨y, hy⟩, (((generate_spec ho hd (hp o hmem) none).2 y hy).2.2 k e).1 he⟩
    · rintro ⟨⟨y, hy⟩, hc⟩
      exact ⟨y, hy, (((generate_spec ho hd (hp o hmem) none).2 y hy).2.2 k e).2 hc⟩
  rw [(hy3 k).2 e, hent k e]
  constructor
  · rintro (h | ⟨o, hmem, h⟩)
    · exact ⟨o1, by simp, (hone o1 (by simp)).2 ⟨(g1.1 ⟨x1, h1⟩).2, h⟩⟩
    · exact ⟨o, List.mem_cons_of_mem _ hmem, (hone o (List.mem_cons_of_mem _ hmem)).2 h⟩
  · rintro ⟨o, hmem, h⟩
    have := (hone o hmem).1 h
    rcases List.mem_cons.1 hmem with rfl | hmem
    · exact .inl this.2
    · exact .inr ⟨o, hmem, this⟩

/-- The functions are the identity and the square. -/
def twoFuncs : Surroundings where
  funcs := exEnv.funcs
  order := id
  maskOrder := id
  params := (([], []), 0)
  dump := none

def optsA : Opts := ⟨.basic, none, 8, 3, [0], [[(1, 3)]], [[(1, 2)]]⟩
def optsB : Opts := ⟨.basic, none, 9, 3, [0, 1], [[(2, 4)]], [[(1, 2)]]⟩

def entriesOf (r : Except PyErr Object) (κ : Key) : Option (List Entry) := r.toOption.map fun x => entries x.set.table κ


/-- Ranges that overlap, and a run with an additional function and a higher precision: both runs end normally, and the second adds
entries. -/
example : ∃ x1, (tableStage twoFuncs .generate optsA none).2 = .ok x1 ∧ (∀ o ∈ [optsA, optsB], 8 ≤ o.prec) ∧ SameKind optsA optsB ∧
    IsSetOrder twoFuncs.order ∧
    storedEntries (expands twoFuncs [optsB] (tableStage twoFuncs .generate optsA none).1) (.num (2 / 5)) = [(([[2]], [[1]]), 0)] ∧
    storedEntries (expands twoFuncs [optsB] (tableStage twoFuncs .generate optsA none).1) (.num (19 / 25)) = [(([[2]], [[1]]), 1)] ∧
    storedEntries (expands twoFuncs [optsB] (tableStage twoFuncs .generate optsA none).1) (.num (3 / 10)) = [(([[3]], [[1]]), 0)] := by
  have h : (entriesOf (tableStage twoFuncs .generate optsA none).2 (.num 0)).isSome = true := by decide +kernel
  obtain ⟨x, hx⟩ : ∃ x, (tableStage twoFuncs .generate optsA none).2 = .ok x := by
    cases hr : (tableStage twoFuncs .generate optsA none).2 with
    | error e => rw [hr] at h; cases h
    | ok x => exact ⟨x, rfl⟩
  exact ⟨x, hx, by decide, ⟨rfl, rfl, rfl⟩, fun l _ => List.Perm.refl l, by decide +kernel, by decide +kernel, by decide +kernel⟩

theorem blacklist_item : ∀ {d : Dict Key (Val Entry)} {k : Key} {p : Entry}, (k, .item p) ∈ d → k ≠ paramsKey →
    ∃ e, blacklist d = .error e
  | [], _, _, h, _ => nomatch h
  | (k', v) :: d, k, p, h, hk => by
    rw [Mitm.blacklist.eq_def]
    simp only
    by_cases hk' : k' = paramsKey
    · rw [if_pos hk']
      rcases List.mem_cons.1 h with h | h
      · exact absurd ((Prod.mk.inj h).1.trans hk') hk
      · exact blacklist_item h hk
    · rw [if_neg hk']
      cases v with
      | item q => exact ⟨_, rfl⟩
      | list es =>
        rcases List.mem_cons.1 h with h | h
        · cases (Prod.mk.inj h).2
        · obtain ⟨e, he⟩ := blacklist_item h hk
          exact ⟨e, by simp only [he]⟩

theorem mem_of_get {V : Type} : ∀ {d : Dict Key V} {k : Key} {v : V}, d.get? k = some v → (k, v) ∈ d
  | [], _, _, h => nomatch h
  | (k', v') :: d, k, v, h => by
    rw [Dict.get?] at h
    split at h
    · rename_i hk; cases h; rw [hk]; simp
    · exact List.mem_cons_of_mem _ (mem_of_get h)

theorem slice_short {n : ℤ} (h : n ≤ 9) : sliceTo "parameters".toList n ≠ "parameters".toList := by
  intro he
  have : (sliceTo "parameters".toList n).length = 10 := by rw [he]; rfl
  rw [sliceTo] at this
  split at this
  · rw [List.length_take] at this; omega
  · rename_i hn
    have h10 : ("parameters".toList : List Char).length = 10 := rfl
    rw [List.length_take, h10] at this; omega

/-- What a run leaves in the file when it ends normally. -/
theorem stage_ok {w : Surroundings} {op : Op} (hop : op ≠ .use) {o : Opts} {file : Option Content} {x : Object}
    (h : (tableStage w op o file).2 = .ok x) : w.dump = none ∧ (tableStage w op o file).1 = some (.whole x.pickled) ∧
      ∃ y z, obtainObject op o file = .ok y ∧ y.build w o = (z, .ok ()) ∧ x = z.mark w := by
  rw [tableStage] at h ⊢
  cases ho : obtainObject op o file with
  | error e => rw [ho] at h; cases h
  | ok y =>
    rw [ho] at h
    simp only [hop, if_false] at h ⊢
    rcases hb : y.build w o with ⟨z, e | ⟨⟩⟩
    · rw [hb] at h; cases h
    · rw [hb] at h
      simp only at h ⊢
      cases hd : w.dump with
      | some e => rw [hd] at h; cases h
      | none =>
        rw [hd] at h
        cases h
        exact ⟨rfl, rfl, y, z, rfl, hb, rfl⟩

theorem build_wf {w : Surroundings} (ho : IsSetOrder w.order) {x y : Object} {o : Opts} {r : Except PyErr Unit}
    (h : x.build w o = (y, r)) : (WF x.set.table → WF (y.mark w).set.table) ∧ y.set.table.accuracy = x.set.table.accuracy ∧
    ∀ k, entries x.set.table (.num k) <+: entries (y.mark w).set.table (.num k) := by
  have g := build_grows (env := x.env w) ho (manipOf w.maskOrder x.set.polyClass x.set.special) x.config true o.ra o.rb x.set.table
  rw [Object.build] at h
  obtain ⟨rfl, -⟩ := Prod.mk.inj h
  refine ⟨fun hw => (setItem_fields mpfEng _ _ _).2.2 (g.wf hw), g.accuracy, fun k => ?_⟩
  have : entries (Object.mark w { x with set := { x.set with table := (buildHashtable (x.env w)
      (manipOf w.maskOrder x.set.polyClass x.set.special) x.config true o.ra o.rb x.set.table).1 } }).set.table (.num k) =
      entries (buildHashtable (x.env w) (manipOf w.maskOrder x.set.polyClass x.set.special) x.config true o.ra o.rb x.set.table).1
        (.num k) := entries_congr (setItem_num mpfEng _ _ _ _)
  simp only
  rw [this]
  exact g.pre _

/-- **C108 (short keys, negated).** With a precision of at most 7 digits the key `'parameters'` is cut off when it is stored, and no run
can expand this table: whatever its options are, it ends with an exception. -/
theorem C108_short_violated {w : Surroundings} (ho : IsSetOrder w.order) {o1 : Opts} (hp : o1.prec ≤ 7) (file : Option Content) {x1 : Object}
    (h1 : (tableStage w .generate o1 file).2 = .ok x1) (w' : Surroundings) (o : Opts) :
    ∃ e, (tableStage w' .expand o (tableStage w .generate o1 file).1).2 = .error e := by
  obtain ⟨-, hf, y, z, hy, hb, rfl⟩ := stage_ok (by simp) h1
  have hy' := newObject_ok (o := o1) hy
  obtain ⟨hwf, hacc, -⟩ := build_wf ho hb
  rw [hf, tableStage, obtainObject]
  simp only [load_pickled (hwf (by rw [hy']; exact List.nodup_nil))]
  have hmem : (.str (sliceTo "parameters".toList (z.set.table.accuracy + 1)), .item w.params) ∈ (z.mark w).set.table.data := by
    refine mem_of_get ?_
    rw [Object.mark]
    simp only
    rw [Table.setItem, paramsKey, Table.manipulateKey]
    simp
  have hne : Key.str (sliceTo "parameters".toList (z.set.table.accuracy + 1)) ≠ paramsKey := by
    intro he
    refine slice_short (n := z.set.table.accuracy + 1) ?_ (Key.str.inj he)
    rw [hacc, hy']
    show o1.prec + 1 + 1 ≤ 9
    omega
  obtain ⟨e, he⟩ := blacklist_item hmem hne
  cases hr : (z.mark w).redefine o with
  | error e => exact ⟨e, rfl⟩
  | ok v =>
    have hdata : v.set.table.data = (z.mark w).set.table.data := by
      rw [Object.redefine, redefineSettings] at hr
      split at hr
      · cases hr
      · rename_i heq
        split at heq
        · cases heq; cases hr; rfl
        · split at heq
          · cases heq
          · cases heq; cases hr; rfl
    have hbuild : ∃ e, (v.build w' o).2 = .error e := by
      rw [Object.build, buildHashtable]
      simp only
      rw [iter2hashtable]
      cases selected (v.env w') with
      | error e => exact ⟨e, rfl⟩
      | ok sel =>
        simp only [if_true, hdata, he]
        exact ⟨e, rfl⟩
    obtain ⟨e', he'⟩ := hbuild
    rcases hvb : v.build w' o with ⟨u, r⟩
    rw [hvb] at he'
    simp only at he'
    subst he'
    exact ⟨e', by simp [hvb]⟩

/-- Such a table can be generated. -/
example : IsSetOrder twoFuncs.order ∧ ({ optsA with prec := 7 } : Opts).prec ≤ 7 ∧
    entriesOf (tableStage twoFuncs .generate { optsA with prec := 7 } none).2 (.num (2 / 5)) = some [(([[2]], [[1]]), 0)] :=
  ⟨fun l _ => List.Perm.refl l, by decide, by decide +kernel⟩

/-- **C108 (number of iterations, negated).** A run that expands does not use the option `hashtable_num_of_iterations`.  For example, a table
generated with 1 iteration and expanded with 3 iterations does not get the entry that belongs to the value of the third convergent. -/
theorem C108_iterations_violated : (∀ w o n file, tableStage w .expand { o with iters := n } file = tableStage w .expand o file) ∧
    ∃ (w : Surroundings) (o1 o2 : Opts) (x1 x y : Object) (k : ℚ) (e : Entry), IsSetOrder w.order ∧
      (tableStage w .generate o1 none).2 = .ok x1 ∧ (tableStage w .expand o2 (tableStage w .generate o1 none).1).2 = .ok x ∧
      (tableStage w .generate o2 none).2 = .ok y ∧ 8 ≤ o1.prec ∧ 8 ≤ o2.prec ∧ o2.cls = o1.cls ∧ o2.special = o1.special ∧
      e ∈ entries y.set.table (.num k) ∧ e ∉ entries x.set.table (.num k) := by
  refine ⟨fun w o n file => rfl, ?_⟩
  have key : ∀ {r : Except PyErr Object} {κ l}, entriesOf r κ = some l → ∃ x, r = .ok x ∧ entries x.set.table κ = l := by
    rintro (e | x) κ l h
    · cases h
    · exact ⟨x, rfl, Option.some.inj h⟩
  obtain ⟨x1, h1, -⟩ := key (r := (tableStage twoFuncs .generate { optsA with iters := 1 } none).2) (κ := .num (1 / 10)) (l := [])
    (by decide +kernel)
  obtain ⟨x, h2, hx⟩ := key (r := (tableStage twoFuncs .expand optsB
    (tableStage twoFuncs .generate { optsA with iters := 1 } none).1).2) (κ := .num (3 / 10)) (l := []) (by decide +kernel)
  obtain ⟨y, h3, hy⟩ := key (r := (tableStage twoFuncs .generate optsB none).2) (κ := .num (3 / 10)) (l := [(([[3]], [[1]]), 0)])
    (by decide +kernel)
  exact ⟨twoFuncs, { optsA with iters := 1 }, optsB, x1, x, y, 3 / 10, (([[3]], [[1]]), 0), fun l _ => List.Perm.refl l, h1, h2, h3,
    by decide, by decide, rfl, rfl, by rw [hy]; simp, by rw [hx]; simp⟩

/-! ### C109 -/

theorem unpickle_wf {V : Type} (p : Table.Pickled V) : WF (Table.unpickle p) := by
  have : ∀ (l d : Dict Key V), d.keys.Nodup → (l.foldl (fun d kv => Dict.set d kv.1 kv.2) d : Dict Key V).keys.Nodup := by
    intro l
    induction l with
    | nil => intro d h; exact h
    | cons x l ih => intro d h; exact ih _ (Dict.nodup_set h _ _)
  exact this _ _ List.nodup_nil

/-- **C109 (partial).** A run that uses or expands a stored table does not lose an entry of it, as long as `pickle.dump` does not raise: the
entries under every number stay, new ones are appended.  If the run ends with an exception, also one that stops the
enumeration after many new entries, the file is as before; so it is after a run that only uses the table. -/
theorem C109_kept_partial {w : Surroundings} (ho : IsSetOrder w.order) (hd : w.dump = none) (op : Op) (hop : op ≠ .generate) (o : Opts)
    (file : Option Content) :
    (∀ k, storedEntries file (.num k) <+: storedEntries (tableStage w op o file).1 (.num k)) ∧
    (∀ e, (tableStage w op o file).2 = .error e → (tableStage w op o file).1 = file) ∧
    (op = .use → (tableStage w op o file).1 = file) := by
  have herr : ∀ e, (tableStage w op o file).2 = .error e → (tableStage w op o file).1 = file := by
    intro e h
    rw [tableStage] at h ⊢
    cases hob : obtainObject op o file with
    | error e => rfl
    | ok y =>
      rw [hob] at h
      simp only at h ⊢
      split
      · rfl
      · rename_i hu
        rw [if_neg hu] at h
        rcases hb : y.build w o with ⟨z, e' | ⟨⟩⟩
        · rfl
        · rw [hb, hd] at h; cases h
  have huse : op = .use → (tableStage w op o file).1 = file := by
    rintro rfl
    rw [tableStage]
    cases obtainObject .use o file <;> rfl
  refine ⟨fun k => ?_, herr, huse⟩
  cases hr : (tableStage w op o file).2 with
  | error e => rw [herr e hr]
  | ok x =>
    by_cases hu : op = .use
    · rw [huse hu]
    · obtain ⟨-, hf, y, z, hy, hb, rfl⟩ := stage_ok hu hr
      rw [hf]
      cases op with
      | use => exact absurd rfl hu
      | generate => exact absurd rfl hop
      | expand =>
        rcases file with _ | (s | _)
        · cases hy
        · replace hy : s.load.redefine o = .ok y := hy
          obtain ⟨hwf, -, hpre⟩ := build_wf ho hb
          have hs : WF s.load.set.table := unpickle_wf _
          have hdata : y.set.table.data = s.load.set.table.data := by
            rw [Object.redefine, redefineSettings] at hy
            split at hy
            · cases hy
            · rename_i heq
              split at heq
              · cases heq; cases hy; rfl
              · split at heq
                · cases heq
                · cases heq; cases hy; rfl
          rw [stored_pickled (hwf (by rw [WF, hdata]; exact hs)), storedEntries]
          rw [entries_congr (t := y.set.table) (t' := s.load.set.table) (by rw [hdata])]
          exact hpre k
        · cases hy

/-- The search that follows sees the stored table: the object of the run has, under every key, exactly the entries that the file then holds, and
a run that only uses the table has the functions, number of iterations and enumerator with which it was stored. -/
theorem C109_searched {w : Surroundings} (ho : IsSetOrder w.order) (op : Op) (hop : op ≠ .generate) (o : Opts) (file : Option Content)
    {x : Object} (h : (tableStage w op o file).2 = .ok x) :
    (∀ κ, entries x.set.table κ = storedEntries (tableStage w op o file).1 κ) ∧
    (op = .use → ∃ s, file = some (.whole s) ∧ x.set.filter = s.object.set.filter ∧ x.set.trunc = s.object.set.trunc ∧
      x.set.polyClass = s.object.set.polyClass ∧ x.set.special = s.object.set.special ∧ x.iters = s.object.iters ∧
      x.expOnly = s.object.expOnly) := by
  cases op with
  | generate => exact absurd rfl hop
  | use =>
    rcases file with _ | (s | _)
    · cases h
    · cases h
      exact ⟨fun κ => rfl, fun _ => ⟨s, rfl, rfl, rfl, rfl, rfl, rfl, rfl⟩⟩
    · cases h
  | expand =>
    obtain ⟨-, hf, y, z, hy, hb, rfl⟩ := stage_ok (by simp) h
    refine ⟨fun κ => ?_, fun h => by cases h⟩
    rcases file with _ | (s | _)
    · cases hy
    · replace hy : s.load.redefine o = .ok y := hy
      have hs : WF s.load.set.table := unpickle_wf _
      have hdata : y.set.table.data = s.load.set.table.data := by
        rw [Object.redefine, redefineSettings] at hy
        split at hy
        · cases hy
        · rename_i heq
          split at heq
          · cases heq; cases hy; rfl
          · split at heq
            · cases heq
            · cases heq; cases hy; rfl
      rw [hf, stored_pickled ((build_wf ho hb).1 (by rw [WF, hdata]; exact hs))]
    · cases hy

/-- The table of a run with `generate` is used by the next run. -/
example : entriesOf (tableStage twoFuncs .use optsB (tableStage twoFuncs .generate optsA none).1).2 (.num (2 / 5)) =
    some [(([[2]], [[1]]), 0)] := by decide +kernel

/-- A run that expands and is stopped by a bad index of a function, and one that ends normally. -/
example : twoFuncs.dump = none ∧
    ((tableStage twoFuncs .expand { optsB with filter := [0, 7] } (tableStage twoFuncs .generate optsA none).1).2.toOption.isNone = true) ∧
    storedEntries (tableStage twoFuncs .generate optsA none).1 (.num (2 / 5)) = [(([[2]], [[1]]), 0)] ∧
    storedEntries (tableStage twoFuncs .expand optsB (tableStage twoFuncs .generate optsA none).1).1 (.num (3 / 10)) =
      [(([[3]], [[1]]), 0)] :=
  ⟨rfl, by decide +kernel, by decide +kernel, by decide +kernel⟩

/-- **C109 (negated).** The file is emptied before the new object is written.  If `pickle.dump` raises (a full disk, an interrupt) in a run that
would have ended normally otherwise, then the stored table is lost, and every later run that uses or expands the file raises. -/
theorem C109_dump_violated (w : Surroundings) (err : PyErr) (o : Opts) (file : Option Content) {x : Object}
    (h : (tableStage { w with dump := none } .expand o file).2 = .ok x) :
    (∀ κ, storedEntries (tableStage { w with dump := some err } .expand o file).1 κ = []) ∧
    ∀ w' op o', op ≠ .generate → ∃ e, (tableStage w' op o' (tableStage { w with dump := some err } .expand o file).1).2 = .error e := by
  obtain ⟨-, -, y, z, hy, hb, -⟩ := stage_ok (by simp) h
  have hb' : y.build { w with dump := some err } o = (z, .ok ()) := hb
  have hfile : (tableStage { w with dump := some err } .expand o file).1 = some .broken := by
    rw [tableStage, hy]
    simp only [reduceCtorEq, if_false, hb']
  rw [hfile]
  refine ⟨fun κ => rfl, fun w' op o' hop => ?_⟩
  rw [tableStage]
  cases op with
  | generate => exact absurd rfl hop
  | use => exact ⟨_, rfl⟩
  | expand => exact ⟨_, rfl⟩

example : (entriesOf (tableStage { twoFuncs with dump := none } .expand optsB (tableStage twoFuncs .generate optsA none).1).2
    (.num (3 / 10))) = some [(([[3]], [[1]]), 0)] := by decide +kernel

end PiCF
