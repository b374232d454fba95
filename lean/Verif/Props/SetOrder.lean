import Verif.Props.Distribute
import Verif.Props.Monotone

/-!
# C139: the order in which python visits sets does not matter
-/

namespace PiCF
open PiCF.Spec PiCF.EnumPoly PiCF.Distribute PiCF.Hashtable PiCF.Mitm PiCF.Lhs PiCF.ContFrac

/-! ### Specification -/

/-- Two tables hold the same: under every key the same entries, each as often, in any order. -/
structure Spec.SameEntries (t t' : Table (Val Entry)) : Prop where
  accuracy : t.accuracy = t'.accuracy
  history : t.history = t'.history
  entries : ∀ κ, (entries t κ).Perm (entries t' κ)

/-- The same enumerator class: the same one, or the sparse class with sets of masks visited in another order. -/
inductive Spec.SameClass (ra rb : Ranges) : Manip → Manip → Prop
  | same (m : Manip) : SameClass ra rb m m
  | sparse {so so' : List (List (List ℕ)) → List (List (List ℕ))} (hso : EnumPoly.IsSetOrder so) (hso' : EnumPoly.IsSetOrder so')
      (nA nB : ℕ) {kA kB : ℕ} (ha : Uniform kA ra) (hb : Uniform kB rb) : SameClass ra rb (manipSparse so nA nB) (manipSparse so' nA nB)

/-- The same call of `build_hashtable` in two processes: only the orders of the sets and the flag `validate` may differ. -/
structure Spec.SameCall (b b' : Env × Manip × Config × Bool × Ranges × Ranges) : Prop where
  order : Spec.IsSetOrder b.1.order
  order' : Spec.IsSetOrder b'.1.order
  env : b'.1 = { b.1 with order := b'.1.order }
  manip : Spec.SameClass b.2.2.2.2.1 b.2.2.2.2.2 b.2.1 b'.2.1
  config : b'.2.2.1 = b.2.2.1
  ranges : b'.2.2.2.2 = b.2.2.2.2

/-- All calls return. -/
def Spec.Returns : List (Env × Manip × Config × Bool × Ranges × Ranges) → Table (Val Entry) → Table (Val Entry) → Prop
  | [], t, u => u = t
  | (env, manip, cfg, validate, ra, rb) :: bs, t, u => ∃ t', buildHashtable env manip cfg validate ra rb t = (t', .ok ()) ∧ Spec.Returns bs t' u

/-! ### Tables -/

theorem mem_sparseList_iff {so so'} (hso : EnumPoly.IsSetOrder so) (hso' : EnumPoly.IsSetOrder so') (n : ℕ) (ps x : Polys) :
    x ∈ sparseList so n ps ↔ x ∈ sparseList so' n ps := by
  simp only [sparseList, List.mem_map, mem_masksList hso, mem_masksList hso']

theorem Spec.SameClass.generator {ra rb : Ranges} {m m' : Manip} (h : Spec.SameClass ra rb m m') (cfg : Config) :
    ((polysGenerator m { cfg with genContFrac := false } ra rb).2 = .ok () ↔
      (polysGenerator m' { cfg with genContFrac := false } ra rb).2 = .ok ()) ∧
    ∀ x, x ∈ enumerated m cfg ra rb ↔ x ∈ enumerated m' cfg ra rb := by
  cases h with
  | same => exact ⟨Iff.rfl, fun _ => Iff.rfl⟩
  | @sparse so so' hso hso' nA nB kA kB ha hb =>
    obtain ⟨h1, h2⟩ := mem_enumerated (tame_sparse hso nA nB kA kB ra rb ha hb) cfg
    obtain ⟨h1', h2'⟩ := mem_enumerated (tame_sparse hso' nA nB kA kB ra rb ha hb) cfg
    refine ⟨⟨fun _ => h1', fun _ => h1⟩, fun x => ?_⟩
    rw [h2, h2']
    simp only [mem_sparseList_iff hso hso']

theorem build_same {env : Env} {order' : List ℕ → List ℕ} (ho : Spec.IsSetOrder env.order) (ho' : Spec.IsSetOrder order')
    {m m' : Manip} {cfg : Config} {v v' : Bool} {ra rb : Ranges} (hm : Spec.SameClass ra rb m m') {t t' u u' : Table (Val Entry)}
    (hs : Spec.SameEntries t t') (hd : ∀ κ, (entries t κ).Nodup) (h : buildHashtable env m cfg v ra rb t = (u, .ok ()))
    (h' : buildHashtable { env with order := order' } m' cfg v' ra rb t' = (u', .ok ())) :
    Spec.SameEntries u u' ∧ ∀ κ, (entries u κ).Nodup := by
  have hd' : ∀ κ, (entries t' κ).Nodup := fun κ => (hs.entries κ).nodup_iff.1 (hd κ)
  have g := build_grows ho m cfg v ra rb t
  have g' := build_grows (env := { env with order := order' }) ho' m' cfg v' ra rb t'
  have s := C51_sound ho m cfg v ra rb t
  have s' := C51_sound (env := { env with order := order' }) ho' m' cfg v' ra rb t'
  rw [h] at g s
  rw [h'] at g' s'
  have c := fun {k e} => C51_complete (k := k) (e := e) ho h
  have c' := fun {k e} => C51_complete (env := { env with order := order' }) (k := k) (e := e) ho' h'
  have hx := (hm.generator cfg).2
  refine ⟨⟨?_, ?_, fun κ => ?_⟩, g.nodup hd⟩
  · rw [show u.accuracy = t.accuracy from g.accuracy, show u'.accuracy = t'.accuracy from g'.accuracy, hs.accuracy]
  · rw [show u.history = t.history from g.history, show u'.history = t'.history from g'.history, hs.history]
  · refine (List.perm_ext_iff_of_nodup (g.nodup hd κ) (g'.nodup hd' κ)).2 fun e => ⟨fun he => ?_, fun he => ?_⟩
    · rcases s κ e he with he | ⟨k, rfl, he, hb⟩
      · exact (g'.pre κ).subset ((hs.entries κ).subset he)
      · exact c' ((hx _).1 he) hb
    · rcases s' κ e he with he | ⟨k, rfl, he, hb⟩
      · exact (g.pre κ).subset ((hs.entries κ).symm.subset he)
      · exact c ((hx _).2 he) hb

/-- **C139 (tables).** The same sequence of builds in two processes, each visiting sets in orders of its own: if all of them
return, the tables hold the same entries under the same keys, each once. -/
theorem C139_tables {bs bs' : List (Env × Manip × Config × Bool × Ranges × Ranges)} (hb : List.Forall₂ Spec.SameCall bs bs')
    {t t' u u' : Table (Val Entry)} (hs : Spec.SameEntries t t') (hd : ∀ κ, (entries t κ).Nodup) (h : Spec.Returns bs t u)
    (h' : Spec.Returns bs' t' u') : Spec.SameEntries u u' ∧ ∀ κ, (entries u κ).Nodup := by
  induction hb generalizing t t' with
  | nil =>
    obtain rfl : u = t := h
    obtain rfl : u' = t' := h'
    exact ⟨hs, hd⟩
  | @cons b b' bs bs' hbb _ ih =>
    obtain ⟨env, m, cfg, v, ra, rb⟩ := b
    obtain ⟨env', m', cfg', v', ra', rb'⟩ := b'
    obtain ⟨ho, ho', he, hm, hc, hr⟩ := hbb
    simp only at ho ho' he hm hc hr
    cases hr
    subst hc
    obtain ⟨t1, h1, h⟩ := h
    obtain ⟨t1', h1', h'⟩ := h'
    rw [he] at h1'
    obtain ⟨hs1, hd1⟩ := build_same ho ho' hm hs hd h1 h1'
    exact ih hs1 hd1 h h'

/-- **C139 (outcome).** A build of a new table returns with one order of the sets exactly when it returns with another. -/
theorem C139_outcome {b b' : Env × Manip × Config × Bool × Ranges × Ranges} (h : Spec.SameCall b b') (n : ℤ) :
    (∃ u, Spec.Returns [b] (Table.init n) u) ↔ ∃ u, Spec.Returns [b'] (Table.init n) u := by
  obtain ⟨env, m, cfg, v, ra, rb⟩ := b
  obtain ⟨env', m', cfg', v', ra', rb'⟩ := b'
  obtain ⟨ho, ho', he, hm, hc, hr⟩ := h
  simp only at ho ho' he hm hc hr
  cases hr
  subst hc
  have key : ∀ (env : Env) (m : Manip) (v : Bool), (∃ u, Spec.Returns [(env, m, cfg', v, ra, rb)] (Table.init n) u) ↔
      (buildHashtable env m cfg' v ra rb (Table.init n)).2 = .ok () := by
    intro env m v
    constructor
    · rintro ⟨u, t', h, -⟩
      rw [h]
    · exact fun h => ⟨_, _, Prod.ext rfl h, rfl⟩
  rw [key, key, build_ok_iff ho, build_ok_iff ho', (hm.generator cfg').1]
  rw [he]
  simp only [(hm.generator cfg').2]
  rfl

/-- All continued fractions have value 1; the functions are `x` and `x²`, visited in this order. -/
def orderEnv (order : List ℕ → List ℕ) : Env where
  funcs := [fun x => .ok x, fun | .fin q => .ok (.fin (q ^ 2)) | x => .ok x]
  filter := [0, 1]
  trunc := false
  cfv := fun _ _ => .ok (.fin 1)
  order := order

/-- The hypotheses of `C139_tables` and `C139_outcome`: `a = c₀ + c₁ i + c₂ i²` with one coefficient not zero, with both orders of
the functions and of the masks.  The lists under the key 1 are in different orders. -/
example : Spec.SameCall (orderEnv id, manipSparse (fun l => l.dedup) 3 1, {}, false, [[(2, 3)]], [[(1, 2)]])
      (orderEnv List.reverse, manipSparse (fun l => l.dedup.reverse) 3 1, {}, true, [[(2, 3)]], [[(1, 2)]]) ∧
    (∃ u, Spec.Returns [(orderEnv id, manipSparse (fun l => l.dedup) 3 1, {}, false, [[(2, 3)]], [[(1, 2)]])] (Table.init 3) u) ∧
    (entries (buildHashtable (orderEnv id) manipBasic {} false [[(2, 3)]] [[(1, 2)]] (Table.init 3)).1 (.num 1) =
      [(([[2]], [[1]]), 0), (([[2]], [[1]]), 1)]) ∧
    entries (buildHashtable (orderEnv List.reverse) manipBasic {} true [[(2, 3)]] [[(1, 2)]] (Table.init 3)).1 (.num 1) =
      [(([[2]], [[1]]), 1), (([[2]], [[1]]), 0)] := by
  have u : ∀ {x : Rng}, Uniform 1 [[x]] := ⟨by simp, by simp⟩
  have hso : EnumPoly.IsSetOrder (fun l => l.dedup) := fun l => List.Perm.refl _
  have ho : Spec.IsSetOrder (orderEnv id).order := fun l _ => List.Perm.refl l
  refine ⟨⟨ho, fun l _ => List.reverse_perm l, rfl, .sparse hso (fun l => List.reverse_perm _) 3 1 u u, rfl, rfl⟩, ?_,
    by decide +kernel, by decide +kernel⟩
  refine ⟨_, _, Prod.ext rfl ((build_ok_iff ho _ _ _ _ _ _).2 ⟨by decide, fun ab _ => .inr ⟨_, rfl, fun _ i hi => ?_⟩,
    (mem_enumerated (tame_sparse hso 3 1 1 1 _ _ u u) {}).1⟩), rfl⟩
  have : i = 0 ∨ i = 1 := by simpa [orderEnv] using hi
  rcases this with rfl | rfl <;> exact ⟨_, _, rfl, rfl⟩

/-! ### Searches -/

/-- Two tables answer every lookup with the same entries, in any order. -/
def Spec.SameAnswers (t t' : Table (Val Entry)) : Prop :=
  ∀ s, (∀ es, stored t s = some (.list es) → ∃ es', stored t' s = some (.list es') ∧ es'.Perm es) ∧
    ∀ es, stored t' s = some (.list es) → ∃ es', stored t s = some (.list es') ∧ es'.Perm es

/-- **C139 (searches).** Two ULCD searches with the code's own evaluators and convergence tests, with the same settings, tables with the same
entries and the same LHS objects, each in an order of its own: each reports every result of the other, up to the sign of `a` for
the identity. -/
theorem C139_search {x : ℚ} {E : SearchEnv Ulcd} (A : Analysis) (required : ℚ → ℚ → Except PyErr ℤ) {n1 : ℕ} (h1 : 1 ≤ n1) (n2 n3 : ℤ)
    (hid : ∀ f, E.funcs[0]? = some f → ∀ x, f x = .ok x) (heng : ∀ x, E.eng x ≠ .error .keyboardInterrupt)
    (hreq : ∀ x y, required x y ≠ .error .keyboardInterrupt) (hfun : ∀ f ∈ E.funcs, ∀ x, f x ≠ .error .keyboardInterrupt)
    (htr : E.trunc = true) {table : Table (Val Entry)} {gen : List Ulcd × Except PyErr Unit} (hos : ∀ o ∈ E.gen.1, UlcdOk x o)
    (hgen : gen.1.Perm E.gen.1) (htab : Spec.SameAnswers E.table table)
    {old old' cs cs' : List (Click Ulcd)} (h : search ulcdClass (E.withCode A required n1 n2 n3) none old = (cs, .ok ()))
    (h' : search ulcdClass (SearchEnv.withCode { E with table := table, gen := gen } A required n1 n2 n3) none old' = (cs', .ok ())) :
    (∀ c ∈ cs, ∃ c' ∈ cs', c'.b = c.b ∧ c'.post = c.post ∧ (c'.a = c.a ∨ c.post = 0 ∧ c'.a = c.a.map fun p => p.map fun x => -x) ∧
      c'.conv = c.conv ∧ Int.fract |c'.lhs.val| = Int.fract |c.lhs.val|) ∧
    ∀ c ∈ cs', ∃ c' ∈ cs, c'.b = c.b ∧ c'.post = c.post ∧ (c'.a = c.a ∨ c.post = 0 ∧ c'.a = c.a.map fun p => p.map fun x => -x) ∧
      c'.conv = c.conv ∧ Int.fract |c'.lhs.val| = Int.fract |c.lhs.val| := by
  constructor
  · intro c hc
    exact C136_code A required h1 n2 n3 hid heng hreq hfun htr (fun o ho => hos o (hgen.subset ho)) (fun o ho => hgen.symm.subset ho)
      (fun s es he => by
        obtain ⟨es', e1, e2⟩ := (htab s).1 es he
        exact ⟨es', e1, fun e he => e2.symm.subset he⟩) h h' hc
  · intro c hc
    exact C136_code (E := { E with table := table, gen := gen }) A required h1 n2 n3 hid heng hreq hfun htr
      (table := E.table) (gen := E.gen) hos (fun o ho => hgen.subset ho)
      (fun s es he => by
        obtain ⟨es', e1, e2⟩ := (htab s).2 es he
        exact ⟨es', e1, fun e he => e2.symm.subset he⟩) h' h hc

/-- The search `exGolden` with the entries of its table and its LHS objects in other orders. -/
def exGoldenOther : SearchEnv Ulcd :=
  { exGolden with
    table := ⟨4, [], [(.str "0.618".toList, .list [(([[2]], [[1]]), 0), (([[1]], [[1]]), 0)])]⟩
    gen := (exGolden.gen.1.reverse, .ok ()) }

/-- The hypotheses of `C139_search` for the two searches, which both have a result. -/
example : exGoldenOther.gen.1.Perm exGolden.gen.1 ∧ Spec.SameAnswers exGolden.table exGoldenOther.table ∧
    (search ulcdClass exGoldenCode none []).2.toOption = some () ∧
    (search ulcdClass (exGoldenOther.withCode exAnalysis (fun _ _ => .ok 20) 20 20 20) none []).2.toOption = some () ∧
    (search ulcdClass (exGoldenOther.withCode exAnalysis (fun _ _ => .ok 20) 20 20 20) none []).1.map
      (fun c => (c.a, c.b, c.lhs.val)) = [([[1]], [[1]], 26180 / 10000)] := by
  have one : ∀ (l : List Entry) s es, stored (⟨4, [], [(.str "0.618".toList, .list l)]⟩ : Table (Val Entry)) s = some (.list es) ↔
      sliceTo s (4 + 1) = "0.618".toList ∧ es = l := by
    intro l s es
    rw [stored, show (⟨4, [], [(.str "0.618".toList, .list l)]⟩ : Table (Val Entry)).history ++ [4] = [4] from rfl, List.findSome?]
    have h1 : Dict.get? [(Key.str "0.618".toList, Val.list l)] (.str (sliceTo s (4 + 1))) =
        if Key.str (sliceTo s (4 + 1)) = .str "0.618".toList then some (.list l) else none := by
      simp [Dict.get?, eq_comm]
    rw [h1]
    by_cases hk : sliceTo s (4 + 1) = "0.618".toList
    · rw [if_pos (by rw [hk])]
      simp only [Option.some.injEq, Val.list.injEq, hk, true_and]
      exact eq_comm
    · rw [if_neg (by simpa only [Key.str.injEq] using hk)]
      simp only [List.findSome?, hk, false_and, reduceCtorEq]
  refine ⟨List.reverse_perm _, fun s => ⟨fun es h => ?_, fun es h => ?_⟩, by decide +kernel, by decide +kernel, by decide +kernel⟩
  · obtain ⟨h1, rfl⟩ := (one _ s es).1 h
    exact ⟨_, (one _ s _).2 ⟨h1, rfl⟩, List.Perm.swap _ _ _⟩
  · obtain ⟨h1, rfl⟩ := (one _ s es).1 h
    exact ⟨_, (one _ s _).2 ⟨h1, rfl⟩, List.Perm.swap _ _ _⟩

end PiCF
