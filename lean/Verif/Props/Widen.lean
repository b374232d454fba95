import Verif.Props.SetOrder
import Verif.Props.RationalFunc

/-!
# C141: larger ranges and more functions lose nothing
-/

namespace PiCF
open PiCF.Spec PiCF.EnumPoly PiCF.Distribute PiCF.Hashtable PiCF.Mitm PiCF.Lhs PiCF.ContFrac

/-! ### Specification -/

/-- The ranges `ra'` have the shape of `ra`, and each contains its counterpart. -/
def Spec.RangesWithin (ra ra' : Ranges) : Prop :=
  List.Forall₂ (List.Forall₂ fun (r r' : ℤ × ℤ) => r'.1 ≤ r.1 ∧ r.2 ≤ r'.2) ra ra'

/-- The enumerator classes that can be selected in a configuration file, for ranges they accept. -/
inductive Spec.Selectable (ra rb : Ranges) : Manip → Prop
  | basic : Selectable ra rb manipBasic
  | indexed : Selectable ra rb manipIndexed
  | sparse {so : List (List (List ℕ)) → List (List (List ℕ))} (hso : EnumPoly.IsSetOrder so) (nA nB : ℕ) {kA kB : ℕ}
      (ha : Uniform kA ra) (hb : Uniform kB rb) : Selectable ra rb (manipSparse so nA nB)

/-! ### Tables -/

theorem Spec.RangesWithin.inRanges {ra ra' : Ranges} (h : Spec.RangesWithin ra ra') {p : Polys} (hp : InRanges ra p) : InRanges ra' p := by
  have inner : ∀ {r r' : List (ℤ × ℤ)} {c : List ℤ}, List.Forall₂ (fun (r r' : ℤ × ℤ) => r'.1 ≤ r.1 ∧ r.2 ≤ r'.2) r r' →
      List.Forall₂ (fun (r : ℤ × ℤ) (c : ℤ) => r.1 ≤ c ∧ c < r.2) r c → List.Forall₂ (fun (r : ℤ × ℤ) (c : ℤ) => r.1 ≤ c ∧ c < r.2) r' c := by
    intro r r' c h1 h2
    induction h1 generalizing c with
    | nil => exact h2
    | cons hr _ ih =>
      cases h2 with
      | cons hc h2 => exact .cons ⟨by omega, by omega⟩ (ih h2)
  unfold InRanges at hp ⊢
  unfold Spec.RangesWithin at h
  induction h generalizing p with
  | nil => exact hp
  | cons hr _ ih =>
    cases hp with
    | cons hc hp => exact .cons (inner hr hc) (ih hp)

theorem Spec.RangesWithin.lengths {ra ra' : Ranges} (h : Spec.RangesWithin ra ra') : ra'.map List.length = ra.map List.length := by
  unfold Spec.RangesWithin at h
  induction h with
  | nil => rfl
  | cons hr _ ih => rw [List.map_cons, List.map_cons, ih, hr.length_eq]

theorem Spec.Selectable.tame {ra rb : Ranges} {m : Manip} (h : Spec.Selectable ra rb m) :
    ∃ f g, ∀ ra' rb', ra'.map List.length = ra.map List.length → rb'.map List.length = rb.map List.length → Tame m f g ra' rb' := by
  cases h with
  | basic => exact ⟨_, _, fun ra' rb' _ _ => tame_basic ra' rb'⟩
  | indexed => exact ⟨_, _, fun ra' rb' _ _ => tame_indexed ra' rb'⟩
  | sparse hso nA nB ha hb => exact ⟨_, _, fun ra' rb' ea eb => tame_sparse hso nA nB _ _ ra' rb' (ha.of_shape ea) (hb.of_shape eb)⟩

/-- A generator with wider ranges yields everything. -/
theorem Spec.Selectable.enumerated {ra rb ra' rb' : Ranges} {m : Manip} (h : Spec.Selectable ra rb m) (ha : Spec.RangesWithin ra ra')
    (hb : Spec.RangesWithin rb rb') (cfg : Config) :
    (polysGenerator m { cfg with genContFrac := false } ra rb).2 = .ok () ∧
      ∀ x ∈ PiCF.enumerated m cfg ra rb, x ∈ PiCF.enumerated m cfg ra' rb' := by
  obtain ⟨f, g, ht⟩ := h.tame
  obtain ⟨h1, h2⟩ := mem_enumerated (ht ra rb rfl rfl) cfg
  obtain ⟨-, h2'⟩ := mem_enumerated (ht ra' rb' ha.lengths hb.lengths) cfg
  refine ⟨h1, fun x hx => ?_⟩
  obtain ⟨pas, pbs, hc, r⟩ := (h2 x).1 hx
  exact (h2' x).2 ⟨pas, pbs, ⟨ha.inRanges hc.1, hb.inRanges hc.2⟩, r⟩

/-- **C141 (tables).** With wider coefficient ranges and more of the functions selected, a build that returns puts every
entry in the table that the build with the narrower settings puts in it, under the same key. -/
theorem C141_table {env env' : Env} (ho : Spec.IsSetOrder env.order) (ho' : Spec.IsSetOrder env'.order) {filter : List ℕ}
    (he : env' = { env with filter := filter, order := env'.order }) (hf : ∀ i ∈ env.filter, i ∈ filter) {m : Manip} {cfg : Config}
    {v v' : Bool} {ra rb ra' rb' : Ranges} (hm : Spec.Selectable ra rb m) (ha : Spec.RangesWithin ra ra') (hb : Spec.RangesWithin rb rb')
    {t t' u' : Table (Val Entry)} (ht : ∀ κ, ∀ e ∈ entries t κ, e ∈ entries t' κ)
    (h' : buildHashtable env' m cfg v' ra' rb' t' = (u', .ok ())) (κ : Key) :
    ∀ e ∈ entries (buildHashtable env m cfg v ra rb t).1 κ, e ∈ entries u' κ := by
  intro e hin
  have g' := build_grows ho' m cfg v' ra' rb' t'
  rw [h'] at g'
  rcases C51_sound ho m cfg v ra rb t κ e hin with hin | ⟨k, rfl, hen, x, f, y, h1, h2, h3, h4⟩
  · exact (g'.pre κ).subset (ht κ e hin)
  · refine C51_complete ho' h' ((hm.enumerated ha hb cfg).2 _ hen) ?_
    rw [he]
    exact ⟨x, f, y, h1, h2, hf _ h3, h4⟩

/-- **C141 (outcome).** If a new table can be built with the wider settings, it can be built with the narrower ones. -/
theorem C141_outcome {env env' : Env} (ho : Spec.IsSetOrder env.order) (ho' : Spec.IsSetOrder env'.order) {filter : List ℕ}
    (he : env' = { env with filter := filter, order := env'.order }) (hf : ∀ i ∈ env.filter, i ∈ filter) {m : Manip} {cfg : Config}
    {v v' : Bool} {ra rb ra' rb' : Ranges} (hm : Spec.Selectable ra rb m) (ha : Spec.RangesWithin ra ra') (hb : Spec.RangesWithin rb rb')
    {n n' : ℤ} (h' : (buildHashtable env' m cfg v' ra' rb' (Table.init n')).2 = .ok ()) :
    (buildHashtable env m cfg v ra rb (Table.init n)).2 = .ok () := by
  rw [build_ok_iff ho'] at h'
  rw [he] at h'
  obtain ⟨h1, h2, -⟩ := h'
  obtain ⟨g1, g2⟩ := hm.enumerated ha hb cfg
  refine (build_ok_iff ho _ _ _ _ _ _).2 ⟨fun i hi => h1 i (hf i hi), fun ab hab => ?_, g1⟩
  rcases h2 ab (g2 ab hab) with h | ⟨x, hx, h⟩
  · exact .inl h
  · exact .inr ⟨x, hx, fun hn i hi => h hn i (hf i hi)⟩

/-- **C141 (extension).** Building with the narrower settings and then extending the table with the wider ones gives the same
entries as building with the wider ones at once. -/
theorem C141_extend {env env' : Env} (ho : Spec.IsSetOrder env.order) (ho' : Spec.IsSetOrder env'.order) {filter : List ℕ}
    (he : env' = { env with filter := filter, order := env'.order }) (hf : ∀ i ∈ env.filter, i ∈ filter) {m : Manip} {cfg : Config}
    {v v1 v2 : Bool} {ra rb ra' rb' : Ranges} (hm : Spec.Selectable ra rb m) (ha : Spec.RangesWithin ra ra') (hb : Spec.RangesWithin rb rb')
    {t t1 u u' : Table (Val Entry)} (hd : ∀ κ, (entries t κ).Nodup) (h1 : (buildHashtable env m cfg v ra rb t).1 = t1)
    (h2 : buildHashtable env' m cfg v1 ra' rb' t1 = (u, .ok ())) (h' : buildHashtable env' m cfg v2 ra' rb' t = (u', .ok ())) :
    Spec.SameEntries u u' := by
  have g1 := build_grows ho m cfg v ra rb t
  rw [h1] at g1
  have g2 := build_grows ho' m cfg v1 ra' rb' t1
  rw [h2] at g2
  have g' := build_grows ho' m cfg v2 ra' rb' t
  rw [h'] at g'
  have sub := C141_table ho ho' he hf (v := v) hm ha hb (t := t) (fun _ _ h => h) h'
  rw [h1] at sub
  have s2 := C51_sound ho' m cfg v1 ra' rb' t1
  rw [h2] at s2
  have s' := C51_sound ho' m cfg v2 ra' rb' t
  rw [h'] at s'
  refine ⟨?_, ?_, fun κ => (List.perm_ext_iff_of_nodup (g2.nodup (g1.nodup hd) κ) (g'.nodup hd κ)).2 fun e => ⟨fun hin => ?_, fun hin => ?_⟩⟩
  · rw [show u.accuracy = t1.accuracy from g2.accuracy, show t1.accuracy = t.accuracy from g1.accuracy,
      show u'.accuracy = t.accuracy from g'.accuracy]
  · rw [show u.history = t1.history from g2.history, show t1.history = t.history from g1.history,
      show u'.history = t.history from g'.history]
  · rcases s2 κ e hin with hin | ⟨k, rfl, hen, hbl⟩
    · exact sub κ e hin
    · exact C51_complete ho' h' hen hbl
  · rcases s' κ e hin with hin | ⟨k, rfl, hen, hbl⟩
    · exact (g2.pre κ).subset ((g1.pre κ).subset hin)
    · exact C51_complete ho' h2 hen hbl

/-- The functions `x` and `x²`, of which `filter` are selected. -/
def widenEnv (filter : List ℕ) : Env := { orderEnv id with filter := filter }

/-- The hypotheses of the three theorems: `a = 2` with the identity, against `a = 1, 2, 3` with both functions. -/
example : Spec.IsSetOrder (widenEnv [0]).order ∧ widenEnv [0, 1] = { widenEnv [0] with filter := [0, 1], order := (widenEnv [0, 1]).order } ∧
    Spec.Selectable [[(2, 3)]] [[(1, 2)]] manipBasic ∧ Spec.RangesWithin [[(2, 3)]] [[(1, 4)]] ∧ Spec.RangesWithin [[(1, 2)]] [[(1, 2)]] ∧
    entries (buildHashtable (widenEnv [0]) manipBasic {} false [[(2, 3)]] [[(1, 2)]] (Table.init 3)).1 (.num 1) = [(([[2]], [[1]]), 0)] ∧
    (buildHashtable (widenEnv [0, 1]) manipBasic {} false [[(1, 4)]] [[(1, 2)]] (Table.init 3)).2 = .ok () ∧
    (entries (buildHashtable (widenEnv [0, 1]) manipBasic {} false [[(1, 4)]] [[(1, 2)]] (Table.init 3)).1 (.num 1)).length = 6 ∧
    (buildHashtable (widenEnv [0, 1]) manipBasic {} true [[(1, 4)]] [[(1, 2)]]
      (buildHashtable (widenEnv [0]) manipBasic {} false [[(2, 3)]] [[(1, 2)]] (Table.init 3)).1).2 = .ok () := by
  refine ⟨fun l _ => List.Perm.refl l, rfl, .basic, .cons (.cons (by decide) .nil) .nil, .cons (.cons (by decide) .nil) .nil,
    by decide +kernel, by decide +kernel, by decide +kernel, by decide +kernel⟩

/-! ### Left hand sides -/

/-- **C141 (ULCD).** With `lhs_params` that describe more numbers, every left hand side is still enumerated, with the same value. -/
theorem C141_ulcd {ru rl rc rd ru' rl' rc' rd' : RangeSpec} {x : ℚ} {e e' : UlcdEnum} (h : UlcdEnum.init ru rl rc rd x = .ok e)
    (h' : UlcdEnum.init ru' rl' rc' rd' x = .ok e') (hx : x ≠ 0) (hu : ∀ i, rangeMem false ru i → rangeMem false ru' i)
    (hl : ∀ i, rangeMem false rl i → rangeMem false rl' i) (hc : ∀ i, rangeMem false rc i → rangeMem false rc' i)
    (hd : ∀ i, rangeMem true rd i → rangeMem true rd' i) : ∀ o ∈ e.generator.1, o ∈ e'.generator.1 := by
  intro o ho
  obtain ⟨-, m, -, s, -⟩ := C48_ulcd_enumeration h hx
  obtain ⟨-, m', -, s', -⟩ := C48_ulcd_enumeration h' hx
  obtain ⟨a1, a2, a3, a4, a5⟩ := (m o.params).1 (List.mem_map_of_mem ho)
  obtain ⟨o', ho', e1⟩ := List.mem_map.1 ((m' o.params).2 ⟨hu _ a1, hl _ a2, hc _ a3, hd _ a4, a5⟩)
  obtain ⟨x1, v1⟩ := s o ho
  obtain ⟨x2, v2⟩ := s' o' ho'
  have : o' = o := by
    cases o; cases o'
    simp only at e1 x1 v1 x2 v2
    rw [e1] at v2
    simp only [Ulcd.mk.injEq]
    exact ⟨e1, by rw [x1, x2], by rw [v1, v2]⟩
  exact this ▸ ho'

/-- The usual form: a larger number in `lhs_params`. -/
theorem C141_numbers (forD : Bool) {n n' : ℤ} (h : n ≤ n') (i : ℤ) : rangeMem forD (.num n) i → rangeMem forD (.num n') i := by
  cases forD <;> simp only [rangeMem, if_true, Bool.false_eq_true, if_false] <;> omega

/-- **C141 (rational functions).** The same for `rationalfunc` with wider ranges of the same shape. -/
theorem C141_rational {num den num' den' : List Rng} {bigger : Bool} {x : ℚ} {e e' : RFEnum} (h : RFEnum.init num den bigger x = .ok e)
    (h' : RFEnum.init num' den' bigger x = .ok e') (hn : Spec.RangesWithin [num] [num']) (hd : Spec.RangesWithin [den] [den']) :
    ∀ o ∈ e.generator, ∃ o' ∈ e'.generator, o'.params = o.params ∧ o'.val = o.val := by
  intro o ho
  obtain ⟨m, -, s, -⟩ := C49_rational_enumeration h
  obtain ⟨m', -, s', -⟩ := C49_rational_enumeration h'
  have one : ∀ {r r' : List Rng} {p : List ℤ}, Spec.RangesWithin [r] [r'] → InRange r p → InRange r' p := by
    intro r r' p hw hp
    have : InRanges [r'] [p] := hw.inRanges (.cons hp .nil)
    cases this with
    | cons h _ => exact h
  obtain ⟨a1, a2, a3⟩ := (m o.params).1 (List.mem_map_of_mem ho)
  obtain ⟨o', ho', e1⟩ := List.mem_map.1 ((m' o.params).2 ⟨one hn a1, one hd a2, a3⟩)
  exact ⟨o', ho', e1, by rw [s o ho, s' o' ho', e1]⟩

/-- The hypotheses of `C141_ulcd` and `C141_rational`. -/
example : (∃ e, UlcdEnum.init (.num 1) (.num 1) (.num 0) (.num 1) (2 : ℚ) = .ok e ∧ e.generator.1 ≠ []) ∧
    (∃ e, UlcdEnum.init (.num 2) (.num 3) (.two (-1) 2) (.num 2) (2 : ℚ) = .ok e) ∧
    (∀ i, rangeMem false (.num 0) i → rangeMem false (.two (-1) 2) i) ∧
    (∃ e, RFEnum.init [(1, 2), (1, 2)] [(1, 2)] true (2 : ℚ) = .ok e) ∧ (∃ e, RFEnum.init [(-3, 4), (0, 5)] [(1, 3)] true (2 : ℚ) = .ok e) ∧
    Spec.RangesWithin [[(1, 2), (1, 2)]] [[(-3, 4), (0, 5)]] := by
  refine ⟨⟨_, rfl, by decide +kernel⟩, ⟨_, rfl⟩, fun i => ?_, ⟨_, rfl⟩, ⟨_, rfl⟩, .cons (.cons (by decide) (.cons (by decide) .nil)) .nil⟩
  simp only [rangeMem, Bool.false_eq_true, if_false]
  omega

/-- **C141 (searches).** A ULCD search with `lhs_params` that describe more numbers reports every result of the search with
the narrower ones, up to the sign of `a` for the identity. -/
theorem C141_search {x : ℚ} (hx : x ≠ 0) {E : SearchEnv Ulcd} (A : Analysis) (required : ℚ → ℚ → Except PyErr ℤ) {n1 : ℕ} (h1 : 1 ≤ n1)
    (n2 n3 : ℤ) (hid : ∀ f, E.funcs[0]? = some f → ∀ x, f x = .ok x) (heng : ∀ x, E.eng x ≠ .error .keyboardInterrupt)
    (hreq : ∀ x y, required x y ≠ .error .keyboardInterrupt) (hfun : ∀ f ∈ E.funcs, ∀ x, f x ≠ .error .keyboardInterrupt)
    (htr : E.trunc = true) {ru rl rc rd ru' rl' rc' rd' : RangeSpec} {e e' : UlcdEnum} (he : UlcdEnum.init ru rl rc rd x = .ok e)
    (he' : UlcdEnum.init ru' rl' rc' rd' x = .ok e') (hu : ∀ i, rangeMem false ru i → rangeMem false ru' i)
    (hl : ∀ i, rangeMem false rl i → rangeMem false rl' i) (hc : ∀ i, rangeMem false rc i → rangeMem false rc' i)
    (hd : ∀ i, rangeMem true rd i → rangeMem true rd' i) (hE : E.gen = e.generator)
    {old old' cs cs' : List (Click Ulcd)} (h : search ulcdClass (E.withCode A required n1 n2 n3) none old = (cs, .ok ()))
    (h' : search ulcdClass (SearchEnv.withCode { E with gen := e'.generator } A required n1 n2 n3) none old' = (cs', .ok ()))
    {c : Click Ulcd} (hin : c ∈ cs) : ∃ c' ∈ cs', c'.b = c.b ∧ c'.post = c.post ∧
      (c'.a = c.a ∨ c.post = 0 ∧ c'.a = c.a.map fun p => p.map fun x => -x) ∧ c'.conv = c.conv ∧
      Int.fract |c'.lhs.val| = Int.fract |c.lhs.val| := by
  obtain ⟨-, m', -, s', -⟩ := C48_ulcd_enumeration he' hx
  refine C136_code (x := x) (E := E) (table := E.table) (gen := e'.generator) A required h1 n2 n3 hid heng hreq hfun htr (fun o ho => ?_)
    (by rw [hE]; exact C141_ulcd he he' hx hu hl hc hd) (fun s es hs => ⟨es, hs, fun _ h => h⟩) h h' hin
  obtain ⟨-, -, -, -, n1, n2, -⟩ := (m' o.params).1 (List.mem_map_of_mem ho)
  exact ⟨(s' o ho).1, hx, ⟨n1, n2⟩, (s' o ho).2⟩

/-- The search `exGolden` with the left hand sides of an enumerator. -/
def exGoldenRanges (e : UlcdEnum) : SearchEnv Ulcd := { exGolden with gen := e.generator }

/-- The hypotheses of `C141_search`: the constant itself against `(u / x + x / l + c) / d` with all parameters at most 1; both searches
have a result. -/
example : ∃ e e', UlcdEnum.init (.num 0) (.two 1 2) (.num 0) (.num 1) (26180 / 10000) = .ok e ∧
    UlcdEnum.init (.num 1) (.num 1) (.num 0) (.num 1) (26180 / 10000) = .ok e' ∧ (exGoldenRanges e).gen = e.generator ∧
    (∀ i, rangeMem false (.two 1 2) i → rangeMem false (.num 1) i) ∧
    (search ulcdClass ((exGoldenRanges e).withCode exAnalysis (fun _ _ => .ok 20) 20 20 20) none []).2.toOption = some () ∧
    (search ulcdClass ((exGoldenRanges e').withCode exAnalysis (fun _ _ => .ok 20) 20 20 20) none []).2.toOption = some () ∧
    (search ulcdClass ((exGoldenRanges e).withCode exAnalysis (fun _ _ => .ok 20) 20 20 20) none []).1.map
      (fun c => (c.a, c.b, c.lhs.val)) = [([[1]], [[1]], 26180 / 10000)] ∧ e.generator.1.length = 1 ∧ e'.generator.1.length = 6 := by
  refine ⟨_, _, rfl, rfl, rfl, fun i => ?_, by decide +kernel, by decide +kernel, by decide +kernel, by decide +kernel, by decide +kernel⟩
  simp only [rangeMem, Bool.false_eq_true, if_false]
  omega

end PiCF
