import Verif.Props.ConfigSave

/-!
# C104: neither the order of the options nor unknown options matter; C72 for files with percent signs
-/

namespace PiCF.Config
open PiCF.Hashtable PiCF.Json

/-- What a text means for an option. -/
def meaning (k t : Str) : Option Value :=
  match kindOf k with
  | none => some (.data (castUnknown t))
  | some kind => (cast kind t).toOption

/-- Every option of the table has a text of the right form. -/
def Castable (items : List (Str × Str)) : Prop := ∀ x ∈ items, ∀ kind, kindOf x.1 = some kind → ∃ v, cast kind x.2 = .ok v

theorem readItems_fails : ∀ {items : List (Str × Str)} (d : Dict), ¬ Castable items → ∃ e, readItems d items = .error e
  | [], _, h => absurd (fun x hx => by cases hx) h
  | (key, text) :: items, d, h => by
    rw [readItems]
    cases hk : kindOf key with
    | none =>
      refine readItems_fails _ fun hc => h fun x hx kind hkind => ?_
      rcases List.mem_cons.1 hx with rfl | hx
      · rw [hk] at hkind; cases hkind
      · exact hc x hx kind hkind
    | some kind =>
      simp only
      cases hv : cast kind text with
      | error e => exact ⟨e, rfl⟩
      | ok v =>
        refine readItems_fails _ fun hc => h fun x hx kind' hkind => ?_
        rcases List.mem_cons.1 hx with rfl | hx
        · rw [hk] at hkind; cases hkind; exact ⟨v, hv⟩
        · exact hc x hx kind' hkind

theorem readItems_meaning : ∀ {items : List (Str × Str)} (d : Dict), Castable items → ∃ d', readItems d items = .ok d' ∧
    ∀ k, d' k = match written items k with | some t => meaning k t | none => d k
  | [], d, _ => ⟨d, rfl, fun _ => rfl⟩
  | (key, text) :: items, d, h => by
    have h' : Castable items := fun x hx => h x (List.mem_cons_of_mem _ hx)
    obtain ⟨v, hm, hr⟩ : ∃ v, meaning key text = some v ∧ readItems d ((key, text) :: items) = readItems (d.set key v) items := by
      rw [readItems, meaning]
      cases hk : kindOf key with
      | none => exact ⟨_, rfl, rfl⟩
      | some kind =>
        obtain ⟨v, hv⟩ := h _ List.mem_cons_self kind hk
        simp only [hv]
        exact ⟨v, rfl, rfl⟩
    obtain ⟨d', e, hd⟩ := readItems_meaning (d.set key v) h'
    refine ⟨d', by rw [hr, e], fun k => ?_⟩
    rw [hd k, written]
    cases hw : written items k with
    | some t => rfl
    | none =>
      simp only
      by_cases hk : key = k
      · subst hk
        simp [Dict.set, hm]
      · simp [Dict.set, hk, Ne.symm hk]

theorem written_iff_mem {k t : Str} : ∀ {items : List (Str × Str)}, (items.map Prod.fst).Nodup → (written items k = some t ↔ (k, t) ∈ items)
  | [], _ => by simp [written]
  | (key, text) :: items, hn => by
    rw [List.map_cons, List.nodup_cons] at hn
    have ih := written_iff_mem (k := k) (t := t) hn.2
    rw [written]
    cases hw : written items k with
    | some t' =>
      have hmem : (k, t') ∈ items := (written_iff_mem hn.2).1 hw
      have hne : k ≠ key := by
        rintro rfl
        exact hn.1 (List.mem_map.2 ⟨_, hmem, rfl⟩)
      rw [hw] at ih
      simp only [List.mem_cons, Prod.mk.injEq]
      rw [ih]
      simp [hne]
    | none =>
      have hnot : (k, t) ∉ items := fun hm => written_none hw _ hm rfl
      simp only [List.mem_cons, Prod.mk.injEq]
      by_cases hk : key = k
      · subst hk
        simp [hnot, eq_comm]
      · simp [hnot, hk, Ne.symm hk]

/-- If no option is given twice, a file with the same options in another order gives the
same configuration, or fails as well. -/
theorem load_order (listdir : Str → Except PyErr (List Str)) {items items' : List (Str × Str)} (hp : items.Perm items')
    (hn : (items.map Prod.fst).Nodup) :
    ((∃ e, load listdir items = .error e) ∧ ∃ e, load listdir items' = .error e) ∨
    ∃ d, load listdir items = .ok d ∧ load listdir items' = .ok d := by
  have hn' : (items'.map Prod.fst).Nodup := (hp.map _).nodup_iff.1 hn
  by_cases hc : Castable items
  · have hc' : Castable items' := fun x hx => hc x (hp.mem_iff.2 hx)
    obtain ⟨d, e, hd⟩ := readItems_meaning (fun _ => none) hc
    obtain ⟨d', e', hd'⟩ := readItems_meaning (fun _ => none) hc'
    have hw : ∀ k, written items k = written items' k := by
      intro k
      ext t
      rw [written_iff_mem hn, written_iff_mem hn', hp.mem_iff]
    have : d = d' := by
      funext k
      rw [hd, hd', hw]
    subst this
    have hl : load listdir items = load listdir items' := by
      unfold load
      rw [e, e']
    cases hr : load listdir items with
    | error err => exact .inl ⟨⟨err, rfl⟩, err, by rw [← hl, hr]⟩
    | ok r => exact .inr ⟨r, rfl, by rw [← hl, hr]⟩
  · have hc' : ¬ Castable items' := fun h => hc fun x hx => h x (hp.mem_iff.1 hx)
    obtain ⟨e, he⟩ := readItems_fails (fun _ => none) hc
    obtain ⟨e', he'⟩ := readItems_fails (fun _ => none) hc'
    exact .inl ⟨⟨e, by unfold load; rw [he]⟩, e', by unfold load; rw [he']⟩

example : smallItems.Perm smallItems.reverse ∧ (smallItems.map Prod.fst).Nodup ∧ ∃ d, load emptyDir smallItems = .ok d :=
  ⟨smallItems.reverse_perm.symm, by decide +kernel, smallItems_ok⟩

/-- The dictionaries agree on the options of the table. -/
def SameKnown (d d' : Dict) : Prop := ∀ k, (kindOf k).isSome → d k = d' k

/-- The same exception, or dictionaries that agree on the options of the table. -/
def SameLoad : Except PyErr Dict → Except PyErr Dict → Prop
  | .ok d, .ok d' => SameKnown d d'
  | .error e, .error e' => e = e'
  | _, _ => False

theorem SameKnown.set {d d' : Dict} (h : SameKnown d d') (k : Str) (v : Value) : SameKnown (d.set k v) (d'.set k v) := by
  intro k' hk'
  rw [Dict.set, Dict.set]
  split
  · rfl
  · exact h k' hk'

theorem SameKnown.fill {d d' : Dict} (h : SameKnown d d') : SameKnown (fillMissing d) (fillMissing d') := by
  intro k hk
  rw [fillMissing, fillMissing, h k hk]

theorem SameKnown.finish {d d' : Dict} (h : SameKnown d d') : SameLoad (Config.finish d) (Config.finish d') := by
  rw [Config.finish, Config.finish, h "hashtable_file_operation".toList (by decide), h "gen_hashtable_only".toList (by decide)]
  split
  · split
    · split
      · split
        · exact h.set _ _
        · exact h
      · exact h
    · rfl
  · rfl

theorem readItems_known : ∀ (items : List (Str × Str)) {d d' : Dict}, SameKnown d d' →
    SameLoad (readItems d items) (readItems d' (items.filter fun x => (kindOf x.1).isSome))
  | [], _, _, h => h
  | (key, text) :: items, d, d', h => by
    cases hk : kindOf key with
    | none =>
      rw [List.filter_cons_of_neg (by simp [hk]), readItems, hk]
      refine readItems_known items fun k hk' => ?_
      have : k ≠ key := by rintro rfl; rw [hk] at hk'; cases hk'
      rw [Dict.set, if_neg this]
      exact h k hk'
    | some kind =>
      rw [List.filter_cons_of_pos (by simp [hk]), readItems, readItems, hk]
      simp only
      cases cast kind text with
      | error e => rfl
      | ok v => exact readItems_known items (h.set key v)

/-- Options that are not in the table change nothing for those in it: without them the load ends with the
same exception, or with the same values of all options of the table. -/
theorem load_unknown (listdir : Str → Except PyErr (List Str)) (items : List (Str × Str)) :
    SameLoad (load listdir items) (load listdir (items.filter fun x => (kindOf x.1).isSome)) := by
  have h := readItems_known items (d := fun _ => none) (d' := fun _ => none) fun _ _ => rfl
  unfold load
  revert h
  cases readItems (fun _ => none) items with
  | error e =>
    cases readItems (fun _ => none) (items.filter fun x => (kindOf x.1).isSome) with
    | error e' => exact fun h => h
    | ok d' => exact fun h => h.elim
  | ok d =>
    cases readItems (fun _ => none) (items.filter fun x => (kindOf x.1).isSome) with
    | error e' => exact fun h => h.elim
    | ok d' =>
      intro h
      have h : SameKnown d d' := h
      have hf := h.fill
      simp only
      rw [hf "hashtable_file_operation".toList (by decide), hf "hashtable_file".toList (by decide)]
      cases genFilename listdir (dataOf (fillMissing d' "hashtable_file_operation".toList)) (dataOf (fillMissing d' "hashtable_file".toList)) with
      | error e => rfl
      | ok f =>
        have hs := hf.set "hashtable_file".toList (.data f)
        simp only
        rw [hs "postproc_funcs_filter".toList (by decide)]
        cases genFilter (dataOf ((fillMissing d').set "hashtable_file".toList (.data f) "postproc_funcs_filter".toList)) with
        | error e => rfl
        | ok is => exact (hs.set _ _).finish

/-! ### Files -/

/-- No text has a percent sign. -/
def NoPercent (secs : List (List (Str × Str))) : Prop := ∀ sec ∈ secs, ∀ x ∈ sec, '%' ∉ x.2

theorem piecesAux_plain : ∀ {n : ℕ} {s : Str}, '%' ∉ s → s.length ≤ n → piecesAux n s = s.map Piece.lit
  | 0, [], _, _ => rfl
  | 0, _ :: _, _, h => by simp at h
  | _ + 1, [], _, _ => rfl
  | n + 1, c :: r, hs, h => by
    have hc : c ≠ '%' := fun e => hs (e ▸ List.mem_cons_self)
    rw [piecesAux]
    · rw [if_neg hc, piecesAux_plain (fun hm => hs (List.mem_cons_of_mem _ hm)) (by simpa using h)]; rfl
    · intro r' e; cases e; exact absurd rfl hc
    · intro r' e; cases e; exact absurd rfl hc

theorem joinPieces_lit (text : Str → Except PyErr Str) : ∀ s : Str, joinPieces text (s.map Piece.lit) = .ok s
  | [] => rfl
  | c :: s => by rw [List.map_cons, joinPieces, joinPieces_lit text s]; rfl

theorem interpolate_plain (sec : List (Str × Str)) (n : ℕ) {s : Str} (h : '%' ∉ s) : interpolate sec (n + 1) s = .ok s := by
  rw [interpolate, pieces, piecesAux_plain h le_rfl, joinPieces_lit]

theorem readItems_append : ∀ (xs ys : List (Str × Str)) (d : Dict), readItems d (xs ++ ys) =
    match readItems d xs with
    | .error e => .error e
    | .ok d => readItems d ys
  | [], _, _ => rfl
  | (key, text) :: xs, ys, d => by
    rw [List.cons_append, readItems, readItems]
    cases kindOf key with
    | none => exact readItems_append xs ys _
    | some k =>
      simp only
      cases cast k text with
      | error e => rfl
      | ok v => exact readItems_append xs ys _

theorem readSection_plain (sec : List (Str × Str)) : ∀ (items : List (Str × Str)) (d : Dict), (∀ x ∈ items, '%' ∉ x.2) →
    readSection sec d items = readItems d items
  | [], _, _ => rfl
  | (key, text) :: items, d, h => by
    rw [readSection, maxDepth, interpolate_plain sec 9 (h _ List.mem_cons_self),
      show (key, text) :: items = [(key, text)] ++ items from rfl, readItems_append]
    simp only
    cases readItems d [(key, text)] with
    | error e => rfl
    | ok d => exact readSection_plain sec items d fun x hx => h x (List.mem_cons_of_mem _ hx)

theorem readSections_plain : ∀ (secs : List (List (Str × Str))) (d : Dict), NoPercent secs → readSections d secs = readItems d secs.flatten
  | [], _, _ => rfl
  | sec :: secs, d, h => by
    rw [readSections, readSection_plain sec sec d (h _ List.mem_cons_self), List.flatten_cons, readItems_append]
    cases readItems d sec with
    | error e => rfl
    | ok d => exact readSections_plain secs d fun s hs => h s (List.mem_cons_of_mem _ hs)

theorem loadFile_plain (listdir : Str → Except PyErr (List Str)) {secs : List (List (Str × Str))} (h : NoPercent secs) :
    loadFile listdir secs = load listdir secs.flatten := by
  rw [loadFile, load, readSections_plain secs _ h]
  rfl

/-- **C104 (order, partial).** For files without percent signs in which no option is given twice: a file with the same options in
another order, or distributed otherwise over sections, gives the same configuration, or fails as well.
Missing with respect to C104: files with percent signs (`C104_section_violated`). -/
theorem C104_order_partial (listdir : Str → Except PyErr (List Str)) {secs secs' : List (List (Str × Str))}
    (hp : secs.flatten.Perm secs'.flatten) (hn : (secs.flatten.map Prod.fst).Nodup) (h : NoPercent secs) :
    ((∃ e, loadFile listdir secs = .error e) ∧ ∃ e, loadFile listdir secs' = .error e) ∨
    ∃ d, loadFile listdir secs = .ok d ∧ loadFile listdir secs' = .ok d := by
  have h' : NoPercent secs' := by
    intro sec hsec x hx
    obtain ⟨s, hs, hxs⟩ := List.mem_flatten.1 (hp.mem_iff.2 (List.mem_flatten.2 ⟨sec, hsec, hx⟩))
    exact h s hs x hxs
  rw [loadFile_plain listdir h, loadFile_plain listdir h']
  exact load_order listdir hp hn

-- the same options, in one section and in reverse order over two
example : [smallItems].flatten.Perm [(smallItems.drop 1).reverse, smallItems.take 1].flatten ∧
    ([smallItems].flatten.map Prod.fst).Nodup ∧ NoPercent [smallItems] ∧ ∃ d, loadFile emptyDir [smallItems] = .ok d := by
  have h : NoPercent [smallItems] := by unfold NoPercent; decide +kernel
  refine ⟨by decide +kernel, by decide +kernel, h, ?_⟩
  rw [loadFile_plain emptyDir h]
  simpa using smallItems_ok

/-- **C104 (unknown options, partial).** For files without percent signs: without the options that are not in the table, the load ends
with the same exception, or with the same values of all options of the table.
Missing with respect to C104: files with percent signs (`C104_percent_violated`). -/
theorem C104_unknown_partial (listdir : Str → Except PyErr (List Str)) {secs : List (List (Str × Str))} (h : NoPercent secs) :
    SameLoad (loadFile listdir secs) (loadFile listdir (secs.map fun sec => sec.filter fun x => (kindOf x.1).isSome)) := by
  have h' : NoPercent (secs.map fun sec => sec.filter fun x => (kindOf x.1).isSome) := by
    intro sec hsec x hx
    obtain ⟨s, hs, rfl⟩ := List.mem_map.1 hsec
    exact h s hs x (List.mem_filter.1 hx).1
  rw [loadFile_plain listdir h, loadFile_plain listdir h', ← List.filter_flatten]
  exact load_unknown listdir _

/-- An unknown option. -/
def colorItem : Str × Str := ("color".toList, "12".toList)

-- it is stored, and the rest is as without it
example : NoPercent [colorItem :: smallItems] ∧
    (loadFile emptyDir [colorItem :: smallItems]).toOption.bind (fun d => (d "color".toList).map Value.str) = some "12".toList ∧
    (colorItem :: smallItems).filter (fun x => (kindOf x.1).isSome) = smallItems := by
  refine ⟨by unfold NoPercent; decide +kernel, by decide +kernel, by decide +kernel⟩

/-- An unknown option with a percent sign. -/
def percentItem : Str × Str := ("note".toList, "50% done".toList)

theorem ok_of_isSome {x : Except PyErr Dict} (h : x.toOption.isSome = true) : ∃ d, x = .ok d := by
  cases x with
  | ok d => exact ⟨d, rfl⟩
  | error e => cases h

/-- The exception of a load. -/
def loadError : Except PyErr Dict → Option PyErr
  | .ok _ => none
  | .error e => some e

theorem of_loadError {x : Except PyErr Dict} {e : PyErr} (h : loadError x = some e) : x = .error e := by
  cases x with
  | ok d => cases h
  | error e' => cases h; rfl

/-- **C104 (violated, unknown options).** An option that nothing reads, `note = 50% done`, makes the load of an accepted file fail. -/
theorem C104_percent_violated : kindOf percentItem.1 = none ∧ (∃ d, loadFile emptyDir [smallItems] = .ok d) ∧
    loadFile emptyDir [percentItem :: smallItems] = .error .interpolation :=
  ⟨by decide +kernel, ok_of_isSome (by decide +kernel), of_loadError (by decide +kernel)⟩

/-- A file in which the name of the hashtable refers to another option. -/
def baseItem : Str × Str := ("base".toList, "h".toList)
/-- See `baseItem`. -/
def refItem : Str × Str := ("hashtable_file".toList, "%(base)s".toList)
/-- See `baseItem`. -/
def restItems : List (Str × Str) := smallItems.filter fun x => x.1 ≠ "hashtable_file".toList

/-- **C104 (violated, sections).** With a reference to another option the file loads, with the referenced text; with the options
distributed over two sections it fails. -/
theorem C104_section_violated : [baseItem :: refItem :: restItems].flatten.Perm [[baseItem], refItem :: restItems].flatten ∧
    (∃ d, loadFile emptyDir [baseItem :: refItem :: restItems] = .ok d) ∧
    (loadFile emptyDir [baseItem :: refItem :: restItems]).toOption.bind (fun d => (d "hashtable_file".toList).map Value.str) =
      some "./h_v1.pkl".toList ∧
    loadFile emptyDir [[baseItem], refItem :: restItems] = .error .interpolation :=
  ⟨by decide +kernel, ok_of_isSome (by decide +kernel), by decide +kernel, of_loadError (by decide +kernel)⟩

/-! ### Saving -/

theorem dropPairs_plain : ∀ {s : Str}, '%' ∉ s → dropPairs s = s
  | [], _ => rfl
  | c :: r, h => by
    have hc : c ≠ '%' := fun e => h (e ▸ List.mem_cons_self)
    rw [dropPairs, dropPairs_plain fun hm => h (List.mem_cons_of_mem _ hm)]
    intro r' e; cases e; exact absurd rfl hc

theorem dropRefs_plain : ∀ {n : ℕ} {s : Str}, '%' ∉ s → s.length ≤ n → dropRefs n s = s
  | 0, [], _, _ => rfl
  | 0, _ :: _, _, h => by simp at h
  | _ + 1, [], _, _ => rfl
  | n + 1, c :: r, hs, h => by
    have hc : c ≠ '%' := fun e => hs (e ▸ List.mem_cons_self)
    rw [dropRefs, dropRefs_plain (fun hm => hs (List.mem_cons_of_mem _ hm)) (by simpa using h)]
    intro r' e; cases e; exact absurd rfl hc

theorem beforeSet_plain {s : Str} (h : '%' ∉ s) : beforeSet s = true := by
  rw [beforeSet, dropPairs_plain h, dropRefs_plain h le_rfl]
  simpa using h

/-- **C72 (files, partial).** `C72_reload_partial` for the files themselves, if no saved text has a percent sign.
Missing: see there, and `C72_percent_violated`. -/
theorem C72_file_partial {listdir : Str → Except PyErr (List Str)} {secs : List (List (Str × Str))} {d : Dict} (hs : NoPercent secs)
    (h : loadFile listdir secs = .ok d) (hl : d "lhs_type".toList = some (.data .null))
    (hj : ∀ k ∈ listOptions, ∀ v, d k = some v → v = .data .null ∨ ∃ j, v = .data j ∧ IntLists j)
    {q op : Str} (hq : d "hashtable_file".toList = some (.data (.str q))) (hq' : cast .path q = .ok (.data (.str q)))
    (hop : d "hashtable_file_operation".toList = some (.data (.str op)))
    (hgen : genFilename listdir (.str op) (.str q) = .ok (.str q))
    (hp : ∀ saved, save d = .ok saved → NoPercent [saved]) :
    ∃ saved d', saveFile d = .ok saved ∧ loadFile listdir [saved] = .ok d' ∧ ∀ k, (kindOf k).isSome → d' k = d k := by
  rw [loadFile_plain listdir hs] at h
  obtain ⟨saved, d', h1, h2, h3⟩ := C72_reload_partial h hl hj hq hq' hop hgen
  have hn := hp saved h1
  refine ⟨saved, d', ?_, ?_, h3⟩
  · rw [saveFile, h1]
    simp only
    rw [if_pos]
    exact List.all_eq_true.2 fun x hx => beforeSet_plain (hn saved List.mem_cons_self x hx)
  · rw [loadFile_plain listdir hn]
    simpa using h2

/-- The saved texts have no percent sign. -/
def savedPlain (x : Except PyErr Dict) : Bool :=
  match x with
  | .error _ => false
  | .ok d =>
    match save d with
    | .error _ => false
    | .ok saved => saved.all fun x => '%' ∉ x.2

-- the additional hypotheses hold for `useItems`, which meets those of `C72_reload_partial`
example : NoPercent [useItems] ∧ ∃ d, load twoVersions useItems = .ok d ∧ ∀ saved, save d = .ok saved → NoPercent [saved] := by
  refine ⟨by unfold NoPercent; decide +kernel, ?_⟩
  have h : savedPlain (load twoVersions useItems) = true := by decide +kernel
  cases e : load twoVersions useItems with
  | error e' => rw [e] at h; cases h
  | ok d =>
    refine ⟨d, rfl, fun saved hs sec hsec x hx => ?_⟩
    rw [List.mem_singleton.1 hsec] at hx
    rw [e, savedPlain] at h
    simp only [hs] at h
    simpa using List.all_eq_true.1 h x hx

/-- A file with a hashtable whose name has a percent sign, written as configparser requires. -/
def percentFile : List (Str × Str) := ("hashtable_file".toList, "50%%".toList) :: restItems

/-- **C72 (violated, percent signs).** The configuration is accepted and the hashtable is `50%_v1.pkl`, but saving it raises
ValueError (at the end of the run, main.py:179). -/
theorem C72_percent_violated : ∃ d, loadFile emptyDir [percentFile] = .ok d ∧
    (d "hashtable_file".toList).map Value.str = some "./50%_v1.pkl".toList ∧ saveFile d = .error .valueError := by
  have h : ((loadFile emptyDir [percentFile]).toOption.map fun d =>
      ((d "hashtable_file".toList).map Value.str = some "./50%_v1.pkl".toList ∧
        (match saveFile d with | .error e => some e | .ok _ => none) = some .valueError : Bool)) = some true := by decide +kernel
  cases e : loadFile emptyDir [percentFile] with
  | error e' => rw [e] at h; cases h
  | ok d =>
    rw [e] at h
    have h := of_decide_eq_true (Option.some.inj h)
    refine ⟨d, rfl, h.1, ?_⟩
    have h2 := h.2
    cases e2 : saveFile d with
    | ok r => rw [e2] at h2; cases h2
    | error e' => rw [e2] at h2; cases h2; rfl

end PiCF.Config
