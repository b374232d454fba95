import Verif.Model.Workflow
import Verif.Props.Concurrent
import Verif.Props.Expand

/-!
# C134: a distributed search makes the table of the single search
-/

namespace PiCF.Workflow
open PiCF.Hashtable PiCF.EnumPoly PiCF.Mitm PiCF.Config PiCF.Concurrent PiCF.DistributeMain PiCF.Spec PiCF.Output PiCF.Path
open PiCF.Distribute PiCF.Json

theorem opts_ok {d : Config.Dict} {o : Opts} (h : optsOf d = .ok o) :
    d "ab_polys_type".toList = some (.poly o.cls) ∧ specialOf (dataOf (d "ab_polys_special_params".toList)) = some o.special ∧
    dataOf (d "hashtable_precision".toList) = .int o.prec ∧ natOf (dataOf (d "hashtable_num_of_iterations".toList)) = some o.iters ∧
    natsOf (dataOf (d "postproc_funcs_filter".toList)) = some o.filter ∧ rangesOf (dataOf (d "a_coeffs_range".toList)) = some o.ra ∧
    rangesOf (dataOf (d "b_coeffs_range".toList)) = some o.rb := by
  rw [optsOf] at h
  split at h
  · rename_i h1 h2 h3 h4 h5 h6 h7
    simp only [Except.ok.injEq] at h
    subst h
    exact ⟨h1, h2, h3, h4, h5, h6, h7⟩
  · cases h

theorem opts_of {d : Config.Dict} {o : Opts} (h1 : d "ab_polys_type".toList = some (.poly o.cls))
    (h2 : specialOf (dataOf (d "ab_polys_special_params".toList)) = some o.special)
    (h3 : dataOf (d "hashtable_precision".toList) = .int o.prec)
    (h4 : natOf (dataOf (d "hashtable_num_of_iterations".toList)) = some o.iters)
    (h5 : natsOf (dataOf (d "postproc_funcs_filter".toList)) = some o.filter)
    (h6 : rangesOf (dataOf (d "a_coeffs_range".toList)) = some o.ra) (h7 : rangesOf (dataOf (d "b_coeffs_range".toList)) = some o.rb) :
    optsOf d = .ok o := by
  rw [optsOf, h1, h2, h3, h4, h5, h6, h7]

/-- The options of a part are those of the whole search, with its own ranges. -/
theorem opts_part {d d' : Config.Dict} {o : Opts} {p : Ranges × Ranges} (h : optsOf d = .ok o)
    (ha : d' "a_coeffs_range".toList = some (.data (rangesVal p.1))) (hb : d' "b_coeffs_range".toList = some (.data (rangesVal p.2)))
    (hsame : ∀ key, (kindOf key).isSome → key ∉ ["a_coeffs_range".toList, "b_coeffs_range".toList, "hashtable_file".toList] → d' key = d key) :
    optsOf d' = .ok { o with ra := p.1, rb := p.2 } := by
  obtain ⟨h1, h2, h3, h4, h5, -, -⟩ := opts_ok h
  refine opts_of ?_ ?_ ?_ ?_ ?_ ?_ ?_
  · rw [hsame _ (by decide) (by decide)]; exact h1
  · rw [hsame _ (by decide) (by decide)]; exact h2
  · rw [hsame _ (by decide) (by decide)]; exact h3
  · rw [hsame _ (by decide) (by decide)]; exact h4
  · rw [hsame _ (by decide) (by decide)]; exact h5
  · rw [ha]; exact rangesOf_val _
  · rw [hb]; exact rangesOf_val _

theorem makes_generate {T F : Type} {J : Job T F} {fs : FS F} {d : Config.Dict} {q op : Str} {t : T} (h : Makes J fs d q op t)
    (hop : op = "generate".toList) : ∃ t₀, J.create d = .ok t₀ ∧ J.build d t₀ = .ok t := by
  cases h with
  | generate h1 h2 => exact ⟨_, h1, h2⟩
  | expand => exact absurd hop (by decide)
  | use => exact absurd hop (by decide)

/-- The functions and the evaluation that a search with the options `o` uses. -/
def envOf (w : Surroundings) (o : Opts) : Env := ⟨w.funcs, o.filter, true, polysValue o.iters, w.order⟩

/-- The enumeration of a search with the options `o`. -/
def configOf (o : Opts) : EnumPoly.Config := ⟨o.iters, true, true, false, true⟩

/-- An object with the options `o` and the table `t`. -/
def objectOf (o : Opts) (t : Table (Val Entry)) : Object := ⟨⟨o.cls, o.special, t, o.prec, o.filter, true⟩, o.iters, true⟩

/-- What a run that generates makes. -/
theorem makes_run {w : Surroundings} (ho : Spec.IsSetOrder w.order) {check search} {fs : FS Content} {d : Config.Dict} {q : Str} {x : Object} {o : Opts}
    (hd : optsOf d = .ok o) (h : Makes (tableJob w check search) fs d q "generate".toList x) :
    Run (envOf w o) (manipOf w.maskOrder o.cls o.special) (configOf o) o.prec (o.ra, o.rb) x.set.table ∧ x = objectOf o x.set.table ∧
      makeEnumer o.cls o.special = .ok (o.cls, o.special) := by
  obtain ⟨t₀, h1, h2⟩ := makes_generate h rfl
  have h1' : newObject o = .ok t₀ := by rw [← h1]; show _ = optsOf d >>= newObject; rw [hd]; rfl
  have h2' : buildObject w o t₀ = .ok x := by rw [← h2]; show _ = optsOf d >>= fun o => buildObject w o t₀; rw [hd]; rfl
  have hx := newObject_ok h1'
  have hm : makeEnumer o.cls o.special = .ok (o.cls, o.special) := by
    rw [makeEnumer]
    split_ifs with hc
    · rw [newObject, makeEnumer, if_pos hc] at h1'
      cases h1'
    · rfl
  rw [buildObject] at h2'
  split at h2'
  · cases h2'
  · rename_i y hy
    injection h2' with h2'
    subst h2'
    subst hx
    rw [Object.build] at hy
    obtain ⟨e1, e2⟩ := Prod.mk.inj hy
    subst e1
    refine ⟨⟨w.order, true, _, .item w.params, ho, Prod.ext rfl e2, rfl⟩, rfl, hm⟩

/-- If the build of a part ends normally, the part makes a table. -/
theorem makes_of {w : Surroundings} {check search} {fs : FS Content} {d : Config.Dict} {q : Str} {o : Opts}
    (hd : optsOf d = .ok o) (hm : makeEnumer o.cls o.special = .ok (o.cls, o.special))
    (hb : (buildHashtable (envOf w o) (manipOf w.maskOrder o.cls o.special) (configOf o) true o.ra o.rb (Table.init o.prec)).2 = .ok ()) :
    ∃ x, Makes (tableJob w check search) fs d q "generate".toList x := by
  have h1 : newObject o = .ok (objectOf o (Table.init o.prec)) := by rw [newObject, hm]; rfl
  refine ⟨Object.mark w ((objectOf o (Table.init o.prec)).build w o).1, .generate (t₀ := objectOf o (Table.init o.prec)) ?_ ?_⟩
  · show optsOf d >>= newObject = _
    rw [hd]; exact h1
  · show (optsOf d >>= fun o' => buildObject w o' (objectOf o (Table.init o.prec))) = _
    rw [hd]
    show buildObject w o _ = _
    rw [buildObject]
    rcases hy : (objectOf o (Table.init o.prec)).build w o with ⟨y, e | ⟨⟩⟩
    · have : ((objectOf o (Table.init o.prec)).build w o).2 = .ok () := hb
      rw [hy] at this
      cases this
    · rfl

theorem joinObjects_ok {o : Opts} {ts : List (Table (Val Entry))} {j : Table (Val Entry)} (h : joinTables ts = .ok j) :
    joinObjects (ts.map (objectOf o)) = .ok (objectOf o j) := by
  cases ts with
  | nil => cases h
  | cons t ts =>
    rw [List.map_cons, joinObjects]
    have : ((objectOf o t :: ts.map (objectOf o)).map fun y => y.set.table) = t :: ts := by
      rw [List.map_cons, List.map_map]
      exact congrArg (t :: ·) (List.map_id ts)
    rw [this, h]
    rfl

/-- C78 for the class of the options. -/
theorem class_distributed {so : List (List (List ℕ)) → List (List (List ℕ))} {cls : PolyClass} {special : Option (ℕ × ℕ)} {env : Env}
    {cfg : EnumPoly.Config} {n : ℤ} {k : ℕ} {a b : Ranges} {parts : List (Ranges × Ranges)} {t : Table (Val Entry)}
    (hm : makeEnumer cls special = .ok (cls, special))
    (hu : cls = .sparse → EnumPoly.IsSetOrder so ∧ (∃ kA, Uniform kA a) ∧ ∃ kB, Uniform kB b)
    (h : splitParams k (a, b) = .ok parts) (hrun : Run env (manipOf so cls special) cfg n (a, b) t) :
    (∀ p ∈ parts, ∀ order, Spec.IsSetOrder order → ∀ validate,
      (buildHashtable { env with order := order } (manipOf so cls special) cfg validate p.1 p.2 (Table.init n)).2 = .ok ()) ∧
    ∀ ts ts', List.Forall₂ (Run env (manipOf so cls special) cfg n) parts ts → ts'.Perm ts →
      ∃ j, joinTables ts' = .ok j ∧ (∀ q e, e ∈ entries j (.num q) ↔ e ∈ entries t (.num q)) ∧
        (cls ≠ .sparse ∨ NoZero a ∧ NoZero b → ∀ q, (entries j (.num q)).Perm (entries t (.num q))) := by
  have hrun' : ∀ order, Run { env with order := order } (manipOf so cls special) cfg n (a, b) t := fun _ => hrun
  cases cls with
  | basic =>
    refine ⟨fun p hp order ho validate => parts_run (env := { env with order := order }) ho h (tame_basic _ _) (fun p _ => tame_basic _ _)
      (hrun' order) hp validate, fun ts ts' hr hp => ?_⟩
    obtain ⟨j, h1, h2, h3⟩ := distributed h (tame_basic _ _) (fun p _ => tame_basic _ _) hrun hr hp
    exact ⟨j, h1, h2, fun _ => h3 (separates_basic _) (separates_basic _)⟩
  | indexed =>
    refine ⟨fun p hp order ho validate => parts_run (env := { env with order := order }) ho h (tame_indexed _ _) (fun p _ => tame_indexed _ _)
      (hrun' order) hp validate, fun ts ts' hr hp => ?_⟩
    obtain ⟨j, h1, h2, h3⟩ := distributed h (tame_indexed _ _) (fun p _ => tame_indexed _ _) hrun hr hp
    exact ⟨j, h1, h2, fun _ => h3 (separates_indexed _) (separates_indexed _)⟩
  | sparse =>
    cases special with
    | none => rw [makeEnumer, if_pos ⟨rfl, rfl⟩] at hm; cases hm
    | some nn =>
      obtain ⟨nA, nB⟩ := nn
      obtain ⟨hso, ⟨kA, ha⟩, kB, hb⟩ := hu rfl
      have ht := tame_sparse hso nA nB kA kB _ _ ha hb
      have htp : ∀ p ∈ parts, _ := fun p hp => tame_sparse hso nA nB kA kB p.1 p.2
        (ha.of_shape (split_shape k _ _ h p hp).1) (hb.of_shape (split_shape k _ _ h p hp).2)
      refine ⟨fun p hp order ho validate => parts_run (env := { env with order := order }) ho h ht htp (hrun' order) hp validate,
        fun ts ts' hr hp => ?_⟩
      obtain ⟨j, h1, h2, h3⟩ := distributed h ht htp hrun hr hp
      exact ⟨j, h1, h2, fun hz => by
        rcases hz with hz | ⟨za, zb⟩
        · exact absurd rfl hz
        · exact h3 (separates_sparse hso nA kA _ ha za) (separates_sparse hso nB kB _ hb zb)⟩

/-- The object in a stored file, if there is one. -/
def objectIn (fs : FS Content) (y : Object) (p : Str) : Object :=
  match fs.files p with
  | some (.whole s) => s.load
  | _ => y

theorem objectIn_dump {fs : FS Content} {y x : Object} {p : Str} (h : fs.files p = some (dumpObject x)) (hwf : WF x.set.table) :
    objectIn fs y p = x := by
  rw [objectIn, h, dumpObject]
  exact load_pickled hwf

open Classical in
/-- Joining a directory in which the .pkl files are those at the paths `q`, which hold the objects `x`. -/
theorem join_stored {ι : Type} (is : List ι) {fs : FS Content} {q : ι → Str} {x : ι → Object} (y₀ : Object)
    (hx : ∀ i ∈ is, fs.files (q i) = some (dumpObject (x i))) (hwf : ∀ i ∈ is, WF (x i).set.table) {dir : Str} {names : List Str} (hn : ∀ f ∈ names, '/' ∉ f) {output : Str}
    (hd : ((names.filter fun f => decide (HasExt "pkl".toList f)).map (Path.join dir)).Perm (is.map q))
    (hout : (split output).1 = [] ∨ fs.dirs (split output).1 = true)
    {P : Object → Prop} (hj : ∀ l : List Object, l.Perm (is.map x) → ∃ y, joinObjects l = .ok y ∧ P y) :
    ∃ y fs', P y ∧ joinMain loadObject dumpObject joinObjects dir names output fs = (fs', .ok ()) ∧ fs'.files output = some (dumpObject y) ∧
      ∀ p, p ≠ output → fs'.files p = fs.files p := by
  have hfil : names.filter (fun f => decide ((splitext f).2 = ".pkl".toList)) = names.filter fun f => decide (HasExt "pkl".toList f) :=
    List.filter_congr fun f hf => by
      rw [decide_eq_decide]
      exact splitext_ext (hn f hf) (by decide)
  have hload := loadAll_ok (load := loadObject) (fs := fs) id (objectIn fs y₀)
    (names := (names.filter fun f => decide (HasExt "pkl".toList f)).map (Path.join dir)) fun p hp => by
      obtain ⟨i, hi, rfl⟩ := List.mem_map.1 (hd.mem_iff.1 hp)
      exact ⟨_, hx i hi, by rw [objectIn_dump (hx i hi) (hwf i hi), dumpObject, loadObject, load_pickled (hwf i hi)]⟩
  rw [List.map_id] at hload
  have hperm := hd.map (objectIn fs y₀)
  rw [show (is.map q).map (objectIn fs y₀) = is.map x by
    rw [List.map_map]
    exact List.map_congr_left fun i hi => objectIn_dump (hx i hi) (hwf i hi)] at hperm
  obtain ⟨y, hy, hP⟩ := hj _ hperm
  have hw : ∃ fs', write output (dumpObject y) fs = (fs', .ok ()) := by
    rw [write, if_neg]
    · exact ⟨_, rfl⟩
    · rcases hout with h | h <;> simp [h]
  obtain ⟨fs', hw⟩ := hw
  refine ⟨y, fs', hP, ?_, (write_files _ _ hw).1, (write_files _ _ hw).2⟩
  rw [joinMain, hfil, hload]
  simp only
  rw [hy]
  exact hw

open Classical in
/-- **C134 (partial).** For the configurations of C133 that generate a table, if the single run makes the table of `x`: no build of a part raises.
When all parts have ended normally (in whatever order their steps were done, with sets visited in whatever order), each has stored a file, and
if these are the .pkl files of a directory, joining the directory stores an object with the settings of `x`, whose table has under every
number the entries of the table of `x`; if the class is not the sparse one or no coefficient can be zero, also equally often. -/
theorem C134_workflow_partial {listdir : Str → Except PyErr (List Str)} {items : File} {d : Config.Dict} {name ext tdir table : Str} {k : ℕ}
    {a b : Ranges} {parts : List (Ranges × Ranges)} {fs : FS File} {o : Opts} (h : load listdir items = .ok d)
    (hl : d "lhs_type".toList = some (.data .null))
    (hj : ∀ k ∈ listOptions, ∀ v, d k = some v → v = .data .null ∨ ∃ j, v = .data j ∧ IntLists j)
    (ha : d "a_coeffs_range".toList = some (.data (rangesVal a))) (hb : d "b_coeffs_range".toList = some (.data (rangesVal b)))
    (hparts : splitParams k (a, b) = .ok parts)
    (ht : ConfigPath tdir table "pkl".toList) (hp : PlainPath (configPath tdir table "pkl".toList)) (hdot : '.' ∉ table)
    (hq : d "hashtable_file".toList = some (.data (.str (configPath tdir table "pkl".toList))))
    (hop : d "hashtable_file_operation".toList = some (.data (.str "generate".toList)))
    (hc : ConfigPath [] name ext) (hfs : fs.files (dirOfParts [] name k) = none)
    (ho : optsOf d = .ok o) {w : Surroundings} (hw : Spec.IsSetOrder w.order)
    (hu : o.cls = .sparse → EnumPoly.IsSetOrder w.maskOrder ∧ (∃ kA, Uniform kA a) ∧ ∃ kB, Uniform kB b)
    {check search} {fs₁ : FS Content} {file : Str} {x : Object} (hx : Makes (tableJob w check search) fs₁ d file "generate".toList x) :
    ∃ (fs' : FS File) (saved : Fin parts.length → File), main listdir (2 ^ k) (configPath [] name ext) items fs = (fs', .ok ()) ∧
      (∀ i : Fin parts.length, fs'.files (dirOfParts [] name k ++ '/' :: nameOfPart name ext i) = some (saved i)) ∧
      ∀ (W : Fin parts.length → Surroundings) (checks : Fin parts.length → Config.Dict → Except PyErr Unit)
        (searches : Fin parts.length → Config.Dict → Object → Except PyErr (Results Content)),
        (∀ i, (W i).funcs = w.funcs ∧ (W i).maskOrder = w.maskOrder ∧ Spec.IsSetOrder (W i).order) →
        (∀ i listdir' d' fs₀ file', load listdir' (saved i) = .ok d' →
          ∃ y, Makes (tableJob (W i) (checks i) (searches i)) fs₀ d' file' "generate".toList y) ∧
        ∀ (stamp : Fin parts.length → Str), (∀ i, Stamp (stamp i)) →
        ∀ (ls : FS Content → Str → Except PyErr (List Str)), (∀ fs dir l, ls fs dir = .ok l → ∀ f ∈ l, '/' ∉ f) →
        ∀ (fs₀ : FS Content) (σ : State (Fin parts.length) Content),
          Steps ⟨fs₀, fun i => run (tableJob (W i) (checks i) (searches i)) ls (saved i) (stamp i) (stamp i)⟩ σ →
          (∀ i, σ.runs i = .done (.ok ())) →
          ∃ q : Fin parts.length → Str, (∀ i : Fin parts.length, TablePath (partTable table i) (q i)) ∧
            ∀ (dir : Str) (names : List Str) (output : Str), (∀ f ∈ names, '/' ∉ f) →
              ((names.filter fun f => decide (HasExt "pkl".toList f)).map (Path.join dir)).Perm (List.ofFn q) →
              (split output).1 = [] ∨ σ.fs.dirs (split output).1 = true →
              ∃ y fs'', (y = { x with set := { x.set with table := y.set.table } } ∧
                  (∀ n e, e ∈ entries y.set.table (.num n) ↔ e ∈ entries x.set.table (.num n)) ∧
                  (o.cls ≠ .sparse ∨ NoZero a ∧ NoZero b → ∀ n, (entries y.set.table (.num n)).Perm (entries x.set.table (.num n)))) ∧
                joinMain loadObject dumpObject joinObjects dir names output σ.fs = (fs'', .ok ()) ∧
                fs''.files output = some (dumpObject y) ∧ ∀ p, p ≠ output → fs''.files p = σ.fs.files p := by
  obtain ⟨fs', saved, h1, h2, h3, h4⟩ := C133_parts_partial h hl hj ha hb hparts ht hp hdot hq hop hc hfs
  obtain ⟨-, -, -, -, -, hra, hrb⟩ := opts_ok ho
  rw [ha] at hra
  rw [hb] at hrb
  replace hra : a = o.ra := Option.some.inj ((rangesOf_val a).symm.trans hra)
  replace hrb : b = o.rb := Option.some.inj ((rangesOf_val b).symm.trans hrb)
  obtain ⟨hrun, hxo, hm⟩ := makes_run hw ho hx
  rw [← hra, ← hrb] at hrun
  obtain ⟨hbuild, hjoin⟩ := class_distributed hm hu hparts hrun
  have hopts : ∀ (i : Fin parts.length) listdir' d', load listdir' (saved i) = .ok d' →
      optsOf d' = .ok { o with ra := parts[i].1, rb := parts[i].2 } := by
    intro i listdir' d' hd'
    obtain ⟨g1, g2, g3⟩ := h3 i listdir' d' hd'
    exact opts_part ho g1 g2 g3
  refine ⟨fs', saved, h1, h2, fun W checks searches hW => ⟨fun i listdir' d' fs₀ file' hd' => ?_,
    fun stamp hstamp ls hls fs₀ σ hσ hdone => ?_⟩⟩
  · refine makes_of (hopts i _ _ hd') hm ?_
    have := hbuild parts[i] (List.getElem_mem _) (W i).order (hW i).2.2 true
    show (buildHashtable (envOf (W i) o) (manipOf (W i).maskOrder o.cls o.special) (configOf o) true _ _ _).2 = _
    rw [envOf, (hW i).1, (hW i).2.1]
    exact this
  · have hleft : ∀ i : Fin parts.length, ∃ q y, TablePath (partTable table i) q ∧ σ.fs.files q = some (dumpObject y) ∧
        Run (envOf w o) (manipOf w.maskOrder o.cls o.special) (configOf o) o.prec parts[i] y.set.table ∧ y = objectOf o y.set.table := by
      intro i
      rcases h4 _ _ (fun i => tableJob (W i) (checks i) (searches i)) stamp hstamp ls hls fs₀ σ hσ i _ (hdone i) with ⟨e, he, -⟩ | hi
      · cases he
      · obtain ⟨listdir', d', q, y, g1, -, g3, g4, g5, -⟩ := hi
        obtain ⟨r1, r2, -⟩ := makes_run (hW i).2.2 (hopts i _ _ g1) g4
        refine ⟨q, y, g3, g5 (by decide), ?_, r2⟩
        have e : Run (envOf (W i) o) (manipOf (W i).maskOrder o.cls o.special) (configOf o) o.prec parts[i] y.set.table := r1
        rw [envOf, (hW i).1, (hW i).2.1] at e
        exact e
    choose q ys g1 g2 g3 g4 using hleft
    refine ⟨q, g1, fun dir names output hn hd hout => ?_⟩
    rw [List.ofFn_eq_map] at hd
    refine join_stored (List.finRange _) x (fun i _ => g2 i) (fun i _ => (g3 i).spec.1) hn hd hout fun l hl => ?_
    rw [← List.ofFn_eq_map] at hl
    have hforall : List.Forall₂ (Run (envOf w o) (manipOf w.maskOrder o.cls o.special) (configOf o) o.prec) parts
        (List.ofFn fun i => (ys i).set.table) := by
      rw [List.forall₂_iff_get]
      refine ⟨by simp, fun i hi hi' => ?_⟩
      simpa using g3 ⟨i, hi⟩
    have hl' : (l.map fun y => y.set.table).Perm (List.ofFn fun i => (ys i).set.table) := by
      have := hl.map fun y => y.set.table
      rwa [List.map_ofFn] at this
    obtain ⟨j, j1, j2, j3⟩ := hjoin _ _ hforall hl'
    have hlo : l = (l.map fun y => y.set.table).map (objectOf o) := by
      rw [List.map_map]
      conv_lhs => rw [← List.map_id l]
      refine List.map_congr_left fun y hy => ?_
      obtain ⟨i, rfl⟩ := (List.mem_ofFn' ys y).1 (hl.mem_iff.1 hy)
      exact g4 i
    refine ⟨objectOf o j, by rw [hlo]; exact joinObjects_ok j1, ?_, j2, j3⟩
    rw [hxo]
    rfl

open Classical in
/-- **C134 (violated): a part is missing.** If the table of a part is not there (its window was closed, or it has raised), joining the other
tables ends normally, and the stored table has none of the entries of this part, though the single run has them. -/
theorem C134_missing_violated {env : Env} {cfg : EnumPoly.Config} {o : Opts} {k : ℕ} {a b : Ranges} {parts : List (Ranges × Ranges)}
    (hparts : splitParams k (a, b) = .ok parts) (hk : 0 < k) {x : Object} (hx : Run env manipBasic cfg o.prec (a, b) x.set.table)
    {y : Fin parts.length → Object} (hy : ∀ i, Run env manipBasic cfg o.prec parts[i] (y i).set.table ∧ y i = objectOf o (y i).set.table)
    (i : Fin parts.length) {fs : FS Content} {q : Fin parts.length → Str} (hq : ∀ j, j ≠ i → fs.files (q j) = some (dumpObject (y j)))
    {dir : Str} {names : List Str} (hn : ∀ f ∈ names, '/' ∉ f) {output : Str}
    (hd : ((names.filter fun f => decide (HasExt "pkl".toList f)).map (Path.join dir)).Perm
      (((List.finRange parts.length).filter fun j => decide (j ≠ i)).map q))
    (hout : (split output).1 = [] ∨ fs.dirs (split output).1 = true) :
    ∃ z fs', (∀ n, ∀ e ∈ entries (y i).set.table (.num n), e ∈ entries x.set.table (.num n) ∧ e ∉ entries z.set.table (.num n)) ∧
      joinMain loadObject dumpObject joinObjects dir names output fs = (fs', .ok ()) ∧ fs'.files output = some (dumpObject z) ∧
      ∀ p, p ≠ output → fs'.files p = fs.files p := by
  set is := (List.finRange parts.length).filter fun j => decide (j ≠ i) with his
  have hmem : ∀ j, j ∈ is ↔ j ≠ i := fun j => by simp [his]
  refine join_stored is x (fun j hj => hq j ((hmem j).1 hj)) (fun j _ => (hy j).1.spec.1) hn hd hout fun l hl => ?_
  have hne : is ≠ [] := by
    have hlen := (split_partition k _ parts hparts).2
    have : 2 ≤ parts.length := by
      rw [hlen]
      calc 2 = 2 ^ 1 := rfl
        _ ≤ 2 ^ k := Nat.pow_le_pow_right (by omega) hk
    by_cases h0 : i.1 = 0
    · exact List.ne_nil_of_mem ((hmem ⟨1, by omega⟩).2 fun e => by rw [← e] at h0; simp at h0)
    · exact List.ne_nil_of_mem ((hmem ⟨0, by omega⟩).2 fun e => h0 (by rw [← e]))
  have hforall : List.Forall₂ (Run env manipBasic cfg o.prec) (is.map fun j => parts[j]) (is.map fun j => (y j).set.table) := by
    rw [List.forall₂_map_left_iff, List.forall₂_map_right_iff, List.forall₂_same]
    exact fun j _ => (hy j).1
  have hl' : (l.map fun y => y.set.table).Perm (is.map fun j => (y j).set.table) := by
    have := hl.map fun y => y.set.table
    rwa [List.map_map] at this
  obtain ⟨j, j1, j2⟩ := join_parts (by simpa using hne) hforall hl'
  have hlo : l = (l.map fun y => y.set.table).map (objectOf o) := by
    rw [List.map_map]
    conv_lhs => rw [← List.map_id l]
    refine List.map_congr_left fun z hz => ?_
    obtain ⟨j, -, rfl⟩ := List.mem_map.1 (hl.mem_iff.1 hz)
    exact (hy j).2
  refine ⟨objectOf o j, by rw [hlo]; exact joinObjects_ok j1, fun n e he => ?_⟩
  have he' := ((hy i).1.spec.2.2 n).2 e |>.1 he
  constructor
  · rw [(hx.spec.2.2 n).2]
    exact ⟨(enumerated_cover hparts (tame_basic _ _) (fun p _ => tame_basic _ _) cfg _).2 ⟨parts[i], List.getElem_mem _, he'.1⟩, he'.2⟩
  · intro hz
    rw [show entries (objectOf o j).set.table (.num n) = entries j (.num n) from rfl, (j2 _).mem_iff, List.mem_flatMap] at hz
    obtain ⟨t, ht, hz⟩ := hz
    obtain ⟨m, hm, rfl⟩ := List.mem_map.1 ht
    have hz' := ((hy m).1.spec.2.2 n).2 e |>.1 hz
    have hdis := enumerated_disjoint hparts (fun p _ => tame_basic p.1 p.2) (separates_basic _) (separates_basic _) cfg
    rw [List.pairwise_iff_getElem] at hdis
    have hmi : m ≠ i := (hmem m).1 hm
    rcases lt_trichotomy m.1 i.1 with hlt | heq | hgt
    · exact hdis m i m.2 i.2 hlt e.1 ⟨hz'.1, he'.1⟩
    · exact hmi (Fin.ext heq)
    · exact hdis i m i.2 m.2 hgt e.1 ⟨he'.1, hz'.1⟩

open Classical in
/-- **C134 (violated): an older table is in the directory.** Each run stores its table under a name of its own (`_v1`, `_v2`, C69).  If the directory
also holds the table of an earlier run of the same search, joining it ends normally, and the stored table has every entry of
both. -/
theorem C134_again_violated {o : Opts} {t t' : Table (Val Entry)} (hwf : WF t) (hwf' : WF t') (hacc : t.accuracy = t'.accuracy)
    (hsame : ∀ n, (entries t (.num n)).Perm (entries t' (.num n))) {fs : FS Content} {q q' : Str}
    (hq : fs.files q = some (dumpObject (objectOf o t))) (hq' : fs.files q' = some (dumpObject (objectOf o t')))
    {dir : Str} {names : List Str} (hn : ∀ f ∈ names, '/' ∉ f) {output : Str}
    (hd : ((names.filter fun f => decide (HasExt "pkl".toList f)).map (Path.join dir)).Perm [q, q'])
    (hout : (split output).1 = [] ∨ fs.dirs (split output).1 = true) :
    ∃ z fs', (∀ n e, (entries z.set.table (.num n)).count e = 2 * (entries t (.num n)).count e) ∧
      joinMain loadObject dumpObject joinObjects dir names output fs = (fs', .ok ()) ∧ fs'.files output = some (dumpObject z) ∧
      ∀ p, p ≠ output → fs'.files p = fs.files p := by
  refine join_stored [false, true] (q := fun b => if b then q' else q) (x := fun b => objectOf o (if b then t' else t)) (objectOf o t)
    (fun b _ => by cases b <;> simpa) (fun b _ => by cases b <;> simpa [objectOf]) hn (by simpa using hd) hout fun l hl => ?_
  have hl' : (l.map fun y => y.set.table).Perm [t, t'] := by
    have := hl.map fun y => y.set.table
    simpa [objectOf] using this
  have hin : ∀ u ∈ l.map (fun y => y.set.table), u = t ∨ u = t' := fun u hu => by simpa using hl'.mem_iff.1 hu
  obtain ⟨j, j1, j2⟩ := joinTables_ok (ts := l.map fun y => y.set.table)
    (by
      intro e
      rw [e] at hl'
      simpa using hl'.length_eq)
    (fun u hu => by rcases hin u hu with rfl | rfl <;> assumption)
    (fun u hu v hv => by rcases hin u hu with rfl | rfl <;> rcases hin v hv with rfl | rfl <;> simp [hacc])
  have hlo : l = (l.map fun y => y.set.table).map (objectOf o) := by
    rw [List.map_map]
    conv_lhs => rw [← List.map_id l]
    refine List.map_congr_left fun z hz => ?_
    obtain ⟨b, -, rfl⟩ := List.mem_map.1 (hl.mem_iff.1 hz)
    rfl
  refine ⟨objectOf o j, by rw [hlo]; exact joinObjects_ok j1, fun n e => ?_⟩
  show (entries j (.num n)).count e = _
  rw [((j2 (.num n)).trans (hl'.flatMap_right _)).count_eq]
  simp only [List.flatMap_cons, List.flatMap_nil, List.append_nil, List.count_append, ← (hsame n).count_eq]
  omega

/-! ### Examples -/

/-- A configuration that generates a table: `a = c₀ + c₁ n` with `c₀ ∈ {1, 2}`, `c₁ = 1`, and `b ∈ {1, 2}`. -/
def genItems : File :=
  [("hashtable_file_operation".toList, "generate".toList), ("hashtable_file".toList, "h.pkl".toList),
   ("postproc_funcs_filter".toList, "[\"safe_inverse\"]".toList), ("gen_hashtable_only".toList, "auto".toList),
   ("ab_polys_type".toList, "normal".toList), ("hashtable_precision".toList, "8".toList), ("hashtable_num_of_iterations".toList, "2".toList),
   ("a_coeffs_range".toList, "[[[1, 3], [1, 2]]]".toList), ("b_coeffs_range".toList, "[[[1, 3]]]".toList)]

def genA : Ranges := [[(1, 3), (1, 2)]]
def genB : Ranges := [[(1, 3)]]

/-- Its options. -/
def genOpts : Opts := ⟨.basic, none, 8, 2, [1], genA, genB⟩

/-- Functions that do nothing. -/
def genSurroundings : Surroundings := ⟨List.replicate 4 .ok, id, id, ((default, default), 0), none⟩

theorem genOpts_load {d : Config.Dict} (hd : load emptyDir genItems = .ok d) : optsOf d = .ok genOpts := by
  have h1 : (match load emptyDir genItems with
    | .error _ => false
    | .ok d => (match optsOf d with
      | .error _ => false
      | .ok o => decide (o.cls = .basic) && decide (o.special = none) && decide (o.prec = 8) && decide (o.iters = 2) && decide (o.filter = [1]) &&
          decide (o.ra = genA) && decide (o.rb = genB))) = true := by
    decide +kernel
  rw [hd] at h1
  simp only at h1
  split at h1
  · cases h1
  · rename_i o ho
    rw [ho]
    obtain ⟨cls, special, prec, iters, filter, ra, rb⟩ := o
    simp only [Bool.and_eq_true, decide_eq_true_eq] at h1
    obtain ⟨⟨⟨⟨⟨⟨rfl, rfl⟩, rfl⟩, rfl⟩, rfl⟩, rfl⟩, rfl⟩ := h1
    rfl

/-- The hypotheses of `C134_workflow_partial` hold for `genItems` in the file `run.ini`, split into two parts. -/
example : ∃ d parts x, load emptyDir genItems = .ok d ∧ d "lhs_type".toList = some (.data .null) ∧
    (∀ k ∈ listOptions, ∀ v, d k = some v → v = .data .null ∨ ∃ j, v = .data j ∧ IntLists j) ∧
    d "a_coeffs_range".toList = some (.data (rangesVal genA)) ∧ d "b_coeffs_range".toList = some (.data (rangesVal genB)) ∧
    splitParams 1 (genA, genB) = .ok parts ∧ ConfigPath "./".toList "h_v1".toList "pkl".toList ∧
    PlainPath (configPath "./".toList "h_v1".toList "pkl".toList) ∧ '.' ∉ "h_v1".toList ∧
    d "hashtable_file".toList = some (.data (.str (configPath "./".toList "h_v1".toList "pkl".toList))) ∧
    d "hashtable_file_operation".toList = some (.data (.str "generate".toList)) ∧ ConfigPath [] "run".toList "ini".toList ∧
    emptyFS.files (dirOfParts [] "run".toList 1) = none ∧ optsOf d = .ok genOpts ∧ Spec.IsSetOrder genSurroundings.order ∧
    Makes (tableJob genSurroundings (fun _ => .ok ()) fun _ _ => .error .typeError) ⟨fun _ => false, fun _ => none⟩ d "./h_v1.pkl".toList
      "generate".toList x := by
  obtain ⟨d, hd, hfile⟩ := of_textOf (x := load emptyDir genItems) (k := "hashtable_file".toList) (s := "./h_v1.pkl".toList)
    (by decide +kernel)
  have ha : d "a_coeffs_range".toList = some (.data (rangesVal genA)) :=
    ranges_read hd (t := "[[[1, 3], [1, 2]]]".toList) (by decide) (by decide) (by decide) (by decide) (by decide +kernel) (by decide +kernel)
  have hb : d "b_coeffs_range".toList = some (.data (rangesVal genB)) :=
    ranges_read hd (t := "[[[1, 3]]]".toList) (by decide) (by decide) (by decide) (by decide) (by decide +kernel) (by decide +kernel)
  obtain ⟨x, hx⟩ := makes_of (w := genSurroundings) (check := fun _ => .ok ()) (search := fun _ _ => .error .typeError)
    (fs := ⟨fun _ => false, fun _ => none⟩) (q := "./h_v1.pkl".toList) (genOpts_load hd) rfl (ok_of_toOption (by decide +kernel))
  refine ⟨d, [([[(1, 2), (1, 2)]], genB), ([[(2, 3), (1, 2)]], genB)], x, hd,
    C73_missing_partial hd (by decide +kernel) (by decide +kernel), ?_, ha, hb, rfl,
    ⟨.inr rfl, by decide, by decide, by decide, by decide⟩, ⟨by decide, ?_⟩, by decide, hfile, ?_, configPath_search, rfl, genOpts_load hd,
    fun l _ => List.Perm.refl l, hx⟩
  · intro k hk v hv
    simp only [listOptions, List.mem_cons, List.not_mem_nil, or_false] at hk
    rcases hk with rfl | rfl | rfl | rfl
    · rw [C73_missing_partial hd (by decide +kernel) (by decide +kernel)] at hv
      injection hv with hv
      exact .inl hv.symm
    · rw [ha] at hv
      injection hv with hv
      exact .inr ⟨_, hv.symm, rangesVal_ints _⟩
    · rw [hb] at hv
      injection hv with hv
      exact .inr ⟨_, hv.symm, rangesVal_ints _⟩
    · rw [C73_missing_partial hd (by decide +kernel) (by decide +kernel)] at hv
      injection hv with hv
      exact .inl hv.symm
  · intro c hc
    have : c = '.' := by simpa [configPath] using hc.symm
    subst this
    unfold Space
    decide
  · have := load_string hd (k := "hashtable_file_operation".toList) (t := "generate".toList) (by decide) (by decide +kernel) (by decide)
    rw [this, show stringParser "generate".toList = .str "generate".toList by rfl]

/-- The search ends normally, also in both parts, and stores something. -/
example : (buildHashtable (envOf genSurroundings genOpts) manipBasic (configOf genOpts) true genA genB (Table.init 8)).2.toOption = some () ∧
    splitParams 1 (genA, genB) = .ok [([[(1, 2), (1, 2)]], genB), ([[(2, 3), (1, 2)]], genB)] ∧
    (∃ p ∈ (buildHashtable (envOf genSurroundings genOpts) manipBasic (configOf genOpts) true [[(1, 2), (1, 2)]] genB (Table.init 8)).1.data,
      p.2.toList ≠ []) := by
  refine ⟨by decide +kernel, rfl, by decide +kernel⟩

/-- A directory as in `C134_again_violated`. -/
example : (["h_v1.pkl".toList, "h_v2.pkl".toList, "notes.txt".toList].filter fun f => decide ((splitext f).2 = ".pkl".toList)).map
    (Path.join "t".toList) = ["t/h_v1.pkl".toList, "t/h_v2.pkl".toList] := by decide +kernel

end PiCF.Workflow
