import Verif.Model.Output
import Verif.Lemmas.Path
import Verif.Props.Hashtable

/-!
# C99, C100: what is written to the file system
-/

namespace PiCF.Output
open PiCF.Hashtable PiCF.Path PiCF.Spec

variable {F : Type}

theorem split_join {a b : Str} (ha : a ≠ []) (hl : a.getLast? ≠ some '/') (hb : '/' ∉ b) : split (a ++ '/' :: b) = (a, b) := by
  have hx : ∀ x ∈ b.reverse, decide (x ≠ '/') = true := by
    intro x hx
    simpa using fun e : x = '/' => hb (e ▸ List.mem_reverse.1 hx)
  have hr : rsplitSlash (a ++ '/' :: b) = (a ++ ['/'], b) := by
    have e : (a ++ '/' :: b).reverse = b.reverse ++ '/' :: a.reverse := by simp
    rw [rsplitSlash, e, List.takeWhile_append_of_pos hx, List.dropWhile_append_of_pos hx]
    simp
  obtain ⟨a', c, rfl⟩ : ∃ a' c, a = a' ++ [c] := ⟨a.dropLast, a.getLast ha, (List.dropLast_append_getLast ha).symm⟩
  have hc : c ≠ '/' := by simpa using hl
  rw [split, hr]
  simp only
  rw [if_neg (by simp [hc])]
  simp [hc]

/-! ### C99: the results of a search are stored -/

/-- Files are in existing directories. -/
def Consistent (fs : FS F) : Prop := ∀ p, (fs.files p).isSome → (split p).1 = [] ∨ fs.dirs (split p).1 = true

/-- A time stamp: some characters other than slashes (`%d%m%y_%H%M` gives digits and an underscore). -/
structure Stamp (s : Str) : Prop where
  ne : s ≠ []
  noSlash : '/' ∉ s

theorem base_ne : base ≠ [] := by decide
theorem base_last : base.getLast? ≠ some '/' := by decide

theorem split_dir {s : Str} (h : Stamp s) : split (resultsDir s) = (base, s) := by
  rw [resultsDir]
  exact split_join base_ne base_last h.noSlash

theorem split_file {s n : Str} (h : Stamp s) (hn : '/' ∉ n) : split (resultsFile s n) = (resultsDir s, n) := by
  rw [resultsFile, resultsDir]
  generalize base = b
  refine split_join (by simp) ?_ hn
  obtain ⟨s', c, rfl⟩ : ∃ a' c, s = a' ++ [c] := ⟨s.dropLast, s.getLast h.ne, (List.dropLast_append_getLast h.ne).symm⟩
  have hc : c ≠ '/' := fun e => h.noSlash (by simp [e])
  have : b ++ '/' :: (s' ++ [c]) = (b ++ '/' :: s') ++ [c] := by simp
  rw [this, List.getLast?_concat]
  simpa using hc

theorem file_ne {s n m : Str} (h : n ≠ m) : resultsFile s n ≠ resultsFile s m := by
  rw [resultsFile, resultsFile]
  intro e
  have := List.append_cancel_left e
  simp only [List.cons.injEq, true_and] at this
  exact h this

theorem ensure_ok {fs : FS F} (h : fs.dirs base = true ∨ (fs.files base).isSome = false) :
    ∃ fs', ensureResults fs = (fs', .ok ()) ∧ fs'.files = fs.files ∧ fs'.dirs base = true ∧ (∀ p, p ≠ base → fs'.dirs p = fs.dirs p) := by
  rw [ensureResults]
  by_cases hd : fs.dirs base = true
  · rw [if_pos hd]
    exact ⟨fs, rfl, rfl, hd, fun _ _ => rfl⟩
  · have hf : (fs.files base).isSome = false := h.resolve_left hd
    have hs : (split base).1 = [] := by decide
    rw [if_neg hd, mkdir, if_neg (by simp [hf, hd]), if_neg (by simp [hs])]
    exact ⟨_, rfl, rfl, by simp, fun p hp => by simp [hp]⟩

theorem ensure_files (fs : FS F) : (ensureResults fs).1.files = fs.files := by
  rw [ensureResults]
  split
  · rfl
  · rw [mkdir]
    split
    · rfl
    · split <;> rfl

theorem base_ne_dir {s : Str} : resultsDir s ≠ base := by
  intro e
  have := congrArg List.length e
  rw [resultsDir, List.length_append, List.length_cons] at this
  omega

/-- The files a run writes. -/
def written : List Str := ["results.csv".toList, "results.pdf".toList, "config.ini".toList]

theorem written_noSlash {n : Str} (h : n ∈ written) : '/' ∉ n := by
  have : ∀ n ∈ written, '/' ∉ n := by decide
  exact this n h

/-- The directory of this run has just been made, and nothing but its files differs from `fs₀`. -/
structure Since (fs₀ : FS F) (s : Str) (fs : FS F) : Prop where
  dir : fs.dirs (resultsDir s) = true
  keep : ∀ p, (∀ n ∈ written, p ≠ resultsFile s n) → fs.files p = fs₀.files p

theorem write_since {fs₀ fs : FS F} {s n : Str} {c : F} (hs : Stamp s) (hn : n ∈ written) (h : Since fs₀ s fs) :
    ∃ fs', write (resultsFile s n) c fs = (fs', .ok ()) ∧ Since fs₀ s fs' ∧ fs'.files (resultsFile s n) = some c ∧
      ∀ m, m ≠ n → fs'.files (resultsFile s m) = fs.files (resultsFile s m) := by
  rw [write, split_file hs (written_noSlash hn), if_neg (by simp [h.dir])]
  refine ⟨_, rfl, ⟨h.dir, fun p hp => ?_⟩, by simp, fun m hm => ?_⟩
  · simp only
    rw [if_neg (hp n hn), h.keep p hp]
  · simp only
    rw [if_neg (file_ne hm)]

/-- What follows the creation of the directory. -/
def afterDir (R : Results F) (s : Str) : PyM (FS F) Unit := do
  let csv ← lift R.csv
  write (resultsFile s "results.csv".toList) csv
  lift R.eqns
  let pdf ← lift R.pdf
  write (resultsFile s "results.pdf".toList) pdf
  let config ← lift R.config
  write (resultsFile s "config.ini".toList) config

theorem afterDir_spec (R : Results F) {s : Str} (hs : Stamp s) {fs₀ fs : FS F} (h : Since fs₀ s fs) :
    Since fs₀ s (afterDir R s fs).1 ∧
      (∀ c, R.csv = .ok c → (afterDir R s fs).1.files (resultsFile s "results.csv".toList) = some c) ∧
      (∀ c p g, R.csv = .ok c → R.eqns = .ok () → R.pdf = .ok p → R.config = .ok g → (afterDir R s fs).2 = .ok () ∧
        (afterDir R s fs).1.files (resultsFile s "results.pdf".toList) = some p ∧
        (afterDir R s fs).1.files (resultsFile s "config.ini".toList) = some g) := by
  obtain ⟨csv, eqns, pdf, config⟩ := R
  cases csv with
  | error e =>
    refine ⟨h, fun c hc => ?_, fun c p g hc => ?_⟩ <;> cases hc
  | ok c =>
    obtain ⟨f1, w1, k1, a1, b1⟩ := write_since (c := c) hs (show "results.csv".toList ∈ written by decide) h
    have e1 : ∀ {β : Type} (g : Unit → PyM (FS F) β), (lift (.ok c : Except PyErr F) >>= fun csv =>
        write (resultsFile s "results.csv".toList) csv >>= g) fs = g () f1 := by
      intro β g
      rw [PyM.bind_ok (show (lift (.ok c) : PyM (FS F) F) fs = (fs, .ok c) from rfl), PyM.bind_ok w1]
    rw [afterDir, e1]
    cases eqns with
    | error e =>
      refine ⟨k1, fun c' hc => ?_, fun c p g _ he => ?_⟩
      · cases hc; exact a1
      · cases he
    | ok u =>
      rw [PyM.bind_ok (show (lift (.ok u) : PyM (FS F) Unit) f1 = (f1, .ok u) from rfl)]
      cases pdf with
      | error e =>
        refine ⟨k1, fun c' hc => ?_, fun c p g _ _ he => ?_⟩
        · cases hc; exact a1
        · cases he
      | ok pd =>
        obtain ⟨f2, w2, k2, a2, b2⟩ := write_since (c := pd) hs (show "results.pdf".toList ∈ written by decide) k1
        rw [PyM.bind_ok (show (lift (.ok pd) : PyM (FS F) F) f1 = (f1, .ok pd) from rfl), PyM.bind_ok w2]
        have hc2 : f2.files (resultsFile s "results.csv".toList) = some c := by rw [b2 _ (by decide), a1]
        cases config with
        | error e =>
          refine ⟨k2, fun c' hc => ?_, fun c p g _ _ _ he => ?_⟩
          · cases hc; exact hc2
          · cases he
        | ok cf =>
          obtain ⟨f3, w3, k3, a3, b3⟩ := write_since (c := cf) hs (show "config.ini".toList ∈ written by decide) k2
          rw [PyM.bind_ok (show (lift (.ok cf) : PyM (FS F) F) f2 = (f2, .ok cf) from rfl), w3]
          refine ⟨k3, fun c' hc => ?_, fun c' p g _ _ hp hg => ?_⟩
          · cases hc
            show f3.files _ = _
            rw [b3 _ (by decide), hc2]
          · cases hp
            cases hg
            refine ⟨rfl, ?_, a3⟩
            show f3.files _ = _
            rw [b3 _ (by decide), a2]

theorem finishRun_eq (R : Results F) (s1 s2 : Str) : finishRun R s1 s2 = (do ensureResults; mkdir (resultsDir s1); afterDir R s2) := rfl

theorem no_file {fs : FS F} (hc : Consistent fs) {s n : Str} (hs : Stamp s) (hn : '/' ∉ n) (hd : fs.dirs (resultsDir s) = false) :
    fs.files (resultsFile s n) = none := by
  cases hf : fs.files (resultsFile s n) with
  | none => rfl
  | some f =>
    have := hc (resultsFile s n) (by simp [hf])
    rw [split_file hs hn] at this
    rcases this with e | e
    · exact absurd e (by simp [resultsDir])
    · rw [hd] at e; cases e

/-- **C99 (partial).** If the two readings of the clock agree: files that exist before stay as they are, whatever happens; and if there is
no directory for this minute yet, the CSV file is stored once its content could be computed, whatever raises later; if
nothing raises, all three files are stored. -/
theorem C99_results_partial (R : Results F) {s : Str} (hs : Stamp s) {fs : FS F} (hc : Consistent fs) :
    (∀ p f, fs.files p = some f → (finishRun R s s fs).1.files p = some f) ∧
    ((fs.dirs base = true ∨ (fs.files base).isSome = false) → fs.dirs (resultsDir s) = false → fs.files (resultsDir s) = none →
      (∀ c, R.csv = .ok c → (finishRun R s s fs).1.files (resultsFile s "results.csv".toList) = some c) ∧
      (∀ c p g, R.csv = .ok c → R.eqns = .ok () → R.pdf = .ok p → R.config = .ok g → (finishRun R s s fs).2 = .ok () ∧
        (finishRun R s s fs).1.files (resultsFile s "results.pdf".toList) = some p ∧
        (finishRun R s s fs).1.files (resultsFile s "config.ini".toList) = some g)) := by
  rw [finishRun_eq]
  have hensure : ∀ (hb : ¬ ∃ fs1, ensureResults fs = (fs1, .ok ())), ∃ e, ensureResults fs = ((ensureResults fs).1, .error e) := by
    intro hb
    rcases he : ensureResults fs with ⟨fs1, e | u⟩
    · exact ⟨e, rfl⟩
    · exact absurd ⟨fs1, he⟩ hb
  have main : ∀ fs1, ensureResults fs = (fs1, .ok ()) → fs1.dirs base = true → fs1.files = fs.files →
      fs1.dirs (resultsDir s) = fs.dirs (resultsDir s) → fs.dirs (resultsDir s) = false → fs.files (resultsDir s) = none →
      ∃ fs2, Since fs s fs2 ∧ (do ensureResults; mkdir (resultsDir s); afterDir R s : PyM (FS F) Unit) fs = afterDir R s fs2 := by
    intro fs1 h1 h2 h3 h4 h5 h6
    have hm : ∃ fs2, mkdir (resultsDir s) fs1 = (fs2, .ok ()) ∧ Since fs s fs2 := by
      rw [mkdir, if_neg (by simp [h3, h4, h5, h6]), if_neg (by simp [split_dir hs, h2])]
      exact ⟨_, rfl, by simp, fun p _ => by simp [h3]⟩
    obtain ⟨fs2, hm, h7⟩ := hm
    exact ⟨fs2, h7, by rw [PyM.bind_ok h1, PyM.bind_ok hm]⟩
  constructor
  · intro p f hp
    by_cases hb : ∃ fs1, ensureResults fs = (fs1, .ok ())
    · obtain ⟨fs1, h1⟩ := hb
      have h3 : fs1.files = fs.files := by rw [← ensure_files fs, h1]
      have hbase : fs.dirs base = true ∨ (fs.files base).isSome = false := by
        by_contra hh
        rw [not_or] at hh
        rw [ensureResults, if_neg hh.1, mkdir, if_pos (by rw [Bool.or_eq_true]; exact .inr (Option.isSome_iff_ne_none.2 (by simpa using hh.2)))] at h1
        cases h1
      obtain ⟨fs1', h1', _, h2, h4⟩ := ensure_ok hbase
      rw [h1] at h1'
      have e : fs1 = fs1' := congrArg Prod.fst h1'
      subst e
      have h4' := h4 (resultsDir s) base_ne_dir
      by_cases hd : fs.dirs (resultsDir s) = false ∧ fs.files (resultsDir s) = none
      · obtain ⟨fs2, h5, h6⟩ := main fs1 h1 h2 h3 h4' hd.1 hd.2
        rw [h6, (afterDir_spec R hs h5).1.keep p ?_, hp]
        rintro n hn rfl
        rw [no_file hc hs (written_noSlash hn) hd.1] at hp
        cases hp
      · have : mkdir (resultsDir s) fs1 = (fs1, .error .fileExists) := by
          rw [mkdir, if_pos]
          rw [h3, h4']
          cases h8 : fs.dirs (resultsDir s)
          · cases h9 : fs.files (resultsDir s)
            · exact absurd ⟨h8, h9⟩ hd
            · rfl
          · rfl
        rw [PyM.bind_ok h1, PyM.bind_error this]
        show fs1.files p = _
        rw [h3, hp]
    · obtain ⟨e, he⟩ := hensure hb
      rw [PyM.bind_error he]
      show (ensureResults fs).1.files p = _
      rw [ensure_files, hp]
  · intro hbase hd hf
    obtain ⟨fs1, h1, h3, h2, h4⟩ := ensure_ok hbase
    obtain ⟨fs2, h5, h6⟩ := main fs1 h1 h2 h3 (h4 _ base_ne_dir) hd hf
    rw [h6]
    exact (afterDir_spec R hs h5).2

/-- **C99 (violated): one minute.** If a search ended in the same minute before, so that the directory exists, the results of this
search are lost: FileExistsError, and no file is written, whatever the results are. -/
theorem C99_same_minute_violated (R : Results F) {s s' : Str} {fs : FS F} (hb : fs.dirs base = true)
    (hd : fs.dirs (resultsDir s) = true) : finishRun R s s' fs = (fs, .error .fileExists) := by
  have h1 : ensureResults fs = (fs, .ok ()) := if_pos hb
  rw [finishRun_eq, PyM.bind_ok h1, PyM.bind_error (show mkdir (resultsDir s) fs = (fs, .error .fileExists) by
    rw [mkdir, if_pos (by simp [hd])])]

/-- **C99 (violated): the clock.** The clock is read twice.  If the minute changes in between, the CSV file is to be written to a
directory that does not exist: FileNotFoundError, and no file is written. -/
theorem C99_clock_violated (R : Results F) {s s' : Str} (hs : Stamp s) (hs' : Stamp s') (hne : s' ≠ s) {c : F} (hR : R.csv = .ok c)
    {fs : FS F} (hb : fs.dirs base = true) (hd : fs.dirs (resultsDir s) = false) (hf : fs.files (resultsDir s) = none)
    (hd' : fs.dirs (resultsDir s') = false) :
    (finishRun R s s' fs).2 = .error .fileNotFound ∧ (finishRun R s s' fs).1.files = fs.files := by
  have h1 : ensureResults fs = (fs, .ok ()) := if_pos hb
  obtain ⟨fs2, hm, hfiles, hdir⟩ : ∃ fs2, mkdir (resultsDir s) fs = (fs2, .ok ()) ∧ fs2.files = fs.files ∧ fs2.dirs (resultsDir s') = false := by
    rw [mkdir, if_neg (by simp [hd, hf]), if_neg (by simp [split_dir hs, hb])]
    refine ⟨_, rfl, rfl, ?_⟩
    have : resultsDir s' ≠ resultsDir s := by
      intro e
      rw [resultsDir, resultsDir] at e
      have := List.append_cancel_left e
      simp only [List.cons.injEq, true_and] at this
      exact hne this
    simp [this, hd']
  have hw : write (resultsFile s' "results.csv".toList) c fs2 = (fs2, .error .fileNotFound) := by
    rw [write, split_file hs' (by decide), if_pos]
    rw [hdir]
    simp [resultsDir]
  rw [finishRun_eq, PyM.bind_ok h1, PyM.bind_ok hm, afterDir, hR,
    PyM.bind_ok (show (lift (.ok c) : PyM (FS F) F) fs2 = (fs2, .ok c) from rfl), PyM.bind_error hw]
  exact ⟨rfl, hfiles⟩

/-- A file system with the directory `results` and one earlier run. -/
def exFS : FS ℕ where
  dirs p := p = base || p = resultsDir "161126_1205".toList
  files p := if p = resultsFile "161126_1205".toList "results.csv".toList then some 1 else none

example : Consistent exFS ∧ exFS.dirs base = true ∧ exFS.dirs (resultsDir "161126_1205".toList) = true ∧
    exFS.dirs (resultsDir "161126_1206".toList) = false ∧ exFS.files (resultsDir "161126_1206".toList) = none ∧
    Stamp "161126_1205".toList ∧ Stamp "161126_1206".toList := by
  have h5 : Stamp "161126_1205".toList := ⟨by decide, by decide⟩
  refine ⟨?_, by decide, by decide, by decide, by decide, h5, ⟨by decide, by decide⟩⟩
  intro p hp
  by_cases h : p = resultsFile "161126_1205".toList "results.csv".toList
  · right
    rw [h, split_file h5 (by decide)]
    decide
  · rw [show exFS.files p = none from if_neg h] at hp
    cases hp

/-! ### C100: joining the hashtables of a directory -/


theorem loadAll_ok {T : Type} {load : F → Except PyErr T} {fs : FS F} (path : Str → Str) (tab : Str → T) {names : List Str}
    (h : ∀ f ∈ names, ∃ c, fs.files (path f) = some c ∧ load c = .ok (tab f)) :
    loadAll load fs (names.map path) = .ok (names.map tab) := by
  induction names with
  | nil => rfl
  | cons f names ih =>
    obtain ⟨c, h1, h2⟩ := h f List.mem_cons_self
    rw [List.map_cons, loadAll, h1]
    simp only
    rw [h2]
    simp only
    rw [ih fun g hg => h g (List.mem_cons_of_mem _ hg)]
    rfl

theorem joinTables_ok {α : Type} {ts : List (Table (Val α))} (hne : ts ≠ []) (hwf : ∀ u ∈ ts, WF u)
    (hacc : ∀ u ∈ ts, ∀ w ∈ ts, u.accuracy = w.accuracy) :
    ∃ r, joinTables ts = .ok r ∧ ∀ k, (entries r k).Perm (ts.flatMap (entries · k)) := by
  obtain ⟨t, ts, rfl⟩ := List.exists_cons_of_ne_nil hne
  have := joinLoop_spec ts t (fun u hu => hwf u (List.mem_cons_of_mem _ hu))
  rw [if_pos (fun u hu => hacc u (List.mem_cons_of_mem _ hu) t List.mem_cons_self)] at this
  obtain ⟨r, h1, -, h2, -⟩ := this
  exact ⟨r, h1, fun k => by rw [h2 k, List.flatMap_cons]⟩

theorem write_files (p : Str) (c : F) {fs fs' : FS F} (h : write p c fs = (fs', .ok ())) :
    fs'.files p = some c ∧ ∀ q, q ≠ p → fs'.files q = fs.files q := by
  rw [write] at h
  split at h
  · cases h
  · have : fs' = _ := (congrArg Prod.fst h).symm
    subst this
    exact ⟨by simp, fun q hq => by simp [hq]⟩

open Classical in
/-- **C100 (partial).** If joining the tables of a directory fails, no file is touched.  If there is at least one .pkl file, all of
them hold tables of one accuracy, and the directory of the output exists, the output holds, under each key, exactly the
entries of all the tables of the directory; the other files stay as they are.  Missing: an existing output file (below). -/
theorem C100_join_partial {α : Type} (load : F → Except PyErr (Table (Val α))) (store : Table (Val α) → F) (dir : Str)
    {names : List Str} (hn : ∀ f ∈ names, '/' ∉ f) (output : Str) (fs : FS F) :
    (∀ e, (joinMain load store joinTables dir names output fs).2 = .error e → (joinMain load store joinTables dir names output fs).1 = fs) ∧
    ∀ tab : Str → Table (Val α),
      (∀ f ∈ names, HasExt "pkl".toList f → (∃ c, fs.files (Path.join dir f) = some c ∧ load c = .ok (tab f)) ∧ WF (tab f)) →
      (∀ f ∈ names, ∀ g ∈ names, HasExt "pkl".toList f → HasExt "pkl".toList g → (tab f).accuracy = (tab g).accuracy) →
      (∃ f ∈ names, HasExt "pkl".toList f) → ((split output).1 = [] ∨ fs.dirs (split output).1 = true) →
      ∃ r fs', joinMain load store joinTables dir names output fs = (fs', .ok ()) ∧ fs'.files output = some (store r) ∧
        (∀ p, p ≠ output → fs'.files p = fs.files p) ∧
        ∀ k, (entries r k).Perm ((names.filter fun f => decide (HasExt "pkl".toList f)).flatMap fun f => entries (tab f) k) := by
  constructor
  · intro e h
    rw [joinMain] at h ⊢
    split at h
    · rfl
    · split at h
      · rfl
      · rw [write] at h ⊢
        split at h
        · next hw => rw [if_pos hw]
        · cases h
  · intro tab htab hacc hex hout
    have hfil : names.filter (fun f => decide ((splitext f).2 = ".pkl".toList)) = names.filter fun f => decide (HasExt "pkl".toList f) :=
      List.filter_congr fun f hf => by
        rw [decide_eq_decide]
        exact splitext_ext (hn f hf) (by decide)
    have hmem : ∀ f ∈ names.filter (fun f => decide (HasExt "pkl".toList f)), f ∈ names ∧ HasExt "pkl".toList f := by
      intro f hf
      rw [List.mem_filter, decide_eq_true_eq] at hf
      exact hf
    have hload := loadAll_ok (load := load) (fs := fs) (Path.join dir) tab
      (names := names.filter fun f => decide (HasExt "pkl".toList f)) fun f hf => (htab f (hmem f hf).1 (hmem f hf).2).1
    obtain ⟨r, h1, h2⟩ := joinTables_ok (ts := (names.filter fun f => decide (HasExt "pkl".toList f)).map tab)
      (by
        obtain ⟨f, hf, hx⟩ := hex
        exact List.ne_nil_of_mem (List.mem_map_of_mem (List.mem_filter.2 ⟨hf, by simpa using hx⟩)))
      (by
        intro u hu
        obtain ⟨f, hf, rfl⟩ := List.mem_map.1 hu
        exact (htab f (hmem f hf).1 (hmem f hf).2).2)
      (by
        intro u hu w hw
        obtain ⟨f, hf, rfl⟩ := List.mem_map.1 hu
        obtain ⟨g, hg, rfl⟩ := List.mem_map.1 hw
        exact hacc f (hmem f hf).1 g (hmem g hg).1 (hmem f hf).2 (hmem g hg).2)
    have hw : ∃ fs', write output (store r) fs = (fs', .ok ()) := by
      rw [write, if_neg]
      · exact ⟨_, rfl⟩
      · rcases hout with h | h <;> simp [h]
    obtain ⟨fs', hw⟩ := hw
    refine ⟨r, fs', ?_, (write_files _ _ hw).1, (write_files _ _ hw).2, ?_⟩
    · rw [joinMain, hfil, hload]
      simp only
      rw [h1]
      exact hw
    · intro k
      have := h2 k
      rwa [List.flatMap_map] at this

/-- The table with the entry 7 under the key "3". -/
def exTable : Table (Val ℕ) := ⟨5, [], [(.str ['3'], .list [7])]⟩

/-- The directory `d` with one hashtable. -/
def exJoin : FS (Table (Val ℕ)) where
  dirs p := p = ['d']
  files p := if p = "d/a.pkl".toList then some exTable else none

/-- The directory `d` meets the hypotheses of `C100_join_partial`. -/
example : (∀ f ∈ ["a.pkl".toList], '/' ∉ f) ∧ (∃ f ∈ ["a.pkl".toList], HasExt "pkl".toList f) ∧
    exJoin.files (Path.join ['d'] "a.pkl".toList) = some exTable ∧ WF exTable ∧ exJoin.dirs (split "d/j.pkl".toList).1 = true := by
  refine ⟨by decide, ⟨_, List.mem_singleton.2 rfl, ['a'], rfl, 'a', by decide, by decide⟩, by decide +kernel, ?_, by decide +kernel⟩
  simp [WF, exTable, Dict.keys]

/-- The program run twice with its output in the directory itself. -/
def exTwice : FS (Table (Val ℕ)) × Except PyErr Unit :=
  joinMain .ok id joinTables ['d'] ["a.pkl".toList, "j.pkl".toList] "d/j.pkl".toList
    (joinMain .ok id joinTables ['d'] ["a.pkl".toList] "d/j.pkl".toList exJoin).1

/-- **C100 (violated).** An existing output file is announced as the reason for aborting, but is replaced: here by a run over the
directory that holds the output of the previous run, which doubles every entry. -/
theorem C100_join_violated :
    ((joinMain .ok id joinTables ['d'] ["a.pkl".toList] "d/j.pkl".toList exJoin).1.files "d/j.pkl".toList).map (entries · (.str ['3'])) =
      some [7] ∧
    exTwice.2.isOk = true ∧ (exTwice.1.files "d/j.pkl".toList).map (entries · (.str ['3'])) = some [7, 7] := by
  decide +kernel

end PiCF.Output
