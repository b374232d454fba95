import Verif.Spec.Concurrent
import Verif.Lemmas.Tables
import Verif.Props.Output
import Verif.Props.DistributeMain

/-!
# C133: runs at the same time
-/

namespace PiCF.Concurrent
open PiCF.Hashtable PiCF.Output PiCF.Config PiCF.Spec

variable {F T : Type}

/-! ### A run alone -/

theorem write_twice (p : Str) (c c' : F) (fs : FS F) : write p c' (write p c fs).1 = write p c' fs := by
  unfold write
  split
  · rfl
  · congr 2
    funext q
    simp only
    split <;> rfl

theorem alone_access {α : Type} (m : PyM (FS F) α) (k : α → Prog F) : (access m k).alone = PyM.bind m fun a => (k a).alone := by
  funext fs
  rw [access, Prog.alone, PyM.bind]
  cases h : m fs with
  | mk fs' r =>
    simp only [h]
    cases r <;> rfl

theorem alone_done (m : PyM (FS F) Unit) : (PyM.bind m fun _ => (Prog.done (.ok ()) : Prog F).alone) = m := by
  funext fs
  rw [PyM.bind]
  cases h : m fs with
  | mk fs' r => cases r <;> rfl

theorem alone_compute {α : Type} (r : Except PyErr α) (k : α → Prog F) : (compute r k).alone = PyM.bind (lift r) fun a => (k a).alone := by
  cases r <;> rfl

theorem alone_store (e : F) (p : Str) (c : F) (k : Prog F) : (store e p c k).alone = PyM.bind (write p c) fun _ => k.alone := by
  rw [store, alone_access]
  funext fs
  simp only [alone_access, PyM.bind]
  have h := write_twice p e c fs
  cases h1 : write p e fs with
  | mk fs' r =>
    rw [h1] at h
    cases r with
    | ok a =>
      simp only at h
      simp only [h]
    | error x =>
      simp only
      unfold write at h1
      split at h1
      · rename_i hd
        unfold write
        rw [if_pos hd]
        obtain ⟨rfl, hx⟩ := Prod.mk.inj h1
        injection hx with hx
        rw [hx]
      · cases h1

/-- A run that is alone saves its results as described by `finishRun` (C99). -/
theorem alone_save (J : Job T F) (s1 s2 : Str) (R : Results F) : (saveResults J s1 s2 R).alone = finishRun R s1 s2 := by
  have hrest : ∀ p : Prog F, (access isBase fun isdir =>
      if isdir = true then p else access (mkdir base) fun _ => p).alone = PyM.bind ensureResults fun _ => p.alone := by
    intro p
    rw [alone_access]
    funext fs
    simp only [PyM.bind, ensureResults, isBase]
    cases hd : fs.dirs base with
    | true => rfl
    | false => simp only [Bool.false_eq_true, if_false, alone_access, PyM.bind]
  unfold saveResults saveIn
  simp only [hrest, alone_store, alone_compute, alone_access, alone_done]
  rfl

/-! ### What a run needs and what it does -/

/-- A run: what it computes, its configuration, its operation and table, and the minute in which it ends. -/
structure Task (T F : Type) where
  J : Job T F
  items : List (Str × Str)
  op : Str
  table : Str
  stamp : Str

/-- The files that the run writes: those of its table (unless it only uses it) and, if `b`, its results. -/
def Task.Writes (A : Task T F) (b : Bool) (q : Str) : Prop :=
  A.op ≠ "use".toList ∧ TablePath A.table q ∨ b = true ∧ ∃ n ∈ resultNames, q = resultPath A.stamp n

/-- Directories do not disappear. -/
def Grows (fs fs' : FS F) : Prop := ∀ p, fs.dirs p = true → fs'.dirs p = true

/-- What the others may do: they leave the table of the run alone and, once it has made its directory (`b`), its results. -/
structure Rely (A : Task T F) (b : Bool) (fs fs' : FS F) : Prop where
  grows : Grows fs fs'
  table : ∀ q, TablePath A.table q → fs'.files q = fs.files q
  results : b = true → ∀ n ∈ resultNames, fs'.files (resultPath A.stamp n) = fs.files (resultPath A.stamp n)

/-- What the run does. -/
structure Guar (A : Task T F) (b : Bool) (fs fs' : FS F) : Prop where
  grows : Grows fs fs'
  files : ∀ q, ¬ A.Writes b q → fs'.files q = fs.files q

theorem Rely.refl (A : Task T F) (b : Bool) (fs : FS F) : Rely A b fs fs := ⟨fun _ h => h, fun _ _ => rfl, fun _ _ _ => rfl⟩

theorem Rely.trans {A : Task T F} {b : Bool} {f g h : FS F} (h1 : Rely A b f g) (h2 : Rely A b g h) : Rely A b f h :=
  ⟨fun p hp => h2.grows p (h1.grows p hp), fun q hq => (h2.table q hq).trans (h1.table q hq),
    fun hb n hn => (h2.results hb n hn).trans (h1.results hb n hn)⟩

/-- What is known of a run that has ended with the result `r`; `fs₀` is the file system at the beginning. -/
def Outcome (A : Task T F) (fs₀ : FS F) (b : Bool) (r : Except PyErr Unit) (fs : FS F) : Prop :=
  (∃ e, r = .error e ∧ Early A.J A.items e) ∨
  ∃ listdir d q t, Config.load listdir A.items = .ok d ∧ d "hashtable_file".toList = some (.data (.str q)) ∧ TablePath A.table q ∧
    Makes A.J fs₀ d q A.op t ∧ (A.op ≠ "use".toList → fs.files q = some (A.J.dump t)) ∧
    (r = .ok () → Main.truthy (dataOf (d "gen_hashtable_only".toList)) = true ∨
      b = true ∧ ∃ R, A.J.search d t = .ok R ∧ HasResults fs A.stamp R)

/-- The rest of a run does what it should, whatever the others do meanwhile within `Rely`. -/
def Good (A : Task T F) (fs₀ : FS F) : Prog F → Bool → FS F → Prop
  | .done r, b, fs => ∀ fs', Rely A b fs fs' → Outcome A fs₀ b r fs'
  | .act eff next, b, fs => ∀ fs', Rely A b fs fs' → Guar A b fs' (eff fs') ∧ ∃ b', (b = true → b' = true) ∧
      (b = false → b' = true → fs'.dirs (resultsDir A.stamp) = false ∧ (eff fs').dirs (resultsDir A.stamp) = true) ∧
      Good A fs₀ (next fs') b' (eff fs')

theorem Good.rely {A : Task T F} {fs₀ fs fs' : FS F} {p : Prog F} {b : Bool} (h : Good A fs₀ p b fs) (hr : Rely A b fs fs') :
    Good A fs₀ p b fs' := by
  cases p with
  | done r => exact fun g hg => h g (hr.trans hg)
  | act eff next => exact fun g hg => h g (hr.trans hg)

theorem good_early {A : Task T F} {fs₀ : FS F} {b : Bool} {fs : FS F} {e : PyErr} (h : Early A.J A.items e) :
    Good A fs₀ (.done (.error e)) b fs := fun _ _ => .inl ⟨e, rfl, h⟩

theorem good_compute {α : Type} {A : Task T F} {fs₀ : FS F} {b : Bool} {fs : FS F} {r : Except PyErr α} {k : α → Prog F}
    (he : ∀ e, r = .error e → Good A fs₀ (.done (.error e)) b fs) (hk : ∀ a, r = .ok a → Good A fs₀ (k a) b fs) :
    Good A fs₀ (compute r k) b fs := by
  cases r with
  | error e => exact he e rfl
  | ok a => exact hk a rfl

/-- A step that only reads. -/
theorem good_read {α : Type} {A : Task T F} {fs₀ : FS F} {b : Bool} {fs : FS F} {m : PyM (FS F) α} {k : α → Prog F}
    (hm : ∀ g, (m g).1 = g) (he : ∀ g e, Rely A b fs g → (m g).2 = .error e → Good A fs₀ (.done (.error e)) b g)
    (hk : ∀ g a, Rely A b fs g → (m g).2 = .ok a → Good A fs₀ (k a) b g) : Good A fs₀ (access m k) b fs := by
  intro g hg
  simp only [hm]
  refine ⟨⟨fun _ h => h, fun _ _ => rfl⟩, b, id, fun h1 h2 => absurd h2 (by simp [h1]), ?_⟩
  cases h : (m g).2 with
  | error e => exact he g e hg h
  | ok a => exact hk g a hg h

/-- The file system after a file has been written. -/
def put (fs : FS F) (p : Str) (c : F) : FS F := { fs with files := fun q => if q = p then some c else fs.files q }

theorem write_cases (p : Str) (c : F) (fs : FS F) : write p c fs = (fs, .error .fileNotFound) ∨ write p c fs = (put fs p c, .ok ()) := by
  unfold write
  split
  · exact .inl rfl
  · exact .inr rfl

theorem good_write {A : Task T F} {fs₀ : FS F} {b : Bool} {fs : FS F} {p : Str} {c : F} {k : Prog F} (hp : A.Writes b p)
    (he : ∀ g, Rely A b fs g → Good A fs₀ (.done (.error .fileNotFound)) b g)
    (hk : ∀ g, Rely A b fs g → Good A fs₀ k b (put g p c)) : Good A fs₀ (access (write p c) fun _ => k) b fs := by
  intro g hg
  have hself : b = false → b = true → g.dirs (resultsDir A.stamp) = false ∧ ((write p c) g).1.dirs (resultsDir A.stamp) = true :=
    fun h1 h2 => absurd h2 (by simp [h1])
  rcases write_cases p c g with h | h
  · refine ⟨?_, b, id, hself, ?_⟩
    · simp only [h]
      exact ⟨fun _ h => h, fun _ _ => rfl⟩
    · simp only [h]
      exact he g hg
  · refine ⟨?_, b, id, hself, ?_⟩
    · simp only [h]
      refine ⟨fun _ h => h, fun q hq => ?_⟩
      show (if q = p then some c else g.files q) = g.files q
      rw [if_neg]
      rintro rfl
      exact hq hp
    · simp only [h]
      exact hk g hg

theorem good_store {A : Task T F} {fs₀ : FS F} {b : Bool} {fs : FS F} {p : Str} {c e : F} {k : Prog F} (hp : A.Writes b p)
    (he : ∀ g, (∀ q, q ≠ p → TablePath A.table q → g.files q = fs.files q) →
      (b = true → ∀ n ∈ resultNames, resultPath A.stamp n ≠ p → g.files (resultPath A.stamp n) = fs.files (resultPath A.stamp n)) →
      Good A fs₀ (.done (.error .fileNotFound)) b g)
    (hk : ∀ g, g.files p = some c → (∀ q, q ≠ p → TablePath A.table q → g.files q = fs.files q) →
      (b = true → ∀ n ∈ resultNames, resultPath A.stamp n ≠ p → g.files (resultPath A.stamp n) = fs.files (resultPath A.stamp n)) →
      Good A fs₀ k b g) : Good A fs₀ (store e p c k) b fs := by
  refine good_write hp (fun g hg => he g (fun q _ hq => hg.table q hq) fun hb n hn _ => hg.results hb n hn) fun g hg => ?_
  have hput : ∀ {f : FS F} {x : F} {q : Str}, q ≠ p → (put f p x).files q = f.files q := fun h => if_neg h
  have t1 : ∀ {f : FS F}, Rely A b (put g p e) f → ∀ q, q ≠ p → TablePath A.table q → f.files q = fs.files q := by
    intro f hf q hne hq
    rw [hf.table q hq, hput hne, hg.table q hq]
  have t2 : ∀ {f : FS F}, Rely A b (put g p e) f → b = true → ∀ n ∈ resultNames, resultPath A.stamp n ≠ p →
      f.files (resultPath A.stamp n) = fs.files (resultPath A.stamp n) := by
    intro f hf hb n hn hne
    rw [hf.results hb n hn, hput hne, hg.results hb n hn]
  refine good_write hp (fun f hf => he f (t1 hf) (t2 hf)) fun f hf => hk _ (if_pos rfl) (fun q hne hq => ?_) fun hb n hn hne => ?_
  · rw [hput hne]
    exact t1 hf q hne hq
  · rw [hput hne]
    exact t2 hf hb n hn hne

theorem last_component {d f : Str} (hf : '/' ∉ f) : (Path.rsplitSlash (d ++ '/' :: f)).2 = f := by
  have hx : ∀ x ∈ f.reverse, decide (x ≠ '/') = true := by
    intro x hx
    simpa using fun e : x = '/' => hf (e ▸ List.mem_reverse.1 hx)
  have e : (d ++ '/' :: f).reverse = f.reverse ++ '/' :: d.reverse := by simp
  rw [Path.rsplitSlash, e, List.takeWhile_append_of_pos hx]
  simp

theorem resultPath_eq (stamp n : Str) : resultPath stamp n = resultsFile stamp n := rfl

theorem resultPath_split (stamp n : Str) : resultPath stamp n = ("results".toList ++ ('/' :: stamp)) ++ '/' :: n := rfl

theorem resultNames_slash {n : Str} (h : n ∈ resultNames) : '/' ∉ n := by
  have : ∀ n ∈ resultNames, '/' ∉ n := by decide
  exact this n h

/-- Results are not tables. -/
theorem table_result {s q stamp n : Str} (h : TablePath s q) (hn : n ∈ resultNames) : q ≠ resultPath stamp n := by
  rintro rfl
  obtain ⟨d, f, e, hf, v, r, e1, -⟩ := h
  have h1 := last_component (d := d) hf
  rw [← e, resultPath_split, last_component (resultNames_slash hn)] at h1
  have hk : 'k' ∈ n := by rw [h1, e1]; simp
  have : ∀ n ∈ resultNames, 'k' ∉ n := by decide
  exact this n hn hk

theorem resultPath_inj {s s' n n' : Str} (hs : Stamp s) (hs' : Stamp s') (hn : n ∈ resultNames) (hn' : n' ∈ resultNames)
    (h : resultPath s n = resultPath s' n') : s = s' ∧ n = n' := by
  rw [resultPath_eq, resultPath_eq] at h
  have h1 := congrArg Path.split h
  rw [split_file hs (resultNames_slash hn), split_file hs' (resultNames_slash hn')] at h1
  obtain ⟨h2, h3⟩ := Prod.mk.inj h1
  refine ⟨?_, h3⟩
  rw [resultsDir, resultsDir] at h2
  exact (List.cons.inj (List.append_cancel_left h2)).2

theorem mkdir_cases (p : Str) (fs : FS F) : (∃ e, mkdir p fs = (fs, .error e)) ∨
    fs.dirs p = false ∧ mkdir p fs = ({ fs with dirs := fun q => if q = p then true else fs.dirs q }, .ok ()) := by
  unfold mkdir
  split
  · exact .inl ⟨_, rfl⟩
  · rename_i h
    split
    · exact .inl ⟨_, rfl⟩
    · refine .inr ⟨?_, rfl⟩
      simp only [Bool.or_eq_true, not_or] at h
      simpa using h.1

/-- Making a directory: the run may own its results afterwards (`c`). -/
theorem good_mkdir {A : Task T F} {fs₀ : FS F} {fs : FS F} {p : Str} {k : Prog F} (c : Bool) (hc : c = true → p = resultsDir A.stamp)
    (he : ∀ g e, Rely A false fs g → Good A fs₀ (.done (.error e)) false g)
    (hk : ∀ g, (∀ q, TablePath A.table q → g.files q = fs.files q) → Good A fs₀ k c g) :
    Good A fs₀ (access (mkdir p) fun _ => k) false fs := by
  intro g hg
  rcases mkdir_cases p g with ⟨e, h⟩ | ⟨hd, h⟩
  · refine ⟨?_, false, id, fun _ h2 => absurd h2 (by simp), ?_⟩
    · simp only [h]
      exact ⟨fun _ h => h, fun _ _ => rfl⟩
    · simp only [h]
      exact he g e hg
  · refine ⟨?_, c, fun h1 => absurd h1 (by simp), fun _ h2 => ?_, ?_⟩
    · simp only [h]
      refine ⟨fun q hq => ?_, fun _ _ => rfl⟩
      show (if q = p then true else g.dirs q) = true
      rw [hq, ite_self]
    · simp only [h]
      rw [← hc h2]
      exact ⟨hd, if_pos rfl⟩
    · simp only [h]
      exact hk _ fun q hq => hg.table q hq

/-- The table of the run is ready: the facts about it that do not change any more. -/
structure Ready (A : Task T F) (fs₀ : FS F) (d : Config.Dict) (q : Str) (t : T) : Prop where
  load : ∃ listdir, Config.load listdir A.items = .ok d
  file : d "hashtable_file".toList = some (.data (.str q))
  path : TablePath A.table q
  makes : Makes A.J fs₀ d q A.op t

section
variable {A : Task T F} {fs₀ : FS F} {d : Config.Dict} {q : Str} {t : T}

theorem good_error (H : Ready A fs₀ d q t) {b : Bool} {fs : FS F} (hs : A.op ≠ "use".toList → fs.files q = some (A.J.dump t)) (e : PyErr) :
    Good A fs₀ (.done (.error e)) b fs := by
  obtain ⟨l, hl⟩ := H.load
  exact fun g hg => .inr ⟨l, d, q, t, hl, H.file, H.path, H.makes, fun h => by rw [hg.table q H.path, hs h], fun h => by cases h⟩

theorem good_save (H : Ready A fs₀ d q t) {fs : FS F} (hs : A.op ≠ "use".toList → fs.files q = some (A.J.dump t)) {R : Results F}
    (hR : A.J.search d t = .ok R) : Good A fs₀ (saveResults A.J A.stamp A.stamp R) false fs := by
  have keep : ∀ {g : FS F}, (∀ q, TablePath A.table q → g.files q = fs.files q) → A.op ≠ "use".toList → g.files q = some (A.J.dump t) :=
    fun h hu => (h q H.path).trans (hs hu)
  have hrest : ∀ g : FS F, (∀ q, TablePath A.table q → g.files q = fs.files q) → Good A fs₀ (saveIn A.J A.stamp A.stamp R) false g := by
    intro g hg
    unfold saveIn
    simp only [← resultPath_eq]
    have hne : ∀ {x : Str} {n : Str}, TablePath A.table x → n ∈ resultNames → x ≠ resultPath A.stamp n := fun h hn => table_result h hn
    have hw : ∀ {n : Str}, n ∈ resultNames → A.Writes true (resultPath A.stamp n) := fun hn => .inr ⟨rfl, _, hn, rfl⟩
    have m1 : "results.csv".toList ∈ resultNames := by decide
    have m2 : "results.pdf".toList ∈ resultNames := by decide
    have m3 : "config.ini".toList ∈ resultNames := by decide
    have n12 : resultPath A.stamp "results.csv".toList ≠ resultPath A.stamp "results.pdf".toList := by
      rw [resultPath_eq, resultPath_eq]; exact file_ne (by decide)
    have n13 : resultPath A.stamp "results.csv".toList ≠ resultPath A.stamp "config.ini".toList := by
      rw [resultPath_eq, resultPath_eq]; exact file_ne (by decide)
    have n23 : resultPath A.stamp "results.pdf".toList ≠ resultPath A.stamp "config.ini".toList := by
      rw [resultPath_eq, resultPath_eq]; exact file_ne (by decide)
    refine good_mkdir true (fun _ => rfl) (fun g1 e h1 => good_error H (keep fun x hx => (h1.table x hx).trans (hg x hx)) e) fun g1 h1 => ?_
    have k1 : ∀ x, TablePath A.table x → g1.files x = fs.files x := fun x hx => (h1 x hx).trans (hg x hx)
    refine good_compute (fun e _ => good_error H (keep k1) e) fun csv hcsv => ?_
    refine good_store (hw m1) (fun g2 h2 _ => good_error H (keep fun x hx => (h2 x (hne hx m1) hx).trans (k1 x hx)) _) fun g2 c2 h2 _ => ?_
    have k2 : ∀ x, TablePath A.table x → g2.files x = fs.files x := fun x hx => (h2 x (hne hx m1) hx).trans (k1 x hx)
    refine good_compute (fun e _ => good_error H (keep k2) e) fun _ _ => ?_
    refine good_compute (fun e _ => good_error H (keep k2) e) fun pdf hpdf => ?_
    refine good_write (hw m2) (fun g3 h3 => good_error H (keep fun x hx => (h3.table x hx).trans (k2 x hx)) _) fun g3 h3 => ?_
    have hput : ∀ {x : Str}, x ≠ resultPath A.stamp "results.pdf".toList →
        (put g3 (resultPath A.stamp "results.pdf".toList) pdf).files x = g3.files x := fun h => if_neg h
    have k3 : ∀ x, TablePath A.table x → (put g3 (resultPath A.stamp "results.pdf".toList) pdf).files x = fs.files x :=
      fun x hx => (hput (hne hx m2)).trans ((h3.table x hx).trans (k2 x hx))
    refine good_compute (fun e _ => good_error H (keep k3) e) fun config hconfig => ?_
    refine good_store (hw m3) (fun g4 h4 _ => good_error H (keep fun x hx => (h4 x (hne hx m3) hx).trans (k3 x hx)) _) fun g4 c4 h4 r4 => ?_
    have k4 : ∀ x, TablePath A.table x → g4.files x = fs.files x := fun x hx => (h4 x (hne hx m3) hx).trans (k3 x hx)
    obtain ⟨l, hl⟩ := H.load
    intro g5 h5
    refine .inr ⟨l, d, q, t, hl, H.file, H.path, H.makes, fun hu => by rw [h5.table q H.path]; exact keep k4 hu,
      fun _ => .inr ⟨rfl, R, hR, ⟨csv, hcsv, ?_⟩, ⟨pdf, hpdf, ?_⟩, ⟨config, hconfig, ?_⟩⟩⟩
    · rw [h5.results rfl _ m1, r4 rfl _ m1 n13, hput n12, h3.results rfl _ m1, c2]
    · rw [h5.results rfl _ m2, r4 rfl _ m2 n23]
      exact if_pos rfl
    · rw [h5.results rfl _ m3, c4]
  unfold saveResults
  refine good_read (fun _ => rfl) (fun g e _ h => by cases h) fun g a hg _ => ?_
  split
  · exact hrest g fun x hx => hg.table x hx
  · refine good_mkdir false (fun h => by cases h) (fun g1 e h1 => good_error H (keep fun x hx => (h1.table x hx).trans (hg.table x hx)) e) fun g1 h1 => ?_
    exact hrest g1 fun x hx => (h1 x hx).trans (hg.table x hx)

theorem good_search (H : Ready A fs₀ d q t) {fs : FS F} (hs : A.op ≠ "use".toList → fs.files q = some (A.J.dump t)) :
    Good A fs₀ (searchSave A.J A.stamp A.stamp d t) false fs := by
  unfold searchSave
  split
  · rename_i h
    obtain ⟨l, hl⟩ := H.load
    exact fun g hg => .inr ⟨l, d, q, t, hl, H.file, H.path, H.makes, fun hu => by rw [hg.table q H.path, hs hu], fun _ => .inl h⟩
  · exact good_compute (fun e _ => good_error H hs e) fun R hR => good_save H hs hR

end

/-- The configuration asks for the operation and the table of the run, whatever the directories hold. -/
def Task.Fits (A : Task T F) : Prop := ∀ listdir d, (∀ dir l, listdir dir = .ok l → ∀ f ∈ l, '/' ∉ f) → Config.load listdir A.items = .ok d →
  d "hashtable_file_operation".toList = some (.data (.str A.op)) ∧
  ∃ q, d "hashtable_file".toList = some (.data (.str q)) ∧ TablePath A.table q

theorem good_run {A : Task T F} (hA : A.Fits) (hop : A.op ∈ ["generate".toList, "expand".toList, "use".toList])
    {listdir : FS F → Str → Except PyErr (List Str)} (hl : ∀ fs dir l, listdir fs dir = .ok l → ∀ f ∈ l, '/' ∉ f) (fs₀ : FS F) :
    Good A fs₀ (run A.J listdir A.items A.stamp A.stamp) false fs₀ := by
  unfold run
  refine good_read (fun _ => rfl) (fun g e _ h => good_early (.config h)) fun g d hg hd => ?_
  refine good_compute (fun e h => good_early (.check h)) fun _ _ => ?_
  obtain ⟨ho, q, hq, hpath⟩ := hA _ d (hl g) hd
  rw [ho, hq]
  simp only [dataOf]
  have use_ne : "use".toList ≠ "generate".toList := by decide
  have hbuild : ∀ (g1 : FS F) (t₀ : T), (A.op = "expand".toList ∨ A.op = "generate".toList) →
      (∀ t, A.J.build d t₀ = .ok t → Ready A fs₀ d q t) → Good A fs₀ (buildSearch A.J A.stamp A.stamp d A.op q t₀) false g1 := by
    intro g1 t₀ ho1 hready
    have hu : A.op ≠ "use".toList := by rcases ho1 with h | h <;> rw [h] <;> decide
    unfold buildSearch
    rw [if_pos ho1]
    refine good_compute (fun e h => good_early (.build h)) fun t ht => ?_
    exact good_store (.inl ⟨hu, hpath⟩) (fun _ _ _ => good_early .missing) fun g2 h2 _ _ => good_search (hready t ht) fun _ => h2
  have hread : ∀ (k : T → Prog F), (∀ c t, fs₀.files q = some c → A.J.load c = .ok t → ∀ g1, Good A fs₀ (k t) false g1) →
      Good A fs₀ (access (read A.J q) k) false g := by
    intro k hk
    refine good_read (fun f => ?_) (fun f e hf h => ?_) fun f t hf h => ?_
    · unfold read
      split <;> rfl
    · unfold read at h
      split at h
      · injection h with h
        subst h
        exact good_early .missing
      · exact good_early (.load h)
    · unfold read at h
      split at h
      · cases h
      · rename_i c hc
        refine hk c t ?_ h f
        rw [← hc, hf.table q hpath, hg.table q hpath]
  simp only [List.mem_cons, List.not_mem_nil, or_false] at hop
  unfold obtainSearch
  rcases hop with h | h | h
  · rw [if_neg (by rw [h]; decide), if_neg (by rw [h]; decide), if_pos h]
    refine good_compute (fun e he => good_early (.create he)) fun t₀ h0 => ?_
    exact hbuild g t₀ (.inr h) fun t ht => ⟨⟨_, hd⟩, hq, hpath, by rw [h]; exact .generate h0 ht⟩
  · rw [if_neg (by rw [h]; decide), if_pos h]
    refine hread _ fun c t1 hc h1 g1 => ?_
    refine good_compute (fun e he => good_early (.redefine he)) fun t₀ h0 => ?_
    exact hbuild g1 t₀ (.inl h) fun t ht => ⟨⟨_, hd⟩, hq, hpath, by rw [h]; exact .expand hc h1 h0 ht⟩
  · rw [if_pos h]
    refine hread _ fun c t hc h1 g1 => ?_
    unfold buildSearch
    rw [if_neg (by rw [h]; decide)]
    exact good_search ⟨⟨_, hd⟩, hq, hpath, by rw [h]; exact .use hc h1⟩ fun hu => absurd h hu

/-! ### All runs together -/

/-- The configuration asks for the operation `op` and the table `table`. -/
structure Asks (items : List (Str × Str)) (op table : Str) : Prop where
  operation : ∃ x, Config.written items "hashtable_file_operation".toList = some x ∧ Config.cast .string x = .ok (.data (.str op))
  file : ∃ x p, Config.written items "hashtable_file".toList = some x ∧ Config.cast .path x = .ok (.data (.str p)) ∧
    Names table (Path.split p).2
  plain : PlainTable table
  ne : table ≠ []
  slash : '/' ∉ table

theorem Asks.fits {A : Task T F} (h : Asks A.items A.op A.table) : A.Fits := by
  intro listdir d hl hd
  obtain ⟨d0, f, is, h0, hgen, -, hfin⟩ := load_ok hd
  obtain ⟨x, hx, cx⟩ := h.operation
  obtain ⟨y, p, hy, cy, hn⟩ := h.file
  obtain ⟨v, hv, e⟩ := readItems_written (kind := .string) (by decide) h0 hx
  rw [cx] at hv
  injection hv with hv
  subst hv
  obtain ⟨v, hv, e'⟩ := readItems_written (kind := .path) (by decide) h0 hy
  rw [cy] at hv
  injection hv with hv
  subst hv
  rw [fillMissing, e, fillMissing, e'] at hgen
  obtain ⟨q, rfl, hq⟩ := genFilename_table h.plain h.slash hn hl h.ne hgen
  refine ⟨?_, q, ?_, hq⟩
  · rw [finish_other hfin (by decide), Config.Dict.set, if_neg (by decide), Config.Dict.set, if_neg (by decide), fillMissing, e]
  · rw [finish_other hfin (by decide), Config.Dict.set, if_neg (by decide), Config.Dict.set, if_pos rfl]

section
variable {ι : Type} [DecidableEq ι]

/-- Runs that can be started together: each asks for an operation and a table, and different runs have different tables, unless both only
use theirs. -/
structure Together (A : ι → Task T F) : Prop where
  asks : ∀ i, Asks (A i).items (A i).op (A i).table
  op : ∀ i, (A i).op ∈ ["generate".toList, "expand".toList, "use".toList]
  stamp : ∀ i, Stamp (A i).stamp
  tables : ∀ i j, i ≠ j → (A i).table ≠ (A j).table ∨ (A i).op = "use".toList ∧ (A j).op = "use".toList

/-- All runs at their beginning. -/
def start (A : ι → Task T F) (listdir : FS F → Str → Except PyErr (List Str)) (fs : FS F) : State ι F :=
  ⟨fs, fun i => run (A i).J listdir (A i).items (A i).stamp (A i).stamp⟩

theorem table_paths {s s' q : Str} (hs : PlainTable s) (hs' : PlainTable s') (h : TablePath s q) (h' : TablePath s' q) : s = s' := by
  obtain ⟨d, f, e, hf, ht⟩ := h
  obtain ⟨d', f', e', hf', ht'⟩ := h'
  have : f = f' := by
    have h1 := last_component (d := d) hf
    rw [← e, e', last_component hf'] at h1
    exact h1.symm
  subst this
  exact table_unique hs hs' ht ht'

/-- What is true all the time; `O i` tells that run `i` has made its directory for the results. -/
structure Inv (A : ι → Task T F) (fs₀ : FS F) (O : ι → Bool) (σ : State ι F) : Prop where
  good : ∀ i, Good (A i) fs₀ (σ.runs i) (O i) σ.fs
  dirs : ∀ i, O i = true → σ.fs.dirs (resultsDir (A i).stamp) = true
  stamps : ∀ i j, i ≠ j → O i = true → O j = true → (A i).stamp ≠ (A j).stamp
  others : ∀ q, (∀ i, ¬ (A i).Writes true q) → σ.fs.files q = fs₀.files q

omit [DecidableEq ι] in
theorem guar_rely {A : ι → Task T F} (hA : Together A) {O : ι → Bool} {i j : ι} (hij : i ≠ j)
    (hO : O i = true → O j = true → (A i).stamp ≠ (A j).stamp) {fs fs' : FS F} (h : Guar (A j) (O j) fs fs') : Rely (A i) (O i) fs fs' := by
  refine ⟨h.grows, fun q hq => h.files q ?_, fun hi n hn => h.files _ ?_⟩
  · rintro (⟨hu, hq'⟩ | ⟨-, n, hn, e⟩)
    · rcases hA.tables i j hij with hne | ⟨-, hu'⟩
      · exact hne (table_paths (hA.asks i).plain (hA.asks j).plain hq hq')
      · exact hu hu'
    · exact table_result hq hn e
  · rintro (⟨-, hq'⟩ | ⟨hj, n', hn', e⟩)
    · exact table_result hq' hn rfl
    · exact hO hi hj (resultPath_inj (hA.stamp i) (hA.stamp j) hn hn' e).1

theorem inv_step {A : ι → Task T F} (hA : Together A) {fs₀ : FS F} {O : ι → Bool} {σ σ' : State ι F} (h : Inv A fs₀ O σ) (hs : Step σ σ') :
    ∃ O', Inv A fs₀ O' σ' := by
  cases hs with
  | stop j =>
    refine ⟨O, ⟨fun i => ?_, h.dirs, h.stamps, h.others⟩⟩
    simp only
    by_cases hij : i = j
    · subst hij
      rw [Function.update_self]
      exact good_early .closed
    · rw [Function.update_of_ne hij]
      exact h.good i
  | @act j eff next hj =>
    have hg := h.good j
    rw [hj] at hg
    obtain ⟨hguar, b', hmono, hnew, hgood⟩ := hg σ.fs (.refl _ _ _)
    have hrely : ∀ i, i ≠ j → Rely (A i) (O i) σ.fs (eff σ.fs) := fun i hij => guar_rely hA hij (h.stamps i j hij) hguar
    have hown : O j = false → b' = true → ∀ i, i ≠ j → O i = true → (A i).stamp ≠ (A j).stamp := by
      intro h1 h2 i _ hi e
      have := h.dirs i hi
      rw [e, (hnew h1 h2).1] at this
      cases this
    have hst : ∀ i, i ≠ j → O i = true → b' = true → (A i).stamp ≠ (A j).stamp := by
      intro i hij hi hb
      cases hOj : O j with
      | true => exact h.stamps i j hij hi hOj
      | false => exact hown hOj hb i hij hi
    refine ⟨Function.update O j b', ⟨fun i => ?_, fun i hi => ?_, fun i k hik hi hk => ?_, fun q hq => ?_⟩⟩
    · simp only
      by_cases hij : i = j
      · subst hij
        rw [Function.update_self, Function.update_self]
        exact hgood
      · rw [Function.update_of_ne hij, Function.update_of_ne hij]
        exact (h.good i).rely (hrely i hij)
    · by_cases hij : i = j
      · subst hij
        rw [Function.update_self] at hi
        cases hO : O i with
        | true => exact hguar.grows _ (h.dirs i hO)
        | false => exact (hnew hO hi).2
      · rw [Function.update_of_ne hij] at hi
        exact hguar.grows _ (h.dirs i hi)
    · by_cases hij : i = j
      · subst hij
        rw [Function.update_self] at hi
        rw [Function.update_of_ne (Ne.symm hik)] at hk
        exact (hst k (Ne.symm hik) hk hi).symm
      · rw [Function.update_of_ne hij] at hi
        by_cases hkj : k = j
        · subst hkj
          rw [Function.update_self] at hk
          exact hst i hij hi hk
        · rw [Function.update_of_ne hkj] at hk
          exact h.stamps i k hik hi hk
    · rw [← h.others q hq]
      refine hguar.files q fun hw => hq j ?_
      rcases hw with hw | ⟨-, hw⟩
      · exact .inl hw
      · exact .inr ⟨rfl, hw⟩

theorem inv_steps {A : ι → Task T F} (hA : Together A) {listdir : FS F → Str → Except PyErr (List Str)}
    (hl : ∀ fs dir l, listdir fs dir = .ok l → ∀ f ∈ l, '/' ∉ f) {fs₀ : FS F} {σ : State ι F} (h : Steps (start A listdir fs₀) σ) :
    ∃ O, Inv A fs₀ O σ := by
  have h0 : Inv A fs₀ (fun _ => false) (start A listdir fs₀) :=
    ⟨fun i => good_run (hA.asks i).fits (hA.op i) hl fs₀, fun i (hi : false = true) => (by cases hi),
      fun _ _ _ (hi : false = true) => (by cases hi), fun _ _ => rfl⟩
  generalize hσ : start A listdir fs₀ = σ₀ at h h0
  clear hσ
  induction h with
  | refl => exact ⟨_, h0⟩
  | tail _ hs ih =>
    obtain ⟨O, hO⟩ := ih
    exact inv_step hA hO hs

/-- **C133 (runs at the same time, partial).** For any number of runs of main.py that are started together and in every order of their
accesses to the file system, also if some of them are stopped: if different runs have different tables (or only use them) and the minute does
not change while a run saves its results, then every run that has ended has left behind what it would leave behind alone, and no
file changes but the tables of the runs and their results. -/
theorem C133_runs_partial {A : ι → Task T F} (hA : Together A) {listdir : FS F → Str → Except PyErr (List Str)}
    (hl : ∀ fs dir l, listdir fs dir = .ok l → ∀ f ∈ l, '/' ∉ f) {fs₀ : FS F} {σ : State ι F} (h : Steps (start A listdir fs₀) σ) :
    (∀ i r, σ.runs i = .done r → Left (A i).J (A i).items (A i).op (A i).table (A i).stamp fs₀ r σ.fs) ∧
    ∀ q, (∀ i, (A i).op = "use".toList ∨ ¬ TablePath (A i).table q) → (∀ i, ∀ n ∈ resultNames, q ≠ resultPath (A i).stamp n) →
      σ.fs.files q = fs₀.files q := by
  obtain ⟨O, hO⟩ := inv_steps hA hl h
  refine ⟨fun i r hr => ?_, fun q h1 h2 => hO.others q fun i hw => ?_⟩
  · have hg := hO.good i
    rw [hr] at hg
    rcases hg σ.fs (.refl _ _ _) with he | ⟨l, d, q, t, a1, a2, a3, a4, a5, a6⟩
    · exact .inl he
    · exact .inr ⟨l, d, q, t, a1, a2, a3, a4, a5, fun hk => (a6 hk).imp id fun ⟨_, R⟩ => R⟩
  · rcases hw with ⟨hu, hq⟩ | ⟨-, n, hn, e⟩
    · exact (h1 i).elim hu fun hq' => hq' hq
    · exact h2 i n hn e

/-- **C133 (violated, one minute).** In every order of the steps: if two of these runs search and end in the same minute, they do not both
end normally, so the results of one are lost. -/
theorem C133_minute_violated {A : ι → Task T F} (hA : Together A) {listdir : FS F → Str → Except PyErr (List Str)}
    (hl : ∀ fs dir l, listdir fs dir = .ok l → ∀ f ∈ l, '/' ∉ f) {fs₀ : FS F} {σ : State ι F} (h : Steps (start A listdir fs₀) σ) {i j : ι}
    (hij : i ≠ j) (hs : (A i).stamp = (A j).stamp)
    (hi : ∀ listdir d, Config.load listdir (A i).items = .ok d → Main.truthy (dataOf (d "gen_hashtable_only".toList)) = false)
    (hj : ∀ listdir d, Config.load listdir (A j).items = .ok d → Main.truthy (dataOf (d "gen_hashtable_only".toList)) = false) :
    ¬ (σ.runs i = .done (.ok ()) ∧ σ.runs j = .done (.ok ())) := by
  rintro ⟨ri, rj⟩
  obtain ⟨O, hO⟩ := inv_steps hA hl h
  have key : ∀ k, σ.runs k = .done (.ok ()) →
      (∀ listdir d, Config.load listdir (A k).items = .ok d → Main.truthy (dataOf (d "gen_hashtable_only".toList)) = false) → O k = true := by
    intro k hk hgen
    have hg := hO.good k
    rw [hk] at hg
    rcases hg σ.fs (.refl _ _ _) with ⟨e, he, -⟩ | ⟨l, d, q, t, a1, -, -, -, -, a6⟩
    · cases he
    · rcases a6 rfl with h1 | ⟨h1, -⟩
      · rw [hgen l d a1] at h1
        cases h1
      · exact h1
  exact hO.stamps i j hij (key i ri hi) (key j rj hj) hs

/-! ### Some orders of the steps -/

theorem Steps.trans {σ σ' σ'' : State ι F} (h : Steps σ σ') (h' : Steps σ' σ'') : Steps σ σ'' := by
  induction h' with
  | refl => exact h
  | tail _ hs ih => exact .tail ih hs

theorem Steps.single {σ σ' : State ι F} (h : Step σ σ') : Steps σ σ' := .tail (.refl σ) h

/-- Run `i` goes on alone until it ends. -/
theorem steps_alone (i : ι) : ∀ (p : Prog F) (σ : State ι F), σ.runs i = p →
    Steps σ ⟨(p.alone σ.fs).1, Function.update σ.runs i (.done (p.alone σ.fs).2)⟩
  | .done r, σ, h => by
    have e : Function.update σ.runs i (.done r) = σ.runs := by rw [← h, Function.update_eq_self]
    show Steps σ ⟨σ.fs, Function.update σ.runs i (.done r)⟩
    rw [e]
    exact .refl σ
  | .act eff next, σ, h => by
    have h1 : Steps σ ⟨eff σ.fs, Function.update σ.runs i (next σ.fs)⟩ := .single (.act h)
    have h2 := steps_alone i (next σ.fs) ⟨eff σ.fs, Function.update σ.runs i (next σ.fs)⟩ (Function.update_self ..)
    simp only [Function.update_idem] at h2
    exact h1.trans h2

/-- Run `i` does one access. -/
theorem steps_access {α : Type} {i : ι} {m : PyM (FS F) α} {k : α → Prog F} {σ : State ι F} {fs : FS F} {a : α} (h : σ.runs i = access m k)
    (hm : m σ.fs = (fs, .ok a)) : Steps σ ⟨fs, Function.update σ.runs i (k a)⟩ := by
  have h1 : Steps σ ⟨(m σ.fs).1, Function.update σ.runs i (match (m σ.fs).2 with
    | .error e => .done (.error e)
    | .ok a => k a)⟩ := .single (.act h)
  simp only [hm] at h1
  exact h1

theorem steps_error {α : Type} {i : ι} {m : PyM (FS F) α} {k : α → Prog F} {σ : State ι F} {fs : FS F} {e : PyErr} (h : σ.runs i = access m k)
    (hm : m σ.fs = (fs, .error e)) : Steps σ ⟨fs, Function.update σ.runs i (.done (.error e))⟩ := by
  have h1 : Steps σ ⟨(m σ.fs).1, Function.update σ.runs i (match (m σ.fs).2 with
    | .error e => .done (.error e)
    | .ok a => k a)⟩ := .single (.act h)
  simp only [hm] at h1
  exact h1

end

/-- What a run that only generates a table has to do after its configuration is loaded. -/
theorem run_generate {J : Job T F} {s1 s2 : Str} {d : Config.Dict} {q : Str} {t₀ t : T} (hc : J.check d = .ok ())
    (ho : d "hashtable_file_operation".toList = some (.data (.str "generate".toList)))
    (hq : d "hashtable_file".toList = some (.data (.str q))) (h0 : J.create d = .ok t₀) (h1 : J.build d t₀ = .ok t)
    (hg : Main.truthy (dataOf (d "gen_hashtable_only".toList)) = true) :
    (compute (J.check d) fun _ =>
      match dataOf (d "hashtable_file_operation".toList), dataOf (d "hashtable_file".toList) with
      | .str op, .str file => obtainSearch J s1 s2 d op file
      | _, _ => .done (.error .typeError)) = store J.empty q (J.dump t) (.done (.ok ())) := by
  rw [hc, ho, hq]
  show obtainSearch J s1 s2 d "generate".toList q = _
  rw [obtainSearch, if_neg (by decide), if_neg (by decide), if_pos rfl, h0]
  show buildSearch J s1 s2 d "generate".toList q t₀ = _
  rw [buildSearch, if_pos (.inr rfl), h1]
  show store J.empty q (J.dump t) (searchSave J s1 s2 d t) = _
  rw [searchSave, if_pos hg]

/-- **C133 (violated, same table).** If two runs that only generate tables have the same file for them, because both look into the directory
before the other has stored its table, then there is an order of the steps in which both end normally and only one table is stored. -/
theorem C133_same_table_violated {A : Bool → Task T F} {listdir : FS F → Str → Except PyErr (List Str)} {fs : FS F} {d : Bool → Config.Dict}
    {q : Str} {t₀ t : Bool → T} (hl : ∀ b, Config.load (listdir fs) (A b).items = .ok (d b)) (hc : ∀ b, (A b).J.check (d b) = .ok ())
    (ho : ∀ b, d b "hashtable_file_operation".toList = some (.data (.str "generate".toList)))
    (hq : ∀ b, d b "hashtable_file".toList = some (.data (.str q))) (h0 : ∀ b, (A b).J.create (d b) = .ok (t₀ b))
    (h1 : ∀ b, (A b).J.build (d b) (t₀ b) = .ok (t b)) (hg : ∀ b, Main.truthy (dataOf (d b "gen_hashtable_only".toList)) = true)
    (hd : fs.dirs (Path.split q).1 = true) :
    ∃ σ, Steps (start A listdir fs) σ ∧ (∀ b, σ.runs b = .done (.ok ())) ∧ σ.fs.files q = some ((A true).J.dump (t true)) ∧
      ∀ p, p ≠ q → σ.fs.files p = fs.files p := by
  have hw : ∀ (g : FS F) (c : F), g.dirs = fs.dirs → write q c g = (put g q c, .ok ()) := by
    intro g c hg
    rw [write, if_neg (by simp [hg, hd])]
    rfl
  have hone : ∀ b (g : FS F), g.dirs = fs.dirs →
      ((store (A b).J.empty q ((A b).J.dump (t b)) (.done (.ok ())) : Prog F).alone g) = (put g q ((A b).J.dump (t b)), .ok ()) := by
    intro b g hg
    rw [alone_store, alone_done]
    exact hw g _ hg
  have s1 : Steps (start A listdir fs) ⟨fs, Function.update (start A listdir fs).runs false
      (store (A false).J.empty q ((A false).J.dump (t false)) (.done (.ok ())))⟩ := by
    rw [← run_generate (s1 := (A false).stamp) (s2 := (A false).stamp) (hc false) (ho false) (hq false) (h0 false) (h1 false) (hg false)]
    exact steps_access (i := false) (m := loadConfig listdir (A false).items) (σ := start A listdir fs) (a := d false) rfl
      (congrArg (Prod.mk fs) (hl false))
  have s2 : Steps (start A listdir fs) ⟨fs, Function.update (Function.update (start A listdir fs).runs false
      (store (A false).J.empty q ((A false).J.dump (t false)) (.done (.ok ())))) true
      (store (A true).J.empty q ((A true).J.dump (t true)) (.done (.ok ())))⟩ := by
    refine s1.trans ?_
    rw [← run_generate (J := (A true).J) (s1 := (A true).stamp) (s2 := (A true).stamp) (hc true) (ho true) (hq true) (h0 true) (h1 true) (hg true)]
    exact steps_access (i := true) (m := loadConfig listdir (A true).items) (a := d true)
      (σ := ⟨fs, Function.update (start A listdir fs).runs false (store (A false).J.empty q ((A false).J.dump (t false)) (.done (.ok ())))⟩)
      rfl (congrArg (Prod.mk fs) (hl true))
  have s3 := s2.trans (steps_alone false (store (A false).J.empty q ((A false).J.dump (t false)) (.done (.ok ()))) _ rfl)
  simp only [hone false fs rfl] at s3
  have s4 := s3.trans (steps_alone true (store (A true).J.empty q ((A true).J.dump (t true)) (.done (.ok ()))) _ rfl)
  simp only at s4
  rw [hone true (put fs q ((A false).J.dump (t false))) rfl] at s4
  refine ⟨_, s4, fun b => ?_, if_pos rfl, fun p hp => ?_⟩
  · cases b <;> rfl
  · show (if p = q then _ else (if p = q then _ else _)) = _
    rw [if_neg hp, if_neg hp]

theorem write_dirs (p : Str) (c : F) (fs : FS F) : (write p c fs).1.dirs = fs.dirs := by
  rw [write]
  split_ifs <;> rfl

theorem mkdir_dirs {p : Str} {fs g : FS F} {r : Except PyErr Unit} (h : mkdir p fs = (g, r)) : ∀ q, fs.dirs q = true → g.dirs q = true := by
  intro q hq
  rw [mkdir] at h
  split_ifs at h
  · cases h; exact hq
  · cases h; exact hq
  · cases h
    show (if _ then true else _) = true
    rw [hq, ite_self]

theorem afterDir_dirs (R : Results F) (s : Str) (fs : FS F) : (afterDir R s fs).1.dirs = fs.dirs := by
  have hbind : ∀ {α β : Type} {m : PyM (FS F) α} {k : α → PyM (FS F) β}, (∀ g, (m g).1.dirs = g.dirs) → (∀ a g, (k a g).1.dirs = g.dirs) →
      ∀ g, ((m >>= k) g).1.dirs = g.dirs := by
    intro α β m k hm hk g
    rcases h : m g with ⟨g', e | a⟩
    · rw [PyM.bind_error h, ← hm g, h]
    · rw [PyM.bind_ok h, hk, ← hm g, h]
  have hlift : ∀ {α : Type} (r : Except PyErr α) (g : FS F), ((lift r : PyM (FS F) α) g).1.dirs = g.dirs := fun r g => rfl
  exact hbind (hlift _) (fun c => hbind (write_dirs _ c) fun _ => hbind (hlift _) fun _ => hbind (hlift _) fun p =>
    hbind (write_dirs _ p) fun _ => hbind (hlift _) fun g => write_dirs _ g) fs

/-- **C133 (violated, clock).** If the minute changes between the two readings of the clock of a run, this run writes its results into the
directory of the next minute: if another run ends in that minute, there is an order of the steps in which both end normally and the
results of the other run are replaced. -/
theorem C133_clock_violated {J J' : Job T F} {R R' : Results F} {s s' : Str} (hs : Stamp s) (hs' : Stamp s') (hne : s ≠ s') {fs : FS F}
    (hcons : Consistent fs) (hb : fs.dirs base = true)
    (hd : fs.dirs (resultsDir s) = false) (hf : fs.files (resultsDir s) = none)
    (hd' : fs.dirs (resultsDir s') = false) (hf' : fs.files (resultsDir s') = none) {c c' p p' g g' : F}
    (hR : R.csv = .ok c ∧ R.eqns = .ok () ∧ R.pdf = .ok p ∧ R.config = .ok g)
    (hR' : R'.csv = .ok c' ∧ R'.eqns = .ok () ∧ R'.pdf = .ok p' ∧ R'.config = .ok g') :
    ∃ σ, Steps ⟨fs, fun b => if b = true then saveResults J s s' R else saveResults J' s' s' R'⟩ σ ∧ (∀ b, σ.runs b = .done (.ok ())) ∧
      HasResults σ.fs s' R := by
  let σ₀ : State Bool F := ⟨fs, fun b => if b = true then saveResults J s s' R else saveResults J' s' s' R'⟩
  have s1 : Steps σ₀ ⟨fs, Function.update σ₀.runs true (saveIn J s s' R)⟩ := by
    exact steps_access (i := true) (σ := σ₀) (m := isBase) (a := true) (fs := fs)
      (k := fun isdir => if isdir then saveIn J s s' R else access (mkdir base) fun _ => saveIn J s s' R) rfl
      (by show (fs, Except.ok (fs.dirs base)) = _; rw [hb])
  let fs1 : FS F := { fs with dirs := fun q => if q = resultsDir s then true else fs.dirs q }
  have hm : mkdir (resultsDir s) fs = (fs1, .ok ()) := by
    rw [mkdir, if_neg (by simp [hd, hf]), split_dir hs, if_neg (by simp [hb])]
  let rest : Prog F := compute R.csv fun csv =>
    store J.empty (resultsFile s' "results.csv".toList) csv <|
    compute R.eqns fun _ =>
    compute R.pdf fun pdf =>
    access (write (resultsFile s' "results.pdf".toList) pdf) fun _ =>
    compute R.config fun config =>
    store J.empty (resultsFile s' "config.ini".toList) config <|
    .done (.ok ())
  have hrest : rest.alone = afterDir R s' := by
    simp only [rest, alone_store, alone_compute, alone_access, alone_done]
    rfl
  have s2 : Steps σ₀ ⟨fs1, Function.update σ₀.runs true rest⟩ := by
    have := s1.trans (steps_access (i := true) (m := mkdir (resultsDir s)) (k := fun _ => rest) rfl hm)
    simpa only [Function.update_idem] using this
  have hcons1 : Consistent fs1 := by
    intro x hx
    rcases hcons x hx with h | h
    · exact .inl h
    · right
      show (if _ then true else _) = true
      rw [h, ite_self]
  have hdir' : resultsDir s' ≠ resultsDir s := by
    rw [resultsDir, resultsDir]
    intro e
    exact hne (List.cons.inj (List.append_cancel_left e)).2.symm
  have hd1 : fs1.dirs (resultsDir s') = false := by
    show (if _ then true else _) = false
    rw [if_neg hdir', hd']
  have hb1 : fs1.dirs base = true := by
    simp [fs1, hb]
  have s3 := s2.trans (steps_alone false (saveResults J' s' s' R') _ rfl)
  simp only [alone_save] at s3
  obtain ⟨-, hfin⟩ := C99_results_partial R' hs' hcons1
  obtain ⟨hcsv, hall⟩ := hfin (.inl hb1) hd1 hf'
  obtain ⟨hok, -⟩ := hall c' p' g' hR'.1 hR'.2.1 hR'.2.2.1 hR'.2.2.2
  have hdirs : (finishRun R' s' s' fs1).1.dirs (resultsDir s') = true := by
    have h1 : ensureResults fs1 = (fs1, .ok ()) := if_pos hb1
    have h2 : mkdir (resultsDir s') fs1 = ({ fs1 with dirs := fun q => if q = resultsDir s' then true else fs1.dirs q }, .ok ()) := by
      rw [mkdir, if_neg (by rw [hd1]; simp [fs1, hf']), split_dir hs', if_neg (by simp [hb1])]
    rw [finishRun_eq, PyM.bind_ok h1, PyM.bind_ok h2]
    rw [afterDir_dirs]
    simp
  have s4 := s3.trans (steps_alone true rest _ rfl)
  simp only [hrest] at s4
  have hsince : Since (finishRun R' s' s' fs1).1 s' (finishRun R' s' s' fs1).1 := ⟨hdirs, fun _ _ => rfl⟩
  obtain ⟨-, a1, a2⟩ := afterDir_spec R hs' hsince
  obtain ⟨b1, b2, b3⟩ := a2 c p g hR.1 hR.2.1 hR.2.2.1 hR.2.2.2
  refine ⟨_, s4, fun b => ?_, ⟨c, hR.1, a1 c hR.1⟩, ⟨p, hR.2.2.1, b2⟩, ⟨g, hR.2.2.2, b3⟩⟩
  cases b
  · exact congrArg Prog.done hok
  · exact congrArg Prog.done b1

/-- **C133 (violated, first results).** If there is no directory 'results' yet and two runs look for it before one of them makes it, the
results of one are lost, also if the runs end in different minutes: there is an order of the steps in which one ends normally, the
other with FileExistsError and without a directory for its results. -/
theorem C133_race_violated {J J' : Job T F} {R R' : Results F} {s s' : Str} (hs' : Stamp s') (hne : s ≠ s') {fs : FS F}
    (hcons : Consistent fs) (hb : fs.dirs base = false) (hbf : fs.files base = none) (hd : fs.dirs (resultsDir s) = false)
    (hd' : fs.dirs (resultsDir s') = false) (hf' : fs.files (resultsDir s') = none) {c' p' g' : F}
    (hR' : R'.csv = .ok c' ∧ R'.eqns = .ok () ∧ R'.pdf = .ok p' ∧ R'.config = .ok g') :
    ∃ σ, Steps ⟨fs, fun b => if b = true then saveResults J s s R else saveResults J' s' s' R'⟩ σ ∧
      σ.runs true = .done (.error .fileExists) ∧ σ.fs.dirs (resultsDir s) = false ∧ σ.runs false = .done (.ok ()) ∧
      HasResults σ.fs s' R' := by
  let σ₀ : State Bool F := ⟨fs, fun b => if b = true then saveResults J s s R else saveResults J' s' s' R'⟩
  have s1 : Steps σ₀ ⟨fs, Function.update σ₀.runs true (access (mkdir base) fun _ => saveIn J s s R)⟩ := by
    exact steps_access (i := true) (σ := σ₀) (m := isBase) (a := false) (fs := fs)
      (k := fun isdir => if isdir then saveIn J s s R else access (mkdir base) fun _ => saveIn J s s R) rfl
      (by show (fs, Except.ok (fs.dirs base)) = _; rw [hb])
  have s2 := s1.trans (steps_alone false (saveResults J' s' s' R') _ rfl)
  simp only [alone_save] at s2
  obtain ⟨-, hfin⟩ := C99_results_partial R' hs' hcons
  obtain ⟨hcsv, hall⟩ := hfin (.inr (by simp [hbf])) hd' hf'
  obtain ⟨hok, hpdf, hcfg⟩ := hall c' p' g' hR'.1 hR'.2.1 hR'.2.2.1 hR'.2.2.2
  have hdirs : (finishRun R' s' s' fs).1.dirs = fun q => if q = resultsDir s' then true else if q = base then true else fs.dirs q := by
    have h1 : ensureResults fs = ({ fs with dirs := fun q => if q = base then true else fs.dirs q }, .ok ()) := by
      rw [ensureResults, if_neg (by simp [hb]), mkdir, if_neg (by simp [hb, hbf]), if_neg (by rw [show (Path.split base).1 = [] by decide]; simp)]
    have hnb : resultsDir s' ≠ base := by
      rw [resultsDir]
      intro e
      have := congrArg List.length e
      simp at this
    have h2 : mkdir (resultsDir s') { fs with dirs := fun q => if q = base then true else fs.dirs q } =
        ({ fs with dirs := fun q => if q = resultsDir s' then true else if q = base then true else fs.dirs q }, .ok ()) := by
      rw [mkdir, if_neg (by simp [hd', hf', hnb]), split_dir hs', if_neg (by simp)]
    rw [finishRun_eq, PyM.bind_ok h1, PyM.bind_ok h2, afterDir_dirs]
  have hbase : (finishRun R' s' s' fs).1.dirs base = true := by simp [hdirs]
  have hnone : (finishRun R' s' s' fs).1.dirs (resultsDir s) = false := by
    rw [hdirs]
    have h1 : resultsDir s ≠ resultsDir s' := by
      rw [resultsDir, resultsDir]
      intro e
      exact hne (List.cons.inj (List.append_cancel_left e)).2
    have h2 : resultsDir s ≠ base := by
      rw [resultsDir]
      intro e
      have := congrArg List.length e
      simp at this
    simp [h1, h2, hd]
  have s3 := s2.trans (steps_error (i := true) (m := mkdir base) (k := fun _ => saveIn J s s R) (e := .fileExists)
    (fs := (finishRun R' s' s' fs).1) rfl
    (by show mkdir base (finishRun R' s' s' fs).1 = _; rw [mkdir, if_pos (by simp [hbase])]))
  refine ⟨_, s3, rfl, hnone, ?_, ⟨c', hR'.1, hcsv c' hR'.1⟩, ⟨p', hR'.2.2.1, hpdf⟩, ⟨g', hR'.2.2.2, hcfg⟩⟩
  exact congrArg Prog.done hok

/-- **C133 (violated, lost results).** Such executions exist: two searches that end in the same minute, whatever their results are, can
run one after the other, and the second one raises FileExistsError and writes nothing. -/
theorem C133_lost_violated {J J' : Job T F} {R R' : Results F} {s : Str} (hs : Stamp s) {fs : FS F} (hcons : Consistent fs)
    (hb : fs.dirs base = true) (hd : fs.dirs (resultsDir s) = false) (hf : fs.files (resultsDir s) = none) {c p g : F}
    (hR : R.csv = .ok c ∧ R.eqns = .ok () ∧ R.pdf = .ok p ∧ R.config = .ok g) :
    ∃ σ, Steps ⟨fs, fun b => if b = true then saveResults J s s R else saveResults J' s s R'⟩ σ ∧
      σ.runs true = .done (.ok ()) ∧ HasResults σ.fs s R ∧ σ.runs false = .done (.error .fileExists) := by
  have s1 : Steps (⟨fs, fun b => if b = true then saveResults J s s R else saveResults J' s s R'⟩ : State Bool F) _ :=
    steps_alone true (saveResults J s s R) _ rfl
  simp only [alone_save] at s1
  obtain ⟨-, hfin⟩ := C99_results_partial R hs hcons
  obtain ⟨hcsv, hall⟩ := hfin (.inl hb) hd hf
  obtain ⟨hok, hpdf, hcfg⟩ := hall c p g hR.1 hR.2.1 hR.2.2.1 hR.2.2.2
  have hdirs : (finishRun R s s fs).1.dirs = fun q => if q = resultsDir s then true else fs.dirs q := by
    have h1 : ensureResults fs = (fs, .ok ()) := if_pos hb
    have h2 : mkdir (resultsDir s) fs = ({ fs with dirs := fun q => if q = resultsDir s then true else fs.dirs q }, .ok ()) := by
      rw [mkdir, if_neg (by simp [hd, hf]), split_dir hs, if_neg (by simp [hb])]
    rw [finishRun_eq, PyM.bind_ok h1, PyM.bind_ok h2, afterDir_dirs]
  have s2 := s1.trans (steps_alone false (saveResults J' s s R') _ rfl)
  simp only [alone_save] at s2
  rw [C99_same_minute_violated R' (by simp [hdirs, hb]) (by simp [hdirs])] at s2
  exact ⟨_, s2, congrArg Prog.done hok, ⟨⟨c, hR.1, hcsv c hR.1⟩, ⟨p, hR.2.2.1, hpdf⟩, ⟨g, hR.2.2.2, hcfg⟩⟩, rfl⟩

/-! ### The parts of a distributed run -/

open PiCF.DistributeMain PiCF.Distribute PiCF.Json PiCF.EnumPoly

/-- The name of the table of part `i`. -/
def partTable (table : Str) (i : ℕ) : Str := table ++ "_part".toList ++ twoDigits i

theorem last_nondigit {a b x y : Str} {c c' : Char} (hx : ∀ z ∈ x, isDigit z = true) (hy : ∀ z ∈ y, isDigit z = true)
    (hc : isDigit c = false) (hc' : isDigit c' = false) (e : a ++ c :: x = b ++ c' :: y) : c = c' := by
  have key : ∀ {a x : Str} {c : Char}, (∀ z ∈ x, isDigit z = true) → isDigit c = false →
      (a ++ c :: x).reverse.dropWhile isDigit = c :: a.reverse := by
    intro a x c hx hc
    have e : (a ++ c :: x).reverse = x.reverse ++ c :: a.reverse := by simp
    rw [e, List.dropWhile_append_of_pos fun z hz => hx z (List.mem_reverse.1 hz), List.dropWhile_cons_of_neg (by simp [hc])]
  have := congrArg (fun l : Str => l.reverse.dropWhile isDigit) e
  simp only [key hx hc, key hy hc'] at this
  exact (List.cons.inj this).1

theorem partTable_plain {table : Str} (h : '.' ∉ table) (i : ℕ) : PlainTable (partTable table i) := by
  refine ⟨fun hm => ?_, ?_⟩
  · rw [partTable, List.mem_append, List.mem_append] at hm
    rcases hm with (hm | hm) | hm
    · exact h hm
    · exact absurd hm (by decide)
    · exact absurd (lower_pad i _ hm) (by decide)
  · rw [← endsVersion_iff]
    rintro ⟨t, ds, e, -, hd⟩
    have := last_nondigit (a := table ++ "_par".toList) (b := t ++ ['_']) (c := 't') (c' := 'v') (lower_pad i) hd (by decide) (by decide)
      (by rw [partTable] at e; simpa using e)
    exact absurd this (by decide)

theorem partTable_inj {tdir table : Str} (h : ConfigPath tdir table "pkl".toList) {i j : ℕ} (e : partTable table i = partTable table j) :
    i = j := by
  refine C77_hashtable_names (configPath tdir table "pkl".toList) ?_
  rw [partHashtable_eq h, partHashtable_eq h, tableOfPart, tableOfPart]
  rw [partTable, partTable] at e
  simp only [List.append_assoc] at e ⊢
  rw [← List.append_assoc "_part".toList, ← List.append_assoc "_part".toList, List.append_cancel_left e]

theorem partTable_slash {tdir table : Str} (h : ConfigPath tdir table "pkl".toList) (i : ℕ) : '/' ∉ partTable table i := by
  intro hm
  rw [partTable, List.mem_append, List.mem_append] at hm
  rcases hm with (hm | hm) | hm
  · exact h.hname hm
  · exact absurd hm (by decide)
  · exact absurd (lower_pad i _ hm) (by decide)

theorem split_snd (p : Str) : (Path.split p).2 = (Path.rsplitSlash p).2 := by
  unfold Path.split
  dsimp only
  split_ifs <;> rfl

theorem split_part {tdir table : Str} (h : ConfigPath tdir table "pkl".toList) (i : ℕ) :
    (Path.split (tableOfPart tdir table i)).2 = partTable table i ++ ".pkl".toList := by
  have e : tableOfPart tdir table i = tdir ++ (partTable table i ++ ".pkl".toList) := by simp [tableOfPart, partTable]
  have hs : '/' ∉ partTable table i ++ ".pkl".toList := by
    rw [List.mem_append, not_or]
    exact ⟨partTable_slash h i, by decide⟩
  rcases h.hdir with rfl | hd
  · rw [e, List.nil_append, split_noslash hs]
  · obtain ⟨d', rfl⟩ := List.getLast?_eq_some_iff.1 hd
    rw [e, split_snd, List.append_assoc]
    exact last_component hs

theorem genFilename_str {listdir : Str → Except PyErr (List Str)} {op : Val} {p : Str} {f : Val} (h : genFilename listdir op (.str p) = .ok f) :
    ∃ q, f = .str q := by
  unfold genFilename at h
  dsimp only at h
  split_ifs at h
  · injection h with h
    exact ⟨_, h.symm⟩
  all_goals
    split at h
    · cases h
    · obtain ⟨z, -, hz⟩ := map_ok h
      exact ⟨_, hz⟩

/-- What the configuration of a part asks for. -/
theorem asks_part {d : Config.Dict} {tdir table op : Str} (ht : ConfigPath tdir table "pkl".toList)
    (hp : PlainPath (configPath tdir table "pkl".toList)) (hdot : '.' ∉ table)
    (hop : d "hashtable_file_operation".toList = some (.data (.str op))) (hmem : op ∈ ["generate".toList, "expand".toList, "use".toList])
    {part : Ranges × Ranges} {i : ℕ} {saved : File} (hs : save (partDict d part i (configPath tdir table "pkl".toList)) = .ok saved) :
    Asks saved op (partTable table i) := by
  refine ⟨?_, ?_, partTable_plain hdot i, fun e => ?_, partTable_slash ht i⟩
  · obtain ⟨v, t, hv, hset, hw⟩ := saved_written hs (k := "hashtable_file_operation".toList) (kind := .string) (by decide)
    rw [partDict_other (by decide) (by decide) (by decide), hop] at hv
    injection hv with hv
    subst hv
    rw [setText_other (by decide)] at hset
    injection hset with hset
    subst hset
    refine ⟨_, hw, ?_⟩
    simp only [List.mem_cons, List.not_mem_nil, or_false] at hmem
    rcases hmem with rfl | rfl | rfl <;> rfl
  · obtain ⟨v, t, hv, hset, hw⟩ := saved_written hs (k := "hashtable_file".toList) (kind := .path) (by decide)
    rw [partDict_file, partHashtable_eq ht] at hv
    injection hv with hv
    subst hv
    rw [setText_other (by decide)] at hset
    injection hset with hset
    subst hset
    refine ⟨_, _, hw, tableOfPart_path ht hp i, ?_⟩
    rw [split_part ht]
    exact .pkl fun h => (partTable_plain hdot i).noVersion (endsVersion_iff.1 h)
  · have := congrArg List.length e
    simp [partTable] at this

/-- **C133 (partial): the parts of a distributed run.** For the configurations of C107 whose table has a name without dots: the
configuration files that distribute_run writes can be run together.  For every execution, in which each part gets its own search, minute
of its results and order of its steps: whatever part has ended, its configuration has the ranges of this part, its table is the one it
makes alone and is still stored, and so are its results, if it has searched. -/
theorem C133_parts_partial {listdir : Str → Except PyErr (List Str)} {items : File} {d : Config.Dict} {name ext tdir table op : Str} {k : ℕ}
    {a b : Ranges} {parts : List (Ranges × Ranges)} {fs : FS File} (h : load listdir items = .ok d)
    (hl : d "lhs_type".toList = some (.data .null))
    (hj : ∀ k ∈ listOptions, ∀ v, d k = some v → v = .data .null ∨ ∃ j, v = .data j ∧ IntLists j)
    (ha : d "a_coeffs_range".toList = some (.data (rangesVal a))) (hb : d "b_coeffs_range".toList = some (.data (rangesVal b)))
    (hparts : splitParams k (a, b) = .ok parts)
    (ht : ConfigPath tdir table "pkl".toList) (hp : PlainPath (configPath tdir table "pkl".toList)) (hdot : '.' ∉ table)
    (hq : d "hashtable_file".toList = some (.data (.str (configPath tdir table "pkl".toList))))
    (hop : d "hashtable_file_operation".toList = some (.data (.str op)))
    (hc : ConfigPath [] name ext) (hfs : fs.files (dirOfParts [] name k) = none) :
    ∃ (fs' : FS File) (saved : Fin parts.length → File), main listdir (2 ^ k) (configPath [] name ext) items fs = (fs', .ok ()) ∧
      (∀ i : Fin parts.length, fs'.files (dirOfParts [] name k ++ '/' :: nameOfPart name ext i) = some (saved i)) ∧
      (∀ i listdir' d', load listdir' (saved i) = .ok d' →
        d' "a_coeffs_range".toList = some (.data (rangesVal parts[i].1)) ∧ d' "b_coeffs_range".toList = some (.data (rangesVal parts[i].2)) ∧
        ∀ key, (kindOf key).isSome → key ∉ ["a_coeffs_range".toList, "b_coeffs_range".toList, "hashtable_file".toList] → d' key = d key) ∧
      ∀ (T F : Type) (J : Fin parts.length → Job T F) (stamp : Fin parts.length → Str), (∀ i, Stamp (stamp i)) →
        ∀ (ls : FS F → Str → Except PyErr (List Str)), (∀ fs dir l, ls fs dir = .ok l → ∀ f ∈ l, '/' ∉ f) →
        ∀ (fs₀ : FS F) (σ : State (Fin parts.length) F),
          Steps ⟨fs₀, fun i => run (J i) ls (saved i) (stamp i) (stamp i)⟩ σ →
          ∀ i r, σ.runs i = .done r → Left (J i) (saved i) op (partTable table i) (stamp i) fs₀ r σ.fs := by
  obtain ⟨op', hmem, hop', -⟩ := C74_auto h
  have : op' = op := by
    rw [hop] at hop'
    injection hop' with hop'; injection hop' with hop'; injection hop' with hop'
    exact hop'.symm
  subst this
  obtain ⟨hlen, fs', h1, h2, h3, h4⟩ := C107_parts_partial h hl hj ha hb hparts ht hp hq hop hc hfs
  have hpath : ∀ i, partConfig (configPath [] name ext) k i = dirOfParts [] name k ++ '/' :: nameOfPart name ext i := by
    intro i
    rw [partConfig_eq hc, if_neg (by simp), List.nil_append]
  have hsplit : ∀ i, (Path.split (dirOfParts [] name k ++ '/' :: nameOfPart name ext i)).1 = dirOfParts [] name k := by
    intro i
    rw [Output.split_join (dirOfParts_ne _ _ _) (dirOfParts_last _ _ _) (nameOfPart_slash hc i)]
  obtain ⟨fs'', g1, -, -, g4⟩ := main_ok (configfile := configPath [] name ext) (fs := fs) h ha hb hq hparts
    (by rw [distroDir_eq hc]; exact hfs)
    (.inl (by rw [distroDir_eq hc, split_noslash (dirOfParts_slash hc k)]))
    (fun j => .inr (.inl (by rw [hpath, hsplit, distroDir_eq hc])))
  rw [h1] at g1
  injection g1 with g1
  subst g1
  choose saved e1 e2 using fun i : Fin parts.length => g4 i i.2
  have hask : ∀ i, Asks (saved i) op' (partTable table i) := fun i => asks_part ht hp hdot hop hmem (e2 i)
  refine ⟨fs', saved, h1, fun i => by rw [← hpath]; exact e1 i, fun i listdir' d' hd' => ?_, ?_⟩
  · obtain ⟨s', hs', hgood⟩ := h4 i i.2
    rw [← hpath, e1 i] at hs'
    injection hs' with hs'
    subst hs'
    obtain ⟨d0, f, is, h0, hgen, -, hfin⟩ := load_ok hd'
    obtain ⟨x, hx, cx⟩ := (hask i).operation
    obtain ⟨v, t, hv, hset, hw⟩ := saved_written (e2 i) (k := "hashtable_file".toList) (kind := .path) (by decide)
    rw [partDict_file, partHashtable_eq ht] at hv
    injection hv with hv
    subst hv
    rw [setText_other (by decide)] at hset
    injection hset with hset
    subst hset
    obtain ⟨v, hv, e⟩ := readItems_written (kind := .string) (by decide) h0 hx
    rw [cx] at hv
    injection hv with hv
    subst hv
    obtain ⟨v, hv, e'⟩ := readItems_written (kind := .path) (by decide) h0 hw
    rw [show (Value.data (.str (tableOfPart tdir table i))).str = tableOfPart tdir table i from rfl, tableOfPart_path ht hp i] at hv
    injection hv with hv
    subst hv
    rw [fillMissing, e, fillMissing, e'] at hgen
    obtain ⟨q, rfl⟩ := genFilename_str hgen
    obtain ⟨d'', hd'', a1, a2, -, a4⟩ := hgood listdir' q hgen
    rw [hd'] at hd''
    injection hd'' with hd''
    subst hd''
    exact ⟨a1, a2, a4⟩
  · intro T F J stamp hstamp ls hls fs₀ σ hσ i r hr
    let A : Fin parts.length → Task T F := fun i => ⟨J i, saved i, op', partTable table i, stamp i⟩
    have hA : Together A := ⟨hask, fun _ => hmem, hstamp, fun i j hij => .inl fun e => hij (Fin.ext (partTable_inj ht e))⟩
    exact (C133_runs_partial hA hls (σ := σ) hσ).1 i r hr

/-! ### Examples -/

/-- Tables and files are numbers; a new table is 0, building adds 1, the results tell the table. -/
def toy : Job ℕ ℕ where
  check _ := .ok ()
  create _ := .ok 0
  redefine _ t := .ok t
  build _ t := .ok (t + 1)
  search _ t := .ok ⟨.ok t, .ok (), .ok t, .ok t⟩
  dump t := t
  load c := .ok c
  empty := 0

/-- The same, but building adds 2. -/
def toy2 : Job ℕ ℕ := { toy with build := fun _ t => .ok (t + 2) }

/-- A search with the stored table `g`. -/
def useItems : File :=
  [("hashtable_file_operation".toList, "use".toList), ("hashtable_file".toList, "t/g.pkl".toList),
   ("postproc_funcs_filter".toList, "[\"safe_inverse\"]".toList), ("gen_hashtable_only".toList, "auto".toList),
   ("a_coeffs_range".toList, "[[[0, 5], [-3, 4]]]".toList), ("b_coeffs_range".toList, "[[[1, 2], [0, 3]]]".toList)]

theorem plain_h : PlainTable "h".toList := by
  refine ⟨by decide, ?_⟩
  rintro ⟨t, ds, e, -, -⟩
  have := congrArg List.length e
  simp at this
  omega

theorem plain_g : PlainTable "g".toList := by
  refine ⟨by decide, ?_⟩
  rintro ⟨t, ds, e, -, -⟩
  have := congrArg List.length e
  simp at this
  omega

theorem asks_search : Asks searchItems "generate".toList "h".toList :=
  ⟨⟨"generate".toList, by decide +kernel, rfl⟩,
    ⟨"h.pkl".toList, "h.pkl".toList, by decide +kernel, rfl, .pkl fun h => plain_h.noVersion (endsVersion_iff.1 h)⟩, plain_h, by decide, by decide⟩

theorem asks_use : Asks useItems "use".toList "g".toList :=
  ⟨⟨"use".toList, by decide +kernel, rfl⟩,
    ⟨"t/g.pkl".toList, "t/g.pkl".toList, by decide +kernel, rfl, .pkl fun h => plain_g.noVersion (endsVersion_iff.1 h)⟩, plain_g, by decide,
    by decide⟩

/-- One run generates the table `h`, two runs use `g`; all end in the same minute. -/
def three : Fin 3 → Task ℕ ℕ
  | 0 => ⟨toy, searchItems, "generate".toList, "h".toList, "171126_0042".toList⟩
  | 1 => ⟨toy, useItems, "use".toList, "g".toList, "171126_0042".toList⟩
  | 2 => ⟨toy2, useItems, "use".toList, "g".toList, "171126_0042".toList⟩

/-- The hypotheses of `C133_runs_partial` hold. -/
theorem three_together : Together three where
  asks
    | 0 => asks_search
    | 1 => asks_use
    | 2 => asks_use
  op
    | 0 => by decide
    | 1 => by decide
    | 2 => by decide
  stamp
    | 0 => ⟨by decide, by decide⟩
    | 1 => ⟨by decide, by decide⟩
    | 2 => ⟨by decide, by decide⟩
  tables
    | 0, 1, _ => .inl (by decide)
    | 0, 2, _ => .inl (by decide)
    | 1, 0, _ => .inl (by decide)
    | 2, 0, _ => .inl (by decide)
    | 1, 2, _ => .inr ⟨rfl, rfl⟩
    | 2, 1, _ => .inr ⟨rfl, rfl⟩
    | 0, 0, h => absurd rfl h
    | 1, 1, h => absurd rfl h
    | 2, 2, h => absurd rfl h

/-- A listing in which `g.pkl` is in the directory `t`. -/
def listG : FS ℕ → Str → Except PyErr (List Str) := fun _ d => .ok (if d = "t".toList then ["g.pkl".toList] else [])

example : ∀ fs dir l, listG fs dir = .ok l → ∀ f ∈ l, '/' ∉ f := by
  intro fs dir l h
  rw [listG] at h
  injection h with h
  subst h
  split_ifs
  · decide
  · exact fun f hf => absurd hf (by simp)

/-- The hypotheses of `C133_minute_violated` hold for the two searches. -/
example : (1 : Fin 3) ≠ 2 ∧ (three 1).stamp = (three 2).stamp ∧ ∀ i ∈ [(1 : Fin 3), 2],
    ∀ listdir d, Config.load listdir (three i).items = .ok d → Main.truthy (dataOf (d "gen_hashtable_only".toList)) = false := by
  have key : ∀ listdir d, Config.load listdir useItems = .ok d → Main.truthy (dataOf (d "gen_hashtable_only".toList)) = false := by
    intro listdir d h
    obtain ⟨op, -, ho, hg⟩ := C74_auto h
    have := load_string h (k := "hashtable_file_operation".toList) (t := "use".toList) (by decide) (by decide +kernel) (by decide)
    rw [ho, show stringParser "use".toList = .str "use".toList by rfl] at this
    simp only [Option.some.injEq, Value.data.injEq, Json.Val.str.injEq] at this
    rw [((hg "auto".toList (by decide +kernel)).1 rfl).2 this]
    rfl
  refine ⟨by decide, rfl, fun i hi => ?_⟩
  simp only [List.mem_cons, List.not_mem_nil, or_false] at hi
  rcases hi with rfl | rfl
  · exact key
  · exact key

/-- Two runs with the same configuration. -/
def twice : Bool → Task ℕ ℕ
  | false => ⟨toy, searchItems, "generate".toList, "h".toList, "171126_0042".toList⟩
  | true => ⟨toy2, searchItems, "generate".toList, "h".toList, "171126_0043".toList⟩

/-- The hypotheses of `C133_same_table_violated` hold. -/
example : ∃ d : Bool → Config.Dict, (∀ b, Config.load emptyDir (twice b).items = .ok (d b)) ∧ (∀ b, (twice b).J.check (d b) = .ok ()) ∧
    (∀ b, d b "hashtable_file_operation".toList = some (.data (.str "generate".toList))) ∧
    (∀ b, d b "hashtable_file".toList = some (.data (.str "./h_v1.pkl".toList))) ∧ (∀ b, (twice b).J.create (d b) = .ok 0) ∧
    (∀ b, (twice b).J.build (d b) 0 = .ok (if b then 2 else 1)) ∧
    (∀ b, Main.truthy (dataOf (d b "gen_hashtable_only".toList)) = true) ∧ (Path.split "./h_v1.pkl".toList).1 = ".".toList := by
  obtain ⟨d, hd, hfile⟩ := of_textOf (x := load emptyDir searchItems) (k := "hashtable_file".toList) (s := "./h_v1.pkl".toList)
    (by decide +kernel)
  have hop : d "hashtable_file_operation".toList = some (.data (.str "generate".toList)) := by
    have := load_string hd (k := "hashtable_file_operation".toList) (t := "generate".toList) (by decide) (by decide +kernel) (by decide)
    rw [this, show stringParser "generate".toList = .str "generate".toList by rfl]
  refine ⟨fun _ => d, fun b => by cases b <;> exact hd, fun b => by cases b <;> rfl, fun _ => hop, fun _ => hfile, fun b => by cases b <;> rfl,
    fun b => by cases b <;> rfl, fun _ => ?_, by decide⟩
  obtain ⟨op, -, ho, hg⟩ := C74_auto hd
  rw [hop] at ho
  simp only [Option.some.injEq, Value.data.injEq, Json.Val.str.injEq] at ho
  show Main.truthy (dataOf (d "gen_hashtable_only".toList)) = true
  rw [((hg "auto".toList (by decide +kernel)).1 rfl).1 (.inl ho.symm)]
  rfl

/-- The hypotheses of `C133_clock_violated`, `C133_lost_violated` and `C133_race_violated` hold in a file system with or without `results`. -/
example : Stamp "171126_0042".toList ∧ Stamp "171126_0043".toList ∧
    Consistent (⟨fun d => d = base, fun _ => none⟩ : FS ℕ) ∧ (⟨fun d => d = base, fun _ => none⟩ : FS ℕ).dirs base = true ∧
    (⟨fun d => d = base, fun _ => none⟩ : FS ℕ).dirs (resultsDir "171126_0042".toList) = false ∧
    (⟨fun d => d = base, fun _ => none⟩ : FS ℕ).dirs (resultsDir "171126_0043".toList) = false ∧
    Consistent (⟨fun _ => false, fun _ => none⟩ : FS ℕ) :=
  ⟨⟨by decide, by decide⟩, ⟨by decide, by decide⟩, fun _ h => absurd h (by simp), by simp, by decide, by decide, fun _ h => absurd h (by simp)⟩

/-- The table of part 3 of `h_v1`; the other hypotheses of `C133_parts_partial` are those of C107, see there. -/
example : '.' ∉ "h_v1".toList ∧ partTable "h_v1".toList 3 = "h_v1_part03".toList := by decide

end PiCF.Concurrent
