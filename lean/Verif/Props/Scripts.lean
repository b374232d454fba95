import Verif.Model.Scripts
import Verif.Spec.Scripts
import Verif.Props.Hashtable
import Verif.Props.DistributeMain

/-!
# C122: the clean-up script and its files; C123: the command lines of the scripts
-/

namespace PiCF.Scripts
open PiCF.Hashtable PiCF.Path PiCF.Output PiCF.Spec PiCF.DistributeMain

/-! ### The name of the output -/

theorem rsplit_of {dir name : Str} (hd : dir = [] ∨ dir.getLast? = some '/') (hn : '/' ∉ name) :
    rsplitSlash (dir ++ name) = (dir, name) := by
  have hall : ∀ c ∈ name.reverse, decide (c ≠ '/') = true := by
    intro c hc
    simpa using fun e : c = '/' => hn (e ▸ List.mem_reverse.1 hc)
  rw [rsplitSlash, List.reverse_append, List.takeWhile_append_of_pos hall, List.dropWhile_append_of_pos hall]
  rcases hd with rfl | hd
  · simp
  · obtain ⟨d', rfl⟩ := List.getLast?_eq_some_iff.1 hd
    simp

theorem rsplit_dir (p : Str) : (rsplitSlash p).1 = [] ∨ (rsplitSlash p).1.getLast? = some '/' := by
  rw [rsplitSlash]
  simp only [List.reverse_eq_nil_iff, List.getLast?_reverse]
  cases h : p.reverse.dropWhile (fun c => decide (c ≠ '/')) with
  | nil => exact .inl rfl
  | cons c r =>
    have h0 : p.reverse.dropWhile (fun c => decide (c ≠ '/')) ≠ [] := by rw [h]; simp
    have := List.head_dropWhile_not (fun c => decide (c ≠ '/')) h0
    simp only [h, List.head_cons] at this
    right
    simpa using this

theorem rsplit_name (p : Str) : '/' ∉ (rsplitSlash p).2 := by
  rw [rsplitSlash]
  intro h
  have := List.mem_takeWhile_imp (List.mem_reverse.1 h)
  simp at this

/-- The two cases of `splitext`: no dot in the name after something else than dots, or a name and an extension. -/
theorem splitext_cases (p : Str) :
    (splitext p = (p, []) ∧ ∀ l : Str, '.' ∉ l → '/' ∉ l → splitext (p ++ l) = (p ++ l, [])) ∨
    ∃ dir name ext, p = dir ++ name ++ '.' :: ext ∧ (dir = [] ∨ dir.getLast? = some '/') ∧ '/' ∉ name ∧ '/' ∉ ext ∧ '.' ∉ ext ∧
      (∃ c ∈ name, c ≠ '.') ∧ splitext p = (dir ++ name, '.' :: ext) := by
  have hd := rsplit_dir p
  have hn := rsplit_name p
  have hp := rsplit_append p
  generalize (rsplitSlash p).1 = dir at hd hp
  generalize (rsplitSlash p).2 = name at hn hp
  subst hp
  have hr := rsplit_of hd hn
  by_cases hc : '.' ∈ name ∧ ((name.reverse.dropWhile (· ≠ '.')).reverse.dropLast).any (· ≠ '.')
  · right
    obtain ⟨r, hr'⟩ : ∃ r, name.reverse.dropWhile (· ≠ '.') = '.' :: r := by
      cases hd : name.reverse.dropWhile (· ≠ '.') with
      | nil =>
        rw [List.dropWhile_eq_nil_iff] at hd
        have := hd '.' (List.mem_reverse.2 hc.1)
        simp at this
      | cons c r =>
        have h0 : name.reverse.dropWhile (· ≠ '.') ≠ [] := by rw [hd]; simp
        have := List.head_dropWhile_not (fun c => decide (c ≠ '.')) h0
        simp only [hd, List.head_cons] at this
        exact ⟨r, by rw [show c = '.' by simpa using this]⟩
    have e : name = (name.reverse.dropWhile (· ≠ '.')).reverse ++ (name.reverse.takeWhile (· ≠ '.')).reverse := by
      rw [← List.reverse_append, List.takeWhile_append_dropWhile, List.reverse_reverse]
    have hx : '.' ∉ (name.reverse.takeWhile (· ≠ '.')).reverse := by
      intro h
      have := List.mem_takeWhile_imp (List.mem_reverse.1 h)
      simp at this
    have hsp : splitext (dir ++ name) = (dir ++ r.reverse, '.' :: (name.reverse.takeWhile (· ≠ '.')).reverse) := by
      rw [splitext]
      simp only [hr]
      rw [if_pos hc, hr']
      simp
    have h2 := hc.2
    rw [hr'] at h2 e
    generalize (name.reverse.takeWhile (· ≠ '.')).reverse = ext at *
    rw [List.reverse_cons] at e
    refine ⟨dir, r.reverse, ext, by rw [e]; simp, hd, ?_, ?_, hx, ?_, hsp⟩
    · intro h; apply hn; rw [e]; simp only [List.mem_append]; exact .inl (.inl h)
    · intro h; apply hn; rw [e]; simp only [List.mem_append]; exact .inr h
    · simpa using h2
  · left
    constructor
    · rw [splitext]
      simp only [hr]
      rw [if_neg hc]
    · intro l h1 h2
      have hr2 : rsplitSlash (dir ++ (name ++ l)) = (dir, name ++ l) := rsplit_of hd (by simp [hn, h2])
      have hall : ∀ c ∈ l.reverse, decide (c ≠ '.') = true := by
        intro c hc
        simpa using fun e : c = '.' => h1 (e ▸ List.mem_reverse.1 hc)
      rw [List.append_assoc, splitext]
      simp only [hr2]
      rw [if_neg]
      rintro ⟨h3, h4⟩
      rw [List.reverse_append, List.dropWhile_append_of_pos hall] at h4
      refine hc ⟨?_, h4⟩
      rcases List.mem_append.1 h3 with h | h
      · exact h
      · exact absurd h h1

theorem splitext_fixed (p : Str) : splitext (fixedPath p) = ((splitext p).1 ++ "_fixed".toList, (splitext p).2) := by
  rcases splitext_cases p with ⟨h, h'⟩ | ⟨dir, name, ext, hp, hd, hn, hx, hdot, ⟨c, hc, hne⟩, h⟩
  · rw [fixedPath, h]
    simp only [List.append_nil]
    exact h' _ (by decide) (by decide)
  · rw [fixedPath, h]
    simp only
    rw [List.append_assoc dir name "_fixed".toList]
    refine splitext_of hd ?_ hx hdot ⟨c, List.mem_append_left _ hc, hne⟩
    intro hm
    rcases List.mem_append.1 hm with hm | hm
    · exact hn hm
    · exact absurd hm (by decide)

/-- The output is in the directory of the input. -/
theorem split_fixed (p : Str) : (split (fixedPath p)).1 = (split p).1 := by
  have h : (rsplitSlash (fixedPath p)).1 = (rsplitSlash p).1 := by
    rcases splitext_cases p with ⟨h, -⟩ | ⟨dir, name, ext, hp, hd, hn, hx, hdot, -, h⟩
    · rw [fixedPath, h]
      simp only [List.append_nil]
      have hp := rsplit_append p
      have hr := rsplit_of (rsplit_dir p) (name := (rsplitSlash p).2 ++ "_fixed".toList) (by
        intro hm
        rcases List.mem_append.1 hm with hm | hm
        · exact rsplit_name p hm
        · exact absurd hm (by decide))
      rw [← List.append_assoc, hp] at hr
      rw [hr]
    · rw [fixedPath, h, hp]
      simp only [List.append_assoc]
      rw [rsplit_of hd, rsplit_of hd]
      · intro hm
        rcases List.mem_append.1 hm with hm | hm
        · exact hn hm
        · rcases List.mem_cons.1 hm with hm | hm
          · exact absurd hm (by decide)
          · exact hx hm
      · intro hm
        rcases List.mem_append.1 hm with hm | hm
        · exact hn hm
        · rcases List.mem_append.1 hm with hm | hm
          · exact absurd hm (by decide)
          · rcases List.mem_cons.1 hm with hm | hm
            · exact absurd hm (by decide)
            · exact hx hm
  unfold split
  rw [h]
  simp only
  split <;> rfl

theorem splitext_append (p : Str) : (splitext p).1 ++ (splitext p).2 = p := by
  rcases splitext_cases p with ⟨h, -⟩ | ⟨dir, name, ext, hp, -, -, -, -, -, h⟩
  · rw [h]; simp
  · rw [h, hp]

theorem fixedPath_ne (p : Str) : fixedPath p ≠ p := by
  intro h
  have h1 := congrArg List.length h
  have h2 := congrArg List.length (splitext_append p)
  simp only [fixedPath, List.length_append] at h1 h2
  have : "_fixed".toList.length = 6 := rfl
  omega

theorem fixedPath_inj {p q : Str} (h : fixedPath p = fixedPath q) : p = q := by
  have h1 := splitext_fixed p
  rw [h, splitext_fixed q, Prod.mk.injEq] at h1
  rw [← splitext_append p, ← splitext_append q, h1.2, List.append_cancel_right h1.1]

/-! ### C122 -/

variable {F : Type}

/-- **C122.** A run of the clean-up script on the file `p` changes at most one file, `root_fixed.ext` for `p = root.ext`, which is another file than
`p`; runs on different files write to different files.  A run that raises changes nothing. -/
theorem C122_files (load : F → Except PyErr (Table (List Entry))) (store : Table (List Entry) → F) (fix : PyM (Table (List Entry)) Unit) (p : Str)
    (fs : FS F) :
    (∀ q, q ≠ fixedPath p → (fixScript load store fix p fs).1.files q = fs.files q) ∧ (fixScript load store fix p fs).1.files p = fs.files p ∧
    (fixScript load store fix p fs).1.dirs = fs.dirs ∧ (∀ q, fixedPath p = fixedPath q → p = q) ∧
    ∀ e, (fixScript load store fix p fs).2 = .error e → (fixScript load store fix p fs).1 = fs := by
  have key : (fixScript load store fix p fs).1 = fs ∨ ((fixScript load store fix p fs).2 = .ok () ∧ ∃ c, (fixScript load store fix p fs).1 =
      { fs with files := fun q => if q = fixedPath p then some c else fs.files q }) := by
    unfold fixScript
    split
    · exact .inl rfl
    · split
      · exact .inl rfl
      · split
        · exact .inl rfl
        · unfold write
          split
          · exact .inl rfl
          · exact .inr ⟨rfl, _, rfl⟩
  rcases key with h | ⟨h0, c, h⟩
  · rw [h]
    exact ⟨fun _ _ => rfl, rfl, rfl, fun q => fixedPath_inj, fun _ _ => rfl⟩
  · rw [h]
    refine ⟨fun q hq => if_neg hq, if_neg (fixedPath_ne p).symm, rfl, fun q => fixedPath_inj, fun e he => ?_⟩
    rw [h0] at he
    cases he

/-- **C122, the content.** For a stored hashtable filled at one accuracy (as in C33), the output holds the hashtable without the entries with an offending
`b` polynomial. -/
theorem C122_content (eng : Eng) (bad : List ℤ → Bool) (load : F → Except PyErr (Table (List Entry))) (store : Table (List Entry) → F) (p : Str) (fs : FS F)
    {c : F} {t : Table (List Entry)} (hc : fs.files p = some c) (hl : load c = .ok t) (hwf : WF t) (hh : t.history = [])
    (hkeys : ∀ k ∈ t.data.keys, ∃ s, k = .str s ∧ (s.length : ℤ) ≤ t.accuracy + 1) (hp : present t paramsKey)
    (hdir : (split p).1 = [] ∨ fs.dirs (split p).1 = true) :
    (fixScript load store (fixMain eng bad) p fs).2 = .ok () ∧
    (fixScript load store (fixMain eng bad) p fs).1.files (fixedPath p) = some (store { t with data := cleaned bad t.data }) := by
  have hf := C33_cleanup_partial eng bad t hwf hh hkeys hp
  rw [fixScript, hc]
  simp only [hl, hf]
  rw [write, if_neg]
  · exact ⟨rfl, if_pos rfl⟩
  · rw [split_fixed]
    rcases hdir with h | h <;> simp [h]

/-- The table of C33's example, stored as `d/h.v1.pkl`. -/
def exFixFiles : FS (Table (List Entry)) := ⟨fun p => p = ['d'], fun p => if p = "d/h.v1.pkl".toList then some exFix else none⟩

example : ((fixScript .ok id (fixMain mpfEng fun b => b == [0]) "d/h.v1.pkl".toList exFixFiles).1.files "d/h.v1_fixed.pkl".toList).map (·.data) =
      some [(.str "3.14159265".toList, [(([[1]], [[1, 1]]), 2)]), (paramsKey, [])] ∧
    (fixScript .ok id (fixMain mpfEng fun b => b == [0]) "d/h.v1.pkl".toList exFixFiles).1.files "d/h.v1.pkl".toList = some exFix := by
  constructor
  · rw [show "d/h.v1_fixed.pkl".toList = fixedPath "d/h.v1.pkl".toList by decide,
      (C122_content mpfEng (fun b => b == [0]) .ok id "d/h.v1.pkl".toList exFixFiles (c := exFix) (t := exFix) rfl rfl
        (by unfold WF; decide +kernel) rfl ?_ (by unfold present; decide +kernel) (.inr rfl)).2]
    · rfl
    · intro k hk
      simp only [exFix, Dict.keys, List.map_cons, List.map_nil, List.mem_cons, List.not_mem_nil, or_false] at hk
      rcases hk with rfl | rfl | rfl
      · exact ⟨_, rfl, by decide⟩
      · exact ⟨_, rfl, by decide⟩
      · exact ⟨_, rfl, by decide⟩
  · rw [(C122_files .ok id _ "d/h.v1.pkl".toList exFixFiles).2.1]
    rfl

/-- A path without extension, in a directory with a dot; a dot file. -/
example : fixedPath "a.b/table".toList = "a.b/table_fixed".toList ∧ fixedPath ".rc".toList = ".rc_fixed".toList := by decide

/-! ### C123 -/

/-- What `C123` claims of the arguments of a script: with a command line as in its usage message it calls its `main` with these values, with any other
one it prints the message. -/
def Follows (call : List Str → Except PyErr Call) (required : ℕ) (defaults : List Str) (act : List Str → Except PyErr Call) : Prop :=
  ∀ args, call args = match commandLine required defaults args with
    | some vals => act vals
    | none => .ok .usage

/-- **C123.** The command lines of the clean-up, joining and distributing scripts are interpreted as in their usage messages: for all lists of arguments. -/
theorem C123_usage :
    Follows fixCall 1 [] (fun v => .ok (.fix (v.getD 0 []))) ∧
    Follows joinCall 1 ["joined_hashtable.pkl".toList] (fun v => .ok (.join (v.getD 0 []) (v.getD 1 []))) ∧
    Follows distributeCall 0 ["4".toList, "config.ini".toList]
      (fun v => (Config.intParser (v.getD 0 [])).map fun n => .distribute n (v.getD 1 [])) ∧
    Follows runAllCall 1 [] (fun v => .ok (.runAll (v.getD 0 []))) := by
  refine ⟨?_, ?_, ?_, ?_⟩ <;> intro args
  · match args with
    | [] | [_] => rfl
    | _ :: _ :: l => rw [commandLine, if_neg (by simp)]; rfl
  · match args with
    | [] | [_] | [_, _] => rfl
    | _ :: _ :: _ :: l => rw [commandLine, if_neg (by simp)]; rfl
  · match args with
    | [] => rw [commandLine, if_pos (by simp)]; decide +kernel
    | [_] | [_, _] => rfl
    | _ :: _ :: _ :: l => rw [commandLine, if_neg (by simp)]; rfl
  · match args with
    | [] | [_] => rfl
    | _ :: _ :: l => rw [commandLine, if_neg (by simp)]; rfl

/-- The arguments with which main.py shows its usage message. -/
def helpArgs : List Str := ["-h".toList, "--help".toList, "/?".toList, "-?".toList]

/-- **C123 (partial).** main.py with at most one argument: the help options show the message, anything else is the configuration, which
defaults to `config.ini`.
Missing: more than one argument, see `C123_main_violated`. -/
theorem C123_main_partial (args : List Str) (h : args.length ≤ 1) :
    mainCall args = if ∃ x ∈ args, x ∈ helpArgs then .ok .usage else
      match commandLine 0 ["config.ini".toList] args with
      | some vals => .ok (.search (vals.getD 0 []))
      | none => .ok .usage := by
  match args with
  | [] => rfl
  | [x] =>
    rw [mainCall, show ["-h".toList, "--help".toList, "/?".toList, "-?".toList] = helpArgs from rfl]
    by_cases hx : x ∈ helpArgs
    · rw [if_pos hx, if_pos ⟨x, by simp, hx⟩]
    · rw [if_neg hx, if_neg (by simpa using hx)]
      rfl
  | _ :: _ :: l => simp at h

/-- **C123 (violated).** main.py starts a search whatever follows the first argument, although its usage message shows at most one. -/
theorem C123_main_violated (x : Str) (hx : x ∉ helpArgs) (l : List Str) (hl : l ≠ []) :
    commandLine 0 ["config.ini".toList] (x :: l) = none ∧ mainCall (x :: l) = .ok (.search x) := by
  constructor
  · rw [commandLine, if_neg]
    have := List.length_pos_iff.2 hl
    simp
    exact hl
  · exact if_neg hx

example : mainCall ["my".toList, "config.ini".toList] = .ok (.search "my".toList) ∧ mainCall ["-?".toList] = .ok .usage ∧
    mainCall [] = .ok (.search "config.ini".toList) ∧ distributeCall ["8".toList] = .ok (.distribute 8 "config.ini".toList) ∧
    distributeCall ["x".toList] = .error .valueError := by decide +kernel

end PiCF.Scripts
