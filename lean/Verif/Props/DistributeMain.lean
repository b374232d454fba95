import Verif.Model.DistributeMain
import Verif.Props.ConfigSave
import Verif.Props.Split
import Verif.Props.Output
import Verif.Props.ConfigFile

/-!
# C107: the configurations written by `distribute_run` describe the parts of the search
-/

namespace PiCF.DistributeMain
open PiCF.Hashtable PiCF.EnumPoly PiCF.Json PiCF.Config PiCF.Distribute PiCF.Output PiCF.PyStr PiCF.Spec

/-! ### Values of ranges -/

theorem rangesVal_ints (rs : Ranges) : IntLists (rangesVal rs) := by
  refine .arr fun v hv => ?_
  obtain ⟨r, -, rfl⟩ := List.mem_map.1 hv
  refine .arr fun v hv => ?_
  obtain ⟨x, -, rfl⟩ := List.mem_map.1 hv
  refine .arr fun v hv => ?_
  simp only [List.mem_cons, List.not_mem_nil, or_false] at hv
  rcases hv with rfl | rfl <;> exact .int _

theorem mapM_map {α β : Type} {f : β → Option α} {g : α → β} (h : ∀ x, f (g x) = some x) : ∀ l : List α, (l.map g).mapM f = some l
  | [] => rfl
  | x :: l => by
    rw [List.map_cons, List.mapM_cons, h, mapM_map h l]
    rfl

theorem rangesOf_val (rs : Ranges) : rangesOf (rangesVal rs) = some rs := by
  rw [rangesVal, rangesOf]
  refine mapM_map (fun r => ?_) rs
  rw [polyRngs]
  exact mapM_map (f := rngOf) (g := rngVal) (fun x => rfl) r

/-! ### Paths -/

theorem splitext_of {dir name ext : Str} (hd : dir = [] ∨ dir.getLast? = some '/') (hn : '/' ∉ name) (hs : '/' ∉ ext)
    (he : '.' ∉ ext) (hc : ∃ c ∈ name, c ≠ '.') : Path.splitext (dir ++ name ++ '.' :: ext) = (dir ++ name, '.' :: ext) := by
  have hall : ∀ c ∈ (name ++ '.' :: ext).reverse, decide (c ≠ '/') = true := by
    intro c hc
    rw [List.mem_reverse, List.mem_append, List.mem_cons] at hc
    simp only [decide_eq_true_eq]
    rintro rfl
    rcases hc with hc | hc | hc
    · exact hn hc
    · exact absurd hc (by decide)
    · exact hs hc
  have hr : Path.rsplitSlash (dir ++ name ++ '.' :: ext) = (dir, name ++ '.' :: ext) := by
    have e : (dir ++ name ++ '.' :: ext).reverse = (name ++ '.' :: ext).reverse ++ dir.reverse := by simp
    rw [Path.rsplitSlash, e, List.takeWhile_append_of_pos hall, List.dropWhile_append_of_pos hall]
    rcases hd with rfl | hd
    · simp
    · obtain ⟨d', rfl⟩ : ∃ d', dir = d' ++ ['/'] := by
        obtain ⟨d', hd'⟩ := List.getLast?_eq_some_iff.1 hd
        exact ⟨d', hd'⟩
      simp
  have hall' : ∀ c ∈ ext.reverse, decide (c ≠ '.') = true := by
    intro c hc
    simpa using fun e : c = '.' => he (e ▸ List.mem_reverse.1 hc)
  have e2 : (name ++ '.' :: ext).reverse = ext.reverse ++ '.' :: name.reverse := by simp
  rw [Path.splitext]
  simp only [hr]
  rw [e2, List.takeWhile_append_of_pos hall', List.dropWhile_append_of_pos hall']
  obtain ⟨c, hc, hne⟩ := hc
  rw [if_pos]
  · simp
  · refine ⟨by simp, ?_⟩
    simp only [ne_eq, List.any_eq_true, decide_eq_true_eq]
    exact ⟨c, by simpa using hc, hne⟩

theorem strNat_ne_slash (n : ℕ) : '/' ∉ strNat n := by
  intro h
  have := strNat_digits n _ h
  revert this
  decide

/-- The parts of the names end in a digit. -/
theorem strNat_last (n : ℕ) (l : Str) : (l ++ strNat n).getLast? ≠ some '/' := by
  rw [List.getLast?_append]
  obtain ⟨s, c, e⟩ : ∃ s c, strNat n = s ++ [c] :=
    ⟨(strNat n).dropLast, (strNat n).getLast (strNat_ne_nil n), (List.dropLast_append_getLast _).symm⟩
  rw [e, List.getLast?_concat]
  rintro h
  injection h with h
  exact strNat_ne_slash n (by rw [e, h]; simp)

/-- A configuration file in the directory `dir`: the directory is empty (the current one) or ends with a slash, the name is followed by an
extension. -/
structure ConfigPath (dir name ext : Str) : Prop where
  hdir : dir = [] ∨ dir.getLast? = some '/'
  hname : '/' ∉ name
  hext : '/' ∉ ext
  hdot : '.' ∉ ext
  hchar : ∃ c ∈ name, c ≠ '.'

/-- The path with the directory, name and extension. -/
def configPath (dir name ext : Str) : Str := dir ++ name ++ '.' :: ext

/-- The directory `<name>_dist_<2^k>` beside the configuration file. -/
def dirOfParts (dir name : Str) (k : ℕ) : Str := dir ++ name ++ "_dist_".toList ++ strNat (2 ^ k)

/-- The name `<name>_<i>.<ext>`. -/
def nameOfPart (name ext : Str) (i : ℕ) : Str := name ++ '_' :: strNat i ++ '.' :: ext

theorem distroDir_eq {dir name ext : Str} (h : ConfigPath dir name ext) (k : ℕ) :
    distroDir (configPath dir name ext) k = dirOfParts dir name k := by
  rw [distroDir, configPath, splitext_of h.hdir h.hname h.hext h.hdot h.hchar, dirOfParts]

theorem nameOfPart_slash {dir name ext : Str} (h : ConfigPath dir name ext) (i : ℕ) : '/' ∉ nameOfPart name ext i := by
  intro hm
  simp only [nameOfPart, List.append_assoc, List.cons_append, List.mem_append, List.mem_cons] at hm
  rcases hm with hm | hm | hm | hm | hm
  · exact h.hname hm
  · exact absurd hm (by decide)
  · exact strNat_ne_slash i hm
  · exact absurd hm (by decide)
  · exact h.hext hm

theorem partConfig_eq {dir name ext : Str} (h : ConfigPath dir name ext) (k i : ℕ) : partConfig (configPath dir name ext) k i =
    if dir.head? = some '/' then dir ++ nameOfPart name ext i else dirOfParts dir name k ++ '/' :: (dir ++ nameOfPart name ext i) := by
  have e : dir ++ name ++ '_' :: strNat i ++ '.' :: ext = dir ++ nameOfPart name ext i := by simp [nameOfPart]
  rw [partConfig, distroDir_eq h, configPath, splitext_of h.hdir h.hname h.hext h.hdot h.hchar]
  show Path.join _ (dir ++ name ++ '_' :: strNat i ++ '.' :: ext) = _
  rw [e]
  have hl : ¬ (dirOfParts dir name k = [] ∨ (dirOfParts dir name k).getLast? = some '/') := by
    rintro (h1 | h1)
    · simp [dirOfParts] at h1
    · exact strNat_last _ _ h1
  cases dir with
  | nil =>
    obtain ⟨c, hc, -⟩ := h.hchar
    cases name with
    | nil => cases hc
    | cons c name =>
      have hne : c ≠ '/' := fun e => h.hname (by simp [e])
      simp only [nameOfPart, List.nil_append, List.cons_append, List.head?_nil]
      rw [Path.join, if_neg hl]
      · simp
      · intro x hx
        injection hx with hx
        exact hne hx
  | cons c dir =>
    by_cases hc : c = '/'
    · subst hc
      rfl
    · rw [List.cons_append, Path.join, if_neg hl, if_neg (by simpa using hc)]
      intro x hx
      injection hx with hx
      exact hc hx

/-! ### The written options -/

/-- The options of part `i`. -/
def partDict (d : Config.Dict) (part : Ranges × Ranges) (i : ℕ) (q : Str) : Config.Dict :=
  ((d.set "a_coeffs_range".toList (.data (rangesVal part.1))).set "b_coeffs_range".toList (.data (rangesVal part.2))).set
    "hashtable_file".toList (.data (.str (partHashtable q i)))

theorem partDict_other {d : Config.Dict} {part : Ranges × Ranges} {i : ℕ} {q key : Str} (h1 : key ≠ "a_coeffs_range".toList)
    (h2 : key ≠ "b_coeffs_range".toList) (h3 : key ≠ "hashtable_file".toList) : partDict d part i q key = d key := by
  rw [partDict, Config.Dict.set, if_neg h3, Config.Dict.set, if_neg h2, Config.Dict.set, if_neg h1]

theorem partDict_a (d : Config.Dict) (part : Ranges × Ranges) (i : ℕ) (q : Str) :
    partDict d part i q "a_coeffs_range".toList = some (.data (rangesVal part.1)) := by
  rw [partDict, Config.Dict.set, if_neg (by decide), Config.Dict.set, if_neg (by decide), Config.Dict.set, if_pos rfl]

theorem partDict_b (d : Config.Dict) (part : Ranges × Ranges) (i : ℕ) (q : Str) :
    partDict d part i q "b_coeffs_range".toList = some (.data (rangesVal part.2)) := by
  rw [partDict, Config.Dict.set, if_neg (by decide), Config.Dict.set, if_pos rfl]

theorem partDict_file (d : Config.Dict) (part : Ranges × Ranges) (i : ℕ) (q : Str) :
    partDict d part i q "hashtable_file".toList = some (.data (.str (partHashtable q i))) := by
  rw [partDict, Config.Dict.set, if_pos rfl]

theorem partItems_eq {d : Config.Dict} {part : Ranges × Ranges} {i : ℕ} {q : Str} (hq : d "hashtable_file".toList = some (.data (.str q))) :
    ∀ ps, partItems d part i ps = saveItems (partDict d part i q) ps
  | [] => rfl
  | (key, kind) :: ps => by
    rw [partItems, saveItems, partItems_eq hq ps, partText]
    by_cases h1 : key = "a_coeffs_range".toList
    · subst h1
      rw [if_pos rfl, partDict_a]
      rfl
    · rw [if_neg h1]
      by_cases h2 : key = "b_coeffs_range".toList
      · subst h2
        rw [if_pos rfl, partDict_b]
        rfl
      · rw [if_neg h2]
        by_cases h3 : key = "hashtable_file".toList
        · subst h3
          rw [partDict_file, hq]
          rfl
        · rw [partDict_other h1 h2 h3]
          cases d key with
          | none => rfl
          | some v =>
            simp only [if_neg h3]
            rfl

theorem load_some {listdir : Str → Except PyErr (List Str)} {items : List (Str × Str)} {d : Config.Dict}
    (h : load listdir items = .ok d) {key : Str} {kind : Kind} (hk : kindOf key = some kind) : ∃ v, d key = some v := by
  obtain ⟨d0, f, is, h0, -, his, hfin⟩ := load_ok h
  by_cases h3 : key = "gen_hashtable_only".toList
  · subst h3
    obtain ⟨v, hv, -⟩ := load_gen h
    exact ⟨_, hv⟩
  · rw [finish_other hfin h3, Config.Dict.set]
    split
    · exact ⟨_, rfl⟩
    · rw [Config.Dict.set]
      split
      · exact ⟨_, rfl⟩
      · obtain ⟨v, hv, -⟩ := load_value h hk (by assumption) (by assumption) h3
        rw [finish_other hfin h3, Config.Dict.set, if_neg (by assumption), Config.Dict.set, if_neg (by assumption)] at hv
        exact ⟨v, hv⟩

theorem part_saved {listdir : Str → Except PyErr (List Str)} {items : List (Str × Str)} {d : Config.Dict}
    (h : load listdir items = .ok d) {q : Str} (hq : d "hashtable_file".toList = some (.data (.str q))) (part : Ranges × Ranges) (i : ℕ) :
    ∃ saved, partItems d part i params = .ok saved ∧ save (partDict d part i q) = .ok saved := by
  obtain ⟨saved, hs⟩ : ∃ saved, save (partDict d part i q) = .ok saved := by
    refine saveItems_ok fun p hp => ?_
    by_cases h2 : p.1 = filterKey
    · obtain ⟨fv, fw, hfv, hfd⟩ := load_filter h
      obtain ⟨ft, fv', hft, -, -⟩ := C72_filter hfv
      rw [h2, partDict_other (by decide) (by decide) (by decide)]
      exact ⟨_, ft, hfd, hft⟩
    · obtain ⟨v, hv⟩ : ∃ v, partDict d part i q p.1 = some v := by
        by_cases h1 : p.1 = "a_coeffs_range".toList
        · rw [h1]; exact ⟨_, partDict_a ..⟩
        by_cases h3 : p.1 = "b_coeffs_range".toList
        · rw [h3]; exact ⟨_, partDict_b ..⟩
        by_cases h4 : p.1 = "hashtable_file".toList
        · rw [h4]; exact ⟨_, partDict_file ..⟩
        rw [partDict_other h1 h3 h4]
        exact load_some h (mem_kindOf hp)
      exact ⟨v, v.str, hv, setText_other h2 _⟩
  exact ⟨saved, by rw [partItems_eq hq]; exact hs, hs⟩

/-! ### The written files -/

theorem write_ok {F : Type} {p : Str} {c : F} {fs : FS F} (h : (Path.split p).1 = [] ∨ fs.dirs (Path.split p).1 = true) :
    write p c fs = ({ fs with files := fun q => if q = p then some c else fs.files q }, .ok ()) := by
  rw [write, if_neg]
  rcases h with h | h <;> simp [h]

theorem writeParts_ok {d : Config.Dict} {configfile : Str} {k : ℕ} : ∀ {parts : List (Ranges × Ranges)} {i : ℕ} {fs : FS File},
    (∀ j, (Path.split (partConfig configfile k j)).1 = [] ∨ fs.dirs (Path.split (partConfig configfile k j)).1 = true) →
    (∀ part j, ∃ saved, partItems d part j params = .ok saved) →
    ∃ fs', writeParts d configfile k i parts fs = (fs', .ok ()) ∧ fs'.dirs = fs.dirs ∧
      (∀ p, (∀ j < parts.length, p ≠ partConfig configfile k (i + j)) → fs'.files p = fs.files p) ∧
      ∀ j (hj : j < parts.length), ∃ saved, fs'.files (partConfig configfile k (i + j)) = some saved ∧
        partItems d parts[j] (i + j) params = .ok saved
  | [], i, fs, _, _ => ⟨fs, rfl, rfl, fun _ _ => rfl, fun j hj => absurd hj (by simp)⟩
  | part :: parts, i, fs, hd, hp => by
    obtain ⟨saved, hs⟩ := hp part i
    have hw := write_ok (c := saved) (hd i)
    obtain ⟨fs', h1, h2, h3, h4⟩ := writeParts_ok (parts := parts) (i := i + 1)
      (fs := { fs with files := fun q => if q = partConfig configfile k i then some saved else fs.files q }) hd hp
    have hne : ∀ j < parts.length, partConfig configfile k i ≠ partConfig configfile k (i + 1 + j) := by
      intro j _ e
      have := C77_config_names _ _ e
      omega
    refine ⟨fs', ?_, h2, ?_, ?_⟩
    · rw [writeParts, PyM.bind_ok (s' := fs) (a := saved) (by rw [lift, hs]), PyM.bind_ok hw]
      exact h1
    · intro p hp'
      rw [h3 p fun j hj => by
        have := hp' (j + 1) (by simpa using hj)
        rwa [show i + 1 + j = i + (j + 1) by omega]]
      exact if_neg (by simpa using hp' 0 (by simp))
    · intro j hj
      cases j with
      | zero => exact ⟨saved, by rw [Nat.add_zero, h3 _ hne]; exact if_pos rfl, hs⟩
      | succ j =>
        obtain ⟨s, e1, e2⟩ := h4 j (by simpa using hj)
        rw [show i + 1 + j = i + (j + 1) by omega] at e1 e2
        exact ⟨s, e1, e2⟩

theorem exponent_pow (k : ℕ) : exponent (2 ^ k) = .ok k := by
  have e : ((2 : ℤ) ^ k).toNat = 2 ^ k := by
    rw [show (2 : ℤ) ^ k = ((2 ^ k : ℕ) : ℤ) by simp]
    exact Int.toNat_natCast _
  have h0 : ¬ (2 : ℤ) ^ k ≤ 0 := by
    have : (0 : ℤ) < 2 ^ k := by positivity
    omega
  rw [exponent, if_neg h0, e, Nat.log2_two_pow, if_pos rfl]

theorem ensureDir_ok {p : Str} {fs : FS File} (h1 : fs.files p = none) (h2 : (Path.split p).1 = [] ∨ fs.dirs (Path.split p).1 = true) :
    ∃ fs', ensureDir p fs = (fs', .ok ()) ∧ fs'.files = fs.files ∧ ∀ q, fs'.dirs q = (decide (q = p) || fs.dirs q) := by
  rw [ensureDir]
  split
  · rename_i h
    refine ⟨fs, rfl, rfl, fun q => ?_⟩
    by_cases e : q = p
    · subst e; simp [h]
    · simp [e]
  · rename_i h
    refine ⟨{ fs with dirs := fun q => if q = p then true else fs.dirs q }, ?_, rfl, fun q => ?_⟩
    · rw [mkdir, if_neg (by simp [h, h1]), if_neg]
      rcases h2 with h2 | h2 <;> simp [h2]
    · by_cases e : q = p <;> simp [e]

theorem main_ok {listdir : Str → Except PyErr (List Str)} {items : File} {d : Config.Dict} {configfile q : Str} {k : ℕ} {a b : Ranges}
    {parts : List (Ranges × Ranges)} {fs : FS File} (h : load listdir items = .ok d)
    (ha : d "a_coeffs_range".toList = some (.data (rangesVal a))) (hb : d "b_coeffs_range".toList = some (.data (rangesVal b)))
    (hq : d "hashtable_file".toList = some (.data (.str q))) (hparts : splitParams k (a, b) = .ok parts)
    (hfile : fs.files (distroDir configfile k) = none)
    (hdir : (Path.split (distroDir configfile k)).1 = [] ∨ fs.dirs (Path.split (distroDir configfile k)).1 = true)
    (hpart : ∀ j, (Path.split (partConfig configfile k j)).1 = [] ∨ (Path.split (partConfig configfile k j)).1 = distroDir configfile k ∨
      fs.dirs (Path.split (partConfig configfile k j)).1 = true) :
    ∃ fs', main listdir (2 ^ k) configfile items fs = (fs', .ok ()) ∧
      (∀ p, fs'.dirs p = (decide (p = distroDir configfile k) || fs.dirs p)) ∧
      (∀ p, (∀ j < parts.length, p ≠ partConfig configfile k j) → fs'.files p = fs.files p) ∧
      ∀ j (hj : j < parts.length), ∃ saved, fs'.files (partConfig configfile k j) = some saved ∧
        save (partDict d parts[j] j q) = .ok saved := by
  obtain ⟨fs1, h1, h2, h3⟩ := ensureDir_ok hfile hdir
  obtain ⟨fs', g1, g2, g3, g4⟩ := writeParts_ok (d := d) (configfile := configfile) (k := k) (parts := parts) (i := 0) (fs := fs1)
    (fun j => by
      rcases hpart j with e | e | e
      · exact .inl e
      · exact .inr (by rw [h3, e]; simp)
      · exact .inr (by rw [h3, e]; simp))
    (fun part j => by
      obtain ⟨saved, hs, -⟩ := part_saved h hq part j
      exact ⟨saved, hs⟩)
  refine ⟨fs', ?_, fun p => by rw [g2, h3], fun p hp => ?_, fun j hj => ?_⟩
  · rw [main, PyM.bind_ok (s' := fs) (a := k) (by rw [lift, exponent_pow]), PyM.bind_ok (s' := fs) (a := d) (by rw [lift, h]),
      PyM.bind_ok h1, PyM.bind_ok (s' := fs1) (a := parts)]
    · exact g1
    · rw [lift, partsOf, ha, hb]
      simp only [dataOf, rangesOf_val, hparts]
  · rw [g3 p (by simpa using hp), h2]
  · obtain ⟨saved, e1, e2⟩ := g4 j hj
    rw [Nat.zero_add] at e1 e2
    obtain ⟨saved', e3, e4⟩ := part_saved h hq parts[j] j
    rw [e2] at e3
    injection e3 with e3
    subst e3
    exact ⟨saved, e1, e4⟩

/-! ### C107 -/

/-- The number with at least two digits. -/
def twoDigits (i : ℕ) : Str := if i < 10 then '0' :: strNat i else strNat i

theorem pad2_eq (i : ℕ) : pad2 i = twoDigits i := by
  rcases Nat.eq_zero_or_pos i with rfl | hi
  · decide
  rw [pad2, twoDigits]
  obtain ⟨d, ds, h1, h2, h3, e, hv⟩ := exists_strNat i
  have : (strNat i).length < 2 ↔ i < 10 := by
    rw [e, List.length_map, List.length_cons]
    have hb := (foldl_digits_bounds h2 d).1
    have hv' : ds.foldl (fun n d => 10 * n + d) d = i := by simpa using hv
    cases ds with
    | nil =>
      have hv'' : d = i := by simpa using hv'
      simp only [List.length_nil]
      omega
    | cons x xs =>
      simp only [List.length_cons]
      constructor
      · omega
      · intro hi'
        exfalso
        have hd : d ≠ 0 := h3 (by omega)
        rw [hv', List.length_cons, pow_succ] at hb
        have : 1 ≤ 10 ^ xs.length := Nat.one_le_pow _ _ (by omega)
        have : 1 * (1 * 10) ≤ d * (10 ^ xs.length * 10) := Nat.mul_le_mul (by omega) (Nat.mul_le_mul this (le_refl _))
        omega
  simp only [this]

/-- The table `<name>_part<i>.pkl` of part `i`. -/
def tableOfPart (dir name : Str) (i : ℕ) : Str := dir ++ name ++ "_part".toList ++ twoDigits i ++ ".pkl".toList

theorem partHashtable_eq {dir name : Str} (h : ConfigPath dir name "pkl".toList) (i : ℕ) :
    partHashtable (configPath dir name "pkl".toList) i = tableOfPart dir name i := by
  rw [partHashtable, configPath, splitext_of h.hdir h.hname h.hext h.hdot h.hchar, tableOfPart, pad2_eq]
  simp [PyStr.join]

theorem lower_pad (i : ℕ) : ∀ c ∈ twoDigits i, isDigit c = true := by
  intro c hc
  rw [twoDigits] at hc
  split at hc
  · rcases List.mem_cons.1 hc with rfl | hc
    · decide
    · exact strNat_digits i c hc
  · exact strNat_digits i c hc

/-- A path without capital letters that does not start with white space. -/
def PlainPath (p : Str) : Prop := (∀ c ∈ p, ¬ (65 ≤ c.toNat ∧ c.toNat ≤ 90)) ∧ ∀ c ∈ p.head?, ¬ Space c

theorem tableOfPart_path {dir name : Str} (h : ConfigPath dir name "pkl".toList) (hp : PlainPath (configPath dir name "pkl".toList)) (i : ℕ) :
    Config.cast .path (tableOfPart dir name i) = .ok (.data (.str (tableOfPart dir name i))) := by
  obtain ⟨c0, hc0, -⟩ := h.hchar
  have hne : dir ++ name ≠ [] := by
    intro e
    rw [(List.append_eq_nil_iff.1 e).2] at hc0
    cases hc0
  obtain ⟨x, xs, e⟩ := List.exists_cons_of_ne_nil hne
  refine C71_path_partial ?_ ?_ ?_ ?_
  · intro c hc
    simp only [tableOfPart, List.mem_append] at hc
    rcases hc with (((hc | hc) | hc) | hc) | hc
    · exact hp.1 c (by simp [configPath, hc])
    · exact hp.1 c (by simp [configPath, hc])
    · revert hc c
      decide
    · have := lower_pad i c hc
      simp only [isDigit, Bool.and_eq_true, decide_eq_true_eq] at this
      have h2 : c.toNat ≤ 57 := this.2
      omega
    · revert hc c
      decide
  · intro c hc
    refine hp.2 c ?_
    rw [configPath, e]
    rw [tableOfPart, e] at hc
    simpa using hc
  · intro c hc
    rw [tableOfPart, List.getLast?_append] at hc
    have : c = 'l' := by simpa using hc.symm
    subst this
    unfold Space
    decide
  · have hm : '_' ∈ tableOfPart dir name i := by simp [tableOfPart]
    intro hmem
    simp only [List.mem_cons, List.not_mem_nil, or_false] at hmem
    rcases hmem with e | e | e <;> (rw [e] at hm; exact absurd hm (by decide))

theorem split_noslash {f : Str} (h : '/' ∉ f) : Path.split f = ([], f) := by
  rw [Path.split, Path.splitext_slash h]
  rfl

theorem dirOfParts_slash {name ext : Str} (h : ConfigPath [] name ext) (k : ℕ) : '/' ∉ dirOfParts [] name k := by
  intro hm
  simp only [dirOfParts, List.nil_append, List.mem_append] at hm
  rcases hm with (hm | hm) | hm
  · exact h.hname hm
  · exact absurd hm (by decide)
  · exact strNat_ne_slash _ hm

theorem dirOfParts_ne (dir name : Str) (k : ℕ) : dirOfParts dir name k ≠ [] := by simp [dirOfParts]

theorem dirOfParts_last (dir name : Str) (k : ℕ) : (dirOfParts dir name k).getLast? ≠ some '/' := strNat_last _ _

/-- **C107 (partial).** For every configuration file `<name>.<ext>` in the current directory that is accepted, has no lhs_type, list options
holding lists of integers, a table `<table>.pkl` whose path has no capital letters, and ranges that can be split into `2^k` parts,
and for every file system in which nothing is in the way: the program ends normally, creates the directory
`<name>_dist_<2^k>` and in it one file `<name>_<i>.<ext>` per part, and changes no other file. Whatever table file is then chosen for
`<table>_part<i>.pkl`, the file of part `i` is accepted and has the ranges of part `i`, this table, and otherwise the options of the
original configuration.
Missing: configurations with lhs_type, see `C107_lhs_type_violated`, and files in other directories, see `C107_directory_violated` and
`C107_absolute_violated`. -/
theorem C107_parts_partial {listdir : Str → Except PyErr (List Str)} {items : File} {d : Config.Dict} {name ext tdir table op : Str} {k : ℕ}
    {a b : Ranges} {parts : List (Ranges × Ranges)} {fs : FS File} (h : load listdir items = .ok d)
    (hl : d "lhs_type".toList = some (.data .null))
    (hj : ∀ k ∈ listOptions, ∀ v, d k = some v → v = .data .null ∨ ∃ j, v = .data j ∧ IntLists j)
    (ha : d "a_coeffs_range".toList = some (.data (rangesVal a))) (hb : d "b_coeffs_range".toList = some (.data (rangesVal b)))
    (hparts : splitParams k (a, b) = .ok parts)
    (ht : ConfigPath tdir table "pkl".toList) (hp : PlainPath (configPath tdir table "pkl".toList))
    (hq : d "hashtable_file".toList = some (.data (.str (configPath tdir table "pkl".toList))))
    (hop : d "hashtable_file_operation".toList = some (.data (.str op)))
    (hc : ConfigPath [] name ext) (hfs : fs.files (dirOfParts [] name k) = none) :
    parts.length = 2 ^ k ∧
    ∃ fs', main listdir (2 ^ k) (configPath [] name ext) items fs = (fs', .ok ()) ∧
      (∀ p, fs'.dirs p = true ↔ p = dirOfParts [] name k ∨ fs.dirs p = true) ∧
      (∀ p, (∀ i < 2 ^ k, p ≠ dirOfParts [] name k ++ '/' :: nameOfPart name ext i) → fs'.files p = fs.files p) ∧
      ∀ i (hi : i < parts.length), ∃ saved, fs'.files (dirOfParts [] name k ++ '/' :: nameOfPart name ext i) = some saved ∧
        ∀ listdir' f, genFilename listdir' (.str op) (.str (tableOfPart tdir table i)) = .ok (.str f) →
          ∃ d', load listdir' saved = .ok d' ∧
            d' "a_coeffs_range".toList = some (.data (rangesVal parts[i].1)) ∧
            d' "b_coeffs_range".toList = some (.data (rangesVal parts[i].2)) ∧
            d' "hashtable_file".toList = some (.data (.str f)) ∧
            ∀ key, (kindOf key).isSome → key ∉ ["a_coeffs_range".toList, "b_coeffs_range".toList, "hashtable_file".toList] →
              d' key = d key := by
  have hlen := (C76_partition hparts).1
  have hpath : ∀ i, partConfig (configPath [] name ext) k i = dirOfParts [] name k ++ '/' :: nameOfPart name ext i := by
    intro i
    rw [partConfig_eq hc, if_neg (by simp), List.nil_append]
  have hsplit : ∀ i, (Path.split (dirOfParts [] name k ++ '/' :: nameOfPart name ext i)).1 = dirOfParts [] name k := by
    intro i
    rw [Output.split_join (dirOfParts_ne _ _ _) (dirOfParts_last _ _ _) (nameOfPart_slash hc i)]
  obtain ⟨fs', h1, h2, h3, h4⟩ := main_ok (configfile := configPath [] name ext) (fs := fs) h ha hb hq hparts
    (by rw [distroDir_eq hc]; exact hfs)
    (.inl (by rw [distroDir_eq hc, split_noslash (dirOfParts_slash hc k)]))
    (fun j => .inr (.inl (by rw [hpath, hsplit, distroDir_eq hc])))
  refine ⟨hlen, fs', h1, fun p => ?_, fun p hp' => ?_, fun i hi => ?_⟩
  · rw [h2, distroDir_eq hc]
    simp
  · exact h3 p fun j hj' => by rw [hpath]; exact hp' j (hlen ▸ hj')
  · obtain ⟨saved, e1, e2⟩ := h4 i hi
    rw [hpath] at e1
    refine ⟨saved, e1, fun listdir' f hgen => ?_⟩
    obtain ⟨fv, fw, hfv, hfd⟩ := load_filter h
    obtain ⟨ft, fv', hft, hfc, hfg⟩ := C72_filter hfv
    obtain ⟨g, hg, hga, hgs⟩ := load_gen h
    obtain ⟨op', hmem, hop', -⟩ := C74_auto h
    have : op' = op := by
      rw [hop] at hop'
      injection hop' with hop'; injection hop' with hop'; injection hop' with hop'
      exact hop'.symm
    subst this
    have hfile : partDict d parts[i] i (configPath tdir table "pkl".toList) "hashtable_file".toList =
        some (.data (.str (tableOfPart tdir table i))) := by rw [partDict_file, partHashtable_eq ht]
    have kind_of : ∀ {key : Str} {kind kind' : Kind}, kindOf key = some kind → kindOf key = some kind' → kind = kind' := by
      intro key kind kind' h1 h2
      rw [h1] at h2
      injection h2
    obtain ⟨saved', hs', hload⟩ := reload_core (d := partDict d parts[i] i (configPath tdir table "pkl".toList)) (q := tableOfPart tdir table i)
      (by
        intro key kind hk hf
        by_cases k1 : key = "a_coeffs_range".toList
        · subst k1
          have := kind_of hk (show kindOf "a_coeffs_range".toList = some .json by decide)
          subst this
          refine ⟨_, partDict_a .., ?_⟩
          rw [value_str_int (rangesVal_ints _), Config.cast, if_neg (not_none_repr (rangesVal_ints _)), parse, loads_repr (rangesVal_ints _)]
          rfl
        by_cases k2 : key = "b_coeffs_range".toList
        · subst k2
          have := kind_of hk (show kindOf "b_coeffs_range".toList = some .json by decide)
          subst this
          refine ⟨_, partDict_b .., ?_⟩
          rw [value_str_int (rangesVal_ints _), Config.cast, if_neg (not_none_repr (rangesVal_ints _)), parse, loads_repr (rangesVal_ints _)]
          rfl
        by_cases k3 : key = "hashtable_file".toList
        · subst k3
          have := kind_of hk (show kindOf "hashtable_file".toList = some .path by decide)
          subst this
          exact ⟨_, hfile, tableOfPart_path ht hp i⟩
        rw [partDict_other k1 k2 k3]
        exact load_round h hl hj hk hf k3)
      (by rw [partDict_other (by decide) (by decide) (by decide)]; exact hfd) hft hfc hfg
      (by rw [partDict_other (by decide) (by decide) (by decide)]; exact hg) hga hfile
      (by rw [partDict_other (by decide) (by decide) (by decide)]; exact hop) hmem
    rw [e2] at hs'
    injection hs' with hs'
    subst hs'
    obtain ⟨d', hd', he⟩ := hload listdir' f hgen
    refine ⟨d', hd', ?_, ?_, ?_, ?_⟩
    · rw [he _ (by decide), if_neg (by decide), partDict_a]
    · rw [he _ (by decide), if_neg (by decide), partDict_b]
    · rw [he _ (by decide), if_pos rfl]
    · intro key hk hkey
      simp only [List.mem_cons, List.not_mem_nil, or_false, not_or] at hkey
      rw [he _ hk, if_neg hkey.2.2, partDict_other hkey.1 hkey.2.1 hkey.2.2]

/-- **C107 (violated, lhs_type).** For every such configuration in which lhs_type is given: the program ends normally, but all files it has
written for the parts are rejected, whatever the directories hold. -/
theorem C107_lhs_type_violated {listdir : Str → Except PyErr (List Str)} {items : File} {d : Config.Dict} {name ext q : Str} {k : ℕ}
    {a b : Ranges} {parts : List (Ranges × Ranges)} {fs : FS File} {l : LhsType} (h : load listdir items = .ok d)
    (hl : d "lhs_type".toList = some (.lhs l))
    (ha : d "a_coeffs_range".toList = some (.data (rangesVal a))) (hb : d "b_coeffs_range".toList = some (.data (rangesVal b)))
    (hparts : splitParams k (a, b) = .ok parts) (hq : d "hashtable_file".toList = some (.data (.str q)))
    (hc : ConfigPath [] name ext) (hfs : fs.files (dirOfParts [] name k) = none) :
    ∃ fs', main listdir (2 ^ k) (configPath [] name ext) items fs = (fs', .ok ()) ∧
      ∀ i < 2 ^ k, ∃ saved, fs'.files (dirOfParts [] name k ++ '/' :: nameOfPart name ext i) = some saved ∧
        ∀ listdir', ∃ e, load listdir' saved = .error e := by
  have hlen := (C76_partition hparts).1
  have hpath : ∀ i, partConfig (configPath [] name ext) k i = dirOfParts [] name k ++ '/' :: nameOfPart name ext i := by
    intro i
    rw [partConfig_eq hc, if_neg (by simp), List.nil_append]
  have hsplit : ∀ i, (Path.split (dirOfParts [] name k ++ '/' :: nameOfPart name ext i)).1 = dirOfParts [] name k := by
    intro i
    rw [Output.split_join (dirOfParts_ne _ _ _) (dirOfParts_last _ _ _) (nameOfPart_slash hc i)]
  obtain ⟨fs', h1, h2, h3, h4⟩ := main_ok (configfile := configPath [] name ext) (fs := fs) h ha hb hq hparts
    (by rw [distroDir_eq hc]; exact hfs)
    (.inl (by rw [distroDir_eq hc, split_noslash (dirOfParts_slash hc k)]))
    (fun j => .inr (.inl (by rw [hpath, hsplit, distroDir_eq hc])))
  refine ⟨fs', h1, fun i hi => ?_⟩
  obtain ⟨saved, e1, e2⟩ := h4 i (hlen ▸ hi)
  rw [hpath] at e1
  refine ⟨saved, e1, fun listdir' => C72_lhs_type_violated (l := l) ?_ e2⟩
  rw [partDict_other (by decide) (by decide) (by decide)]
  exact hl

/-- **C107 (violated, other directory).** For every configuration file `<dir>/<name>.<ext>` with a relative directory, and every file system
in which this directory exists and `<dir>/<name>_dist_<2^k>` does not contain a directory `<dir>`: the program creates the directory, writes
no file and ends with FileNotFoundError. -/
theorem C107_directory_violated {listdir : Str → Except PyErr (List Str)} {items : File} {d : Config.Dict} {dir name ext q : Str} {k : ℕ}
    {a b : Ranges} {parts : List (Ranges × Ranges)} {fs : FS File} (h : load listdir items = .ok d)
    (ha : d "a_coeffs_range".toList = some (.data (rangesVal a))) (hb : d "b_coeffs_range".toList = some (.data (rangesVal b)))
    (hparts : splitParams k (a, b) = .ok parts) (hq : d "hashtable_file".toList = some (.data (.str q)))
    (hc : ConfigPath (dir ++ ['/']) name ext) (hd0 : dir ≠ []) (hd1 : dir.getLast? ≠ some '/') (hd2 : dir.head? ≠ some '/')
    (hfs : fs.files (dirOfParts (dir ++ ['/']) name k) = none) (hdir : fs.dirs dir = true)
    (hno : fs.dirs (dirOfParts (dir ++ ['/']) name k ++ '/' :: dir) = false) :
    ∃ fs', main listdir (2 ^ k) (configPath (dir ++ ['/']) name ext) items fs = (fs', .error .fileNotFound) ∧ fs'.files = fs.files := by
  have hlen := (C76_partition hparts).1
  have hhead : (dir ++ ['/']).head? ≠ some '/' := by
    cases dir with
    | nil => exact absurd rfl hd0
    | cons c dir => simpa using hd2
  have hpath : partConfig (configPath (dir ++ ['/']) name ext) k 0 =
      (dirOfParts (dir ++ ['/']) name k ++ '/' :: dir) ++ '/' :: nameOfPart name ext 0 := by
    rw [partConfig_eq hc, if_neg hhead]
    simp
  have hlast : (dirOfParts (dir ++ ['/']) name k ++ '/' :: dir).getLast? ≠ some '/' := by
    obtain ⟨x, c, rfl⟩ : ∃ x c, dir = x ++ [c] := ⟨dir.dropLast, dir.getLast hd0, (List.dropLast_append_getLast hd0).symm⟩
    rw [show dirOfParts ((x ++ [c]) ++ ['/']) name k ++ '/' :: (x ++ [c]) = (dirOfParts ((x ++ [c]) ++ ['/']) name k ++ '/' :: x) ++ [c] by simp,
      List.getLast?_concat]
    simpa using hd1
  have hsplit : (Path.split (partConfig (configPath (dir ++ ['/']) name ext) k 0)).1 = dirOfParts (dir ++ ['/']) name k ++ '/' :: dir := by
    rw [hpath, Output.split_join (by simp) hlast (nameOfPart_slash hc 0)]
  have hnslash : '/' ∉ name ++ "_dist_".toList ++ strNat (2 ^ k) := by
    intro hm
    simp only [List.mem_append] at hm
    rcases hm with (hm | hm) | hm
    · exact hc.hname hm
    · exact absurd hm (by decide)
    · exact strNat_ne_slash _ hm
  obtain ⟨fs1, h1, h2, h3⟩ := ensureDir_ok hfs (.inr (by
    rw [show dirOfParts (dir ++ ['/']) name k = dir ++ '/' :: (name ++ "_dist_".toList ++ strNat (2 ^ k)) by simp [dirOfParts],
      Output.split_join hd0 hd1 hnslash]
    exact hdir))
  obtain ⟨part, rest, rfl⟩ : ∃ p r, parts = p :: r := List.exists_cons_of_ne_nil (by
    rintro rfl
    have : 0 < 2 ^ k := by positivity
    rw [← hlen] at this
    exact absurd this (by simp))
  obtain ⟨saved, hs, -⟩ := part_saved h hq part 0
  refine ⟨fs1, ?_, h2⟩
  rw [main, PyM.bind_ok (s' := fs) (a := k) (by rw [lift, exponent_pow]), PyM.bind_ok (s' := fs) (a := d) (by rw [lift, h]),
    PyM.bind_ok (by rw [distroDir_eq hc]; exact h1), PyM.bind_ok (s' := fs1) (a := part :: rest)
      (by rw [lift, partsOf, ha, hb]; simp only [dataOf, rangesOf_val, hparts]),
    writeParts, PyM.bind_ok (s' := fs1) (a := saved) (by rw [lift, hs])]
  refine PyM.bind_error ?_
  rw [write, hsplit, if_pos]
  rw [h3, hno]
  simp

/-- **C107 (violated, absolute path).** For every configuration file `/<dir>/<name>.<ext>` given by its absolute path, in an existing directory:
the program ends normally and creates the directory `/<dir>/<name>_dist_<2^k>`, but writes the configurations of the parts beside the
original one; no file in that directory is created or changed. -/
theorem C107_absolute_violated {listdir : Str → Except PyErr (List Str)} {items : File} {d : Config.Dict} {dir name ext q : Str} {k : ℕ}
    {a b : Ranges} {parts : List (Ranges × Ranges)} {fs : FS File} (h : load listdir items = .ok d)
    (ha : d "a_coeffs_range".toList = some (.data (rangesVal a))) (hb : d "b_coeffs_range".toList = some (.data (rangesVal b)))
    (hparts : splitParams k (a, b) = .ok parts) (hq : d "hashtable_file".toList = some (.data (.str q)))
    (hc : ConfigPath (dir ++ ['/']) name ext) (hd1 : dir.getLast? ≠ some '/') (hd2 : dir.head? = some '/')
    (hfs : fs.files (dirOfParts (dir ++ ['/']) name k) = none) (hdir : fs.dirs dir = true) :
    ∃ fs', main listdir (2 ^ k) (configPath (dir ++ ['/']) name ext) items fs = (fs', .ok ()) ∧
      (∀ i < 2 ^ k, (fs'.files (dir ++ '/' :: nameOfPart name ext i)).isSome) ∧
      ∀ f, '/' ∉ f → fs'.files (dirOfParts (dir ++ ['/']) name k ++ '/' :: f) = fs.files (dirOfParts (dir ++ ['/']) name k ++ '/' :: f) := by
  have hlen := (C76_partition hparts).1
  have hd0 : dir ≠ [] := by
    rintro rfl
    cases hd2
  have hhead : (dir ++ ['/']).head? = some '/' := by
    cases dir with
    | nil => rfl
    | cons c dir => simpa using hd2
  have hpath : ∀ i, partConfig (configPath (dir ++ ['/']) name ext) k i = dir ++ '/' :: nameOfPart name ext i := by
    intro i
    rw [partConfig_eq hc, if_pos hhead]
    simp
  have hsplit : ∀ i, Path.split (dir ++ '/' :: nameOfPart name ext i) = (dir, nameOfPart name ext i) := fun i =>
    Output.split_join hd0 hd1 (nameOfPart_slash hc i)
  have hnslash : '/' ∉ name ++ "_dist_".toList ++ strNat (2 ^ k) := by
    intro hm
    simp only [List.mem_append] at hm
    rcases hm with (hm | hm) | hm
    · exact hc.hname hm
    · exact absurd hm (by decide)
    · exact strNat_ne_slash _ hm
  have hdist : dirOfParts (dir ++ ['/']) name k = dir ++ '/' :: (name ++ "_dist_".toList ++ strNat (2 ^ k)) := by simp [dirOfParts]
  obtain ⟨fs', h1, h2, h3, h4⟩ := main_ok (configfile := configPath (dir ++ ['/']) name ext) (fs := fs) h ha hb hq hparts
    (by rw [distroDir_eq hc]; exact hfs)
    (.inr (by rw [distroDir_eq hc, hdist, Output.split_join hd0 hd1 hnslash]; exact hdir))
    (fun j => .inr (.inr (by rw [hpath, hsplit]; exact hdir)))
  refine ⟨fs', h1, fun i hi => ?_, fun f hf => ?_⟩
  · obtain ⟨saved, e1, -⟩ := h4 i (hlen ▸ hi)
    rw [hpath] at e1
    rw [e1]
    rfl
  · refine h3 _ fun j _ e => ?_
    rw [hpath] at e
    have e1 := congrArg (fun p => (Path.split p).1) e
    simp only [hsplit, Output.split_join (dirOfParts_ne _ _ _) (dirOfParts_last _ _ _) hf] at e1
    rw [hdist] at e1
    simpa using congrArg List.length e1

/-- **C107 (number of parts).** For every number that is not a power of two: ValueError, and nothing is written. -/
theorem C107_power (listdir : Str → Except PyErr (List Str)) {n : ℤ} (hn : ∀ k : ℕ, n ≠ 2 ^ k) (configfile : Str) (items : File) (fs : FS File) :
    main listdir n configfile items fs = (fs, .error .valueError) := by
  rw [main]
  refine PyM.bind_error ?_
  rw [lift, exponent]
  split
  · rfl
  · rw [if_neg fun e => hn _ e.symm]

/-! ### Examples -/

/-- A search with two polynomials. -/
def searchItems : File :=
  [("hashtable_file_operation".toList, "generate".toList), ("hashtable_file".toList, "h.pkl".toList),
   ("postproc_funcs_filter".toList, "[\"safe_inverse\"]".toList), ("gen_hashtable_only".toList, "auto".toList),
   ("a_coeffs_range".toList, "[[[0, 5], [-3, 4]]]".toList), ("b_coeffs_range".toList, "[[[1, 2], [0, 3]]]".toList)]

/-- The same with lhs_type. -/
def searchLhsItems : File := ("lhs_type".toList, "ULCD".toList) :: searchItems

def searchA : Ranges := [[(0, 5), (-3, 4)]]
def searchB : Ranges := [[(1, 2), (0, 3)]]

theorem ranges_read {listdir : Str → Except PyErr (List Str)} {items : File} {d : Config.Dict} (h : load listdir items = .ok d) {key t : Str}
    {rs : Ranges} (hk : kindOf key = some .json) (h1 : key ≠ "hashtable_file".toList) (h2 : key ≠ filterKey)
    (h3 : key ≠ "gen_hashtable_only".toList) (hw : written items key = some t) (ht : t = (rangesVal rs).repr) :
    d key = some (.data (rangesVal rs)) := by
  obtain ⟨d0, f, is, h0, -, -, hfin⟩ := load_ok h
  obtain ⟨w, hw', e⟩ := readItems_written hk h0 hw
  rw [finish_other hfin h3, Config.Dict.set, if_neg h2, Config.Dict.set, if_neg h1, fillMissing, e]
  rw [ht, Config.cast, if_neg (not_none_repr (rangesVal_ints _)), parse, loads_repr (rangesVal_ints _)] at hw'
  injection hw' with hw'
  rw [← hw']

theorem configPath_search : ConfigPath [] "run".toList "ini".toList := ⟨.inl rfl, by decide, by decide, by decide, by decide⟩

/-- An empty file system. -/
def emptyFS : FS File := ⟨fun _ => false, fun _ => none⟩

/-- The hypotheses of `C107_parts_partial` hold for `searchItems` in the file `run.ini`, split into four parts. -/
example : ∃ d parts, load emptyDir searchItems = .ok d ∧ d "lhs_type".toList = some (.data .null) ∧
    (∀ k ∈ listOptions, ∀ v, d k = some v → v = .data .null ∨ ∃ j, v = .data j ∧ IntLists j) ∧
    d "a_coeffs_range".toList = some (.data (rangesVal searchA)) ∧ d "b_coeffs_range".toList = some (.data (rangesVal searchB)) ∧
    splitParams 2 (searchA, searchB) = .ok parts ∧ ConfigPath "./".toList "h_v1".toList "pkl".toList ∧
    PlainPath (configPath "./".toList "h_v1".toList "pkl".toList) ∧
    d "hashtable_file".toList = some (.data (.str (configPath "./".toList "h_v1".toList "pkl".toList))) ∧
    d "hashtable_file_operation".toList = some (.data (.str "generate".toList)) ∧ ConfigPath [] "run".toList "ini".toList ∧
    emptyFS.files (dirOfParts [] "run".toList 2) = none := by
  obtain ⟨d, hd, hfile⟩ := of_textOf (x := load emptyDir searchItems) (k := "hashtable_file".toList) (s := "./h_v1.pkl".toList)
    (by decide +kernel)
  have ha : d "a_coeffs_range".toList = some (.data (rangesVal searchA)) :=
    ranges_read hd (t := "[[[0, 5], [-3, 4]]]".toList) (by decide) (by decide) (by decide) (by decide) (by decide +kernel) (by decide +kernel)
  have hb : d "b_coeffs_range".toList = some (.data (rangesVal searchB)) :=
    ranges_read hd (t := "[[[1, 2], [0, 3]]]".toList) (by decide) (by decide) (by decide) (by decide) (by decide +kernel) (by decide +kernel)
  refine ⟨d, [([[(0, 1), (-3, 4)]], searchB), ([[(1, 2), (-3, 4)]], searchB), ([[(2, 3), (-3, 4)]], searchB), ([[(3, 5), (-3, 4)]], searchB)], hd,
    C73_missing_partial hd (by decide +kernel) (by decide +kernel), ?_, ha, hb, rfl,
    ⟨.inr rfl, by decide, by decide, by decide, by decide⟩, ⟨by decide, ?_⟩, hfile, ?_, configPath_search, rfl⟩
  · intro k hk v hv
    simp only [listOptions, List.mem_cons, List.not_mem_nil, or_false] at hk
    rcases hk with rfl | rfl | rfl | rfl
    · rw [C73_missing_partial hd (by decide +kernel) (by decide +kernel)] at hv
      injection hv with hv
      exact .inl hv.symm
    · rw [ha] at hv
      injection hv with hv
      exact .inr ⟨_, hv.symm, rangesVal_ints _⟩
    · rw [hb] at hv
      injection hv with hv
      exact .inr ⟨_, hv.symm, rangesVal_ints _⟩
    · rw [C73_missing_partial hd (by decide +kernel) (by decide +kernel)] at hv
      injection hv with hv
      exact .inl hv.symm
  · intro c hc
    have : c = '.' := by simpa [configPath] using hc.symm
    subst this
    unfold Space
    decide
  · have := load_string hd (k := "hashtable_file_operation".toList) (t := "generate".toList) (by decide) (by decide +kernel) (by decide)
    rw [this, show stringParser "generate".toList = .str "generate".toList by rfl]

/-- The table chosen for part 3 when no versions exist. -/
example : genFilename emptyDir (.str "generate".toList) (.str (tableOfPart "./".toList "h_v1".toList 3)) =
    .ok (.str "./h_v1_part03_v1.pkl".toList) := of_strResult (by decide +kernel)

/-- The hypotheses of `C107_lhs_type_violated` hold for `searchLhsItems` in the file `run.ini`. -/
example : ∃ d parts, load emptyDir searchLhsItems = .ok d ∧ d "lhs_type".toList = some (.lhs .ulcd) ∧
    d "a_coeffs_range".toList = some (.data (rangesVal searchA)) ∧ d "b_coeffs_range".toList = some (.data (rangesVal searchB)) ∧
    splitParams 1 (searchA, searchB) = .ok parts ∧ d "hashtable_file".toList = some (.data (.str "./h_v1.pkl".toList)) := by
  obtain ⟨d, hd, hfile⟩ := of_textOf (x := load emptyDir searchLhsItems) (k := "hashtable_file".toList) (s := "./h_v1.pkl".toList)
    (by decide +kernel)
  refine ⟨d, [([[(0, 2), (-3, 4)]], searchB), ([[(2, 5), (-3, 4)]], searchB)], hd, ?_,
    ranges_read hd (t := "[[[0, 5], [-3, 4]]]".toList) (by decide) (by decide) (by decide) (by decide) (by decide +kernel) (by decide +kernel),
    ranges_read hd (t := "[[[1, 2], [0, 3]]]".toList) (by decide) (by decide) (by decide) (by decide) (by decide +kernel) (by decide +kernel),
    rfl, hfile⟩
  have h1 : (match load emptyDir searchLhsItems with
    | .error _ => false
    | .ok d => (match d "lhs_type".toList with | some (.lhs .ulcd) => true | _ => false)) = true := by decide +kernel
  rw [hd] at h1
  simp only at h1
  split at h1
  · rename_i e; exact e
  · cases h1

/-- The paths of `C107_directory_violated` and `C107_absolute_violated`: `conf/run.ini` and `/x/run.ini`, with the file that is to be
written for the first part. -/
example : ConfigPath ("conf".toList ++ ['/']) "run".toList "ini".toList ∧ ConfigPath ("/x".toList ++ ['/']) "run".toList "ini".toList ∧
    partConfig "conf/run.ini".toList 2 0 = "conf/run_dist_4/conf/run_0.ini".toList ∧ partConfig "/x/run.ini".toList 2 0 = "/x/run_0.ini".toList :=
  ⟨⟨.inr rfl, by decide, by decide, by decide, by decide⟩, ⟨.inr rfl, by decide, by decide, by decide, by decide⟩, by decide +kernel,
    by decide +kernel⟩

/-- A file system with the directories `conf` and `/x`. -/
def someFS : FS File := ⟨fun p => p = "conf".toList || p = "/x".toList, fun _ => none⟩

example : someFS.dirs "conf".toList = true ∧ someFS.dirs (dirOfParts ("conf".toList ++ ['/']) "run".toList 2 ++ '/' :: "conf".toList) = false ∧
    someFS.files (dirOfParts ("conf".toList ++ ['/']) "run".toList 2) = none ∧ someFS.dirs "/x".toList = true := by
  refine ⟨by decide, by decide +kernel, rfl, by decide⟩

/-- Six parts are refused. -/
example : ∀ k : ℕ, (6 : ℤ) ≠ 2 ^ k := by
  intro k
  rcases Nat.lt_or_ge k 3 with h | h
  · interval_cases k <;> decide
  · intro e
    have : (2 : ℤ) ^ 3 ≤ 2 ^ k := pow_le_pow_right₀ (by norm_num) h
    omega

end PiCF.DistributeMain
