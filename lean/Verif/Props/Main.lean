import Verif.Spec.Main
import Verif.Props.ConfigFile

/-!
# C75, C83-C85: what a run searches for, and what it stores
-/

namespace PiCF.Main
open PiCF.Hashtable PiCF.Config PiCF.Spec

variable {S : Type}

/-- A generator without index. -/
def plainGen : Str → Option Gen := fun s =>
  [("pi".toList, ⟨ConstFun.pi, []⟩), ("e".toList, ⟨.e, []⟩), ("euler_masch".toList, ⟨.eulerMasch, []⟩),
    ("phi".toList, ⟨.phi, []⟩), ("apery".toList, ⟨.apery, []⟩)].lookup s

theorem chooseGen_plain {c : Str} (hc : c ∈ plainNames) (i : Option ℤ) :
    ∃ g, chooseGen (.str c) i = .ok (g, false) ∧ plainGen c = some g := by
  simp only [plainNames, List.mem_cons, List.not_mem_nil, or_false] at hc
  rcases hc with rfl | rfl | rfl | rfl | rfl <;> exact ⟨_, rfl, rfl⟩

theorem plainGen_call {K : Consts} {rnd : ℤ → ℚ → ℚ} {c : Str} {i : Option ℤ} {x : ℚ} (hx : Constant K c i x) {g : Gen}
    (hg : plainGen c = some g) (dps : ℤ) : g.call K rnd dps = (dps, .ok (rnd dps x)) := by
  cases hx with
  | pi => injection hg with hg; subst hg; rfl
  | e => injection hg with hg; subst hg; rfl
  | eulerMasch => injection hg with hg; subst hg; rfl
  | phi => injection hg with hg; subst hg; rfl
  | apery _ x h =>
    injection hg with hg
    subst hg
    simp only [Gen.call, ConstFun.call, ConstFun.body, zetaAt, h]
    rfl
  | feig => cases hg
  | percolation => cases hg
  | zeta => cases hg

/-- The stages of a run that gets as far as the search. -/
theorem main_eq {K : Consts} {rnd : ℤ → ℚ → ℚ} {O : Ops S} {d : Config.Dict} {g : Gen} {op file : Str} {c : Json.Val}
    (hc : dataOf (d "const".toList) = c) (hg : chooseGen c (indexOf d) = .ok (g, false))
    (hop : dataOf (d "hashtable_file_operation".toList) = .str op) (hf : dataOf (d "hashtable_file".toList) = .str file) (w : World S) :
    main K rnd O d w =
      match obtain O d g c op file w with
      | (w, .error e) => (w, .error e)
      | (w, .ok m) =>
        match buildStore O d op file m w with
        | (w, .error e) => (w, .error e)
        | (w, .ok m) => searchRest K rnd O d m w := by
  unfold main
  rw [hc, hg]
  simp only [hop, hf]
  rfl

theorem obtain_new {O : Ops S} {d : Config.Dict} {g : Gen} {c : Json.Val} {op file : Str} {w w' : World S} {r : Except PyErr (Mitm S)}
    (hop : op ≠ "use".toList) (h : obtain O d g c op file w = (w', r)) :
    w'.searches = w.searches ∧ w'.files = w.files ∧ ∀ m, r = .ok m → w'.dps = decimalPrec ∧ m.target = g ∧ m.name = c := by
  unfold obtain at h
  split at h
  · rename_i hop'
    rcases hop' with rfl | rfl
    · exact absurd rfl hop
    · split at h
      · injection h with h1 h2
        subst h1 h2
        exact ⟨rfl, rfl, by simp⟩
      · rw [if_pos rfl] at h
        split at h
        · injection h with h1 h2
          subst h1 h2
          exact ⟨rfl, rfl, by simp⟩
        · injection h with h1 h2
          subst h1 h2
          refine ⟨rfl, rfl, fun m hm => ?_⟩
          injection hm with hm
          subst hm
          exact ⟨rfl, rfl, rfl⟩
  · split at h
    · split at h
      · injection h with h1 h2
        subst h1 h2
        exact ⟨rfl, rfl, by simp⟩
      · injection h with h1 h2
        subst h1 h2
        refine ⟨rfl, rfl, fun m hm => ?_⟩
        injection hm with hm
        subst hm
        exact ⟨rfl, rfl, rfl⟩
    · injection h with h1 h2
      subst h1 h2
      exact ⟨rfl, rfl, by simp⟩

theorem obtain_use {O : Ops S} {d : Config.Dict} {g : Gen} {c : Json.Val} {file : Str} (w : World S) :
    obtain O d g c "use".toList file w = match w.files file with
      | none => (w, .error .fileNotFound)
      | some m => (w, .ok m) := by
  unfold obtain
  rw [if_pos (.inl rfl)]
  cases w.files file with
  | none => rfl
  | some m =>
    simp only
    rw [if_neg (by decide)]

theorem buildStore_spec {O : Ops S} {d : Config.Dict} {op file : Str} {m : Mitm S} {w w' : World S} {r : Except PyErr (Mitm S)}
    (h : buildStore O d op file m w = (w', r)) :
    w'.searches = w.searches ∧ w'.dps = w.dps ∧ ∀ m', r = .ok m' → m'.target = m.target ∧ m'.name = m.name := by
  unfold buildStore at h
  split at h
  · split at h
    · injection h with h1 h2
      subst h1 h2
      exact ⟨rfl, rfl, by simp⟩
    · injection h with h1 h2
      subst h1 h2
      refine ⟨rfl, rfl, fun m hm => ?_⟩
      injection hm with hm
      subst hm
      exact ⟨rfl, rfl⟩
  · injection h with h1 h2
    subst h1 h2
    refine ⟨rfl, rfl, fun m hm => ?_⟩
    injection hm with hm
    subst hm
    exact ⟨rfl, rfl⟩

/-- What the last stage records. -/
theorem searchRest_spec {K : Consts} {rnd : ℤ → ℚ → ℚ} {O : Ops S} {d : Config.Dict} {m : Mitm S} {w : World S} {x : ℚ} {dps : ℤ}
    (hx : m.target.call K rnd w.dps = (dps, .ok x)) :
    (searchRest K rnd O d m w).1.searches =
      if truthy (dataOf (d "gen_hashtable_only".toList)) then w.searches else w.searches ++ [(x, m.name, m.rest)] := by
  unfold searchRest
  split
  · rfl
  · rw [hx]
    simp only
    split <;> rfl

/-! ### C75 -/

/-- **C75 (generate and expand, partial).** For all numbers, roundings, configurations with operation generate or expand and a
constant without index, stored hashtables, and behaviours of the other steps: a run either does not search, or searches exactly
once, for the value of the configured constant with 50 digits, and reports its results under the configured name; a run that
returns normally and is not restricted to the hashtable does search.
Missing: constants with an index, and operation use, see `C75_zeta_violated`, `C75_undefined_violated`, `C75_use_violated`. -/
theorem C75_new_partial {K : Consts} {rnd : ℤ → ℚ → ℚ} {O : Ops S} {d : Config.Dict} {op file c : Str} {x : ℚ}
    (hop : dataOf (d "hashtable_file_operation".toList) = .str op) (hop' : op ≠ "use".toList)
    (hf : dataOf (d "hashtable_file".toList) = .str file) (hc : dataOf (d "const".toList) = .str c) (hcp : c ∈ plainNames)
    (hx : Constant K c (indexOf d) x) (w : World S) :
    ((main K rnd O d w).1.searches = w.searches ∨ ∃ s, (main K rnd O d w).1.searches = w.searches ++ [(rnd 50 x, .str c, s)]) ∧
    ((main K rnd O d w).2 = .ok () → truthy (dataOf (d "gen_hashtable_only".toList)) = false →
      ∃ s, (main K rnd O d w).1.searches = w.searches ++ [(rnd 50 x, .str c, s)]) := by
  obtain ⟨g, hg, hg'⟩ := chooseGen_plain hcp (indexOf d)
  rw [main_eq hc hg hop hf]
  cases ho : obtain O d g (.str c) op file w with
  | mk w1 r1 =>
    obtain ⟨h1, -, h3⟩ := obtain_new hop' ho
    cases r1 with
    | error e => exact ⟨.inl h1, by simp⟩
    | ok m =>
      obtain ⟨h3, h4, h5⟩ := h3 m rfl
      simp only
      cases hb : buildStore O d op file m w1 with
      | mk w2 r2 =>
        obtain ⟨h6, h7, h8⟩ := buildStore_spec hb
        cases r2 with
        | error e => exact ⟨.inl (h6.trans h1), by simp⟩
        | ok m' =>
          obtain ⟨h8, h9⟩ := h8 m' rfl
          simp only
          have hcall : m'.target.call K rnd w2.dps = (w2.dps, .ok (rnd 50 x)) := by
            rw [h8, h4, plainGen_call hx hg', h7, h3]
            rfl
          rw [searchRest_spec hcall, h6, h1, h9, h5]
          split
          · exact ⟨.inl rfl, fun _ h => by simp_all⟩
          · exact ⟨.inr ⟨_, rfl⟩, fun _ _ => ⟨_, rfl⟩⟩

/-- **C75 (use, partial).** The same with operation use, if the stored hashtable was made for the configured constant (the
digits are those of the current precision). -/
theorem C75_use_partial {K : Consts} {rnd : ℤ → ℚ → ℚ} {O : Ops S} {d : Config.Dict} {file c : Str} {x : ℚ} {m : Mitm S}
    (hop : dataOf (d "hashtable_file_operation".toList) = .str "use".toList)
    (hf : dataOf (d "hashtable_file".toList) = .str file) (hc : dataOf (d "const".toList) = .str c) (hcp : c ∈ plainNames)
    (hx : Constant K c (indexOf d) x) (w : World S) (hm : w.files file = some m) (hmt : some m.target = plainGen c)
    (hmn : m.name = .str c) :
    (main K rnd O d w).1.searches =
      if truthy (dataOf (d "gen_hashtable_only".toList)) then w.searches else w.searches ++ [(rnd w.dps x, .str c, m.rest)] := by
  obtain ⟨g, hg, -⟩ := chooseGen_plain hcp (indexOf d)
  rw [main_eq hc hg hop hf, obtain_use, hm]
  simp only
  rw [show buildStore O d "use".toList file m w = (w, .ok m) by unfold buildStore; rw [if_neg (by decide)]]
  simp only
  rw [searchRest_spec (plainGen_call hx hmt.symm w.dps), hmn]

/-- A configuration given by the values of some options. -/
def dictOf (l : List (Str × Json.Val)) : Config.Dict := fun k => (l.lookup k).map .data

/-- A search for a constant in a stored hashtable. -/
def useConfig (const : Str) : Config.Dict :=
  dictOf [("const".toList, .str const), ("hashtable_file_operation".toList, .str "use".toList),
    ("hashtable_file".toList, .str "./h_v1.pkl".toList), ("gen_hashtable_only".toList, .bool false)]

/-- A search after generating a hashtable. -/
def newConfig (const : Str) (i : ℤ) : Config.Dict :=
  dictOf [("const".toList, .str const), ("i".toList, .int i), ("hashtable_file_operation".toList, .str "generate".toList),
    ("hashtable_file".toList, .str "./h_v1.pkl".toList), ("gen_hashtable_only".toList, .bool false)]

/-- Steps that do nothing. -/
def idOps : Ops Unit := ⟨fun _ => .ok (), fun _ _ => .ok (), fun _ _ => .ok (), fun _ _ _ => .ok (), fun _ _ _ => .ok ()⟩

/-- A store with one hashtable, made for `f`. -/
def oneFile (f : ConstFun) (name : Str) : World Unit :=
  ⟨150, fun p => if p = "./h_v1.pkl".toList then some ⟨⟨f, []⟩, .str name, ()⟩ else none, []⟩

example (K : Consts) (rnd : ℤ → ℚ → ℚ) : (main K rnd idOps (newConfig "phi".toList 3) (oneFile .pi "pi".toList)).1.searches =
    [(rnd 50 K.phi, .str "phi".toList, ())] := by
  obtain ⟨s, hs⟩ := (C75_new_partial (K := K) (rnd := rnd) (O := idOps) (d := newConfig "phi".toList 3) (op := "generate".toList)
    (file := "./h_v1.pkl".toList) (c := "phi".toList) rfl (by decide) rfl rfl (by decide) (.phi _) (oneFile .pi "pi".toList)).2 rfl rfl
  exact hs

example (K : Consts) (rnd : ℤ → ℚ → ℚ) : (main K rnd idOps (useConfig "e".toList) (oneFile .e "e".toList)).1.searches =
    [(rnd 150 K.e, .str "e".toList, ())] :=
  C75_use_partial (K := K) (rnd := rnd) (O := idOps) (d := useConfig "e".toList) (file := "./h_v1.pkl".toList) (c := "e".toList)
    rfl rfl rfl (by decide) (.e _) (oneFile .e "e".toList) rfl rfl rfl

/-- **C75 (violated, zeta).** With const zeta and operation generate or expand no run ever searches, whatever the index: a
run that is not restricted to the hashtable raises an exception (the index is taken for the precision, and the argument is
missing).  If the other steps succeed the exception is TypeError, and the precision of all further calculations is set to the index. -/
theorem C75_zeta_violated {K : Consts} {rnd : ℤ → ℚ → ℚ} {O : Ops S} {d : Config.Dict} {op file : Str}
    (hop : dataOf (d "hashtable_file_operation".toList) = .str op) (hop' : op ≠ "use".toList)
    (hf : dataOf (d "hashtable_file".toList) = .str file) (hc : dataOf (d "const".toList) = .str "zeta".toList)
    (hgen : truthy (dataOf (d "gen_hashtable_only".toList)) = false) (w : World S) :
    (main K rnd O d w).1.searches = w.searches ∧ ∃ e, (main K rnd O d w).2 = .error e := by
  have hg : chooseGen (.str "zeta".toList) (indexOf d) = .ok (⟨.zeta, [indexOf d]⟩, false) := rfl
  rw [main_eq hc hg hop hf]
  cases ho : obtain O d ⟨.zeta, [indexOf d]⟩ (.str "zeta".toList) op file w with
  | mk w1 r1 =>
    obtain ⟨h1, -, h3⟩ := obtain_new hop' ho
    cases r1 with
    | error e => exact ⟨h1, e, rfl⟩
    | ok m =>
      obtain ⟨h3, h4, h5⟩ := h3 m rfl
      simp only
      cases hb : buildStore O d op file m w1 with
      | mk w2 r2 =>
        obtain ⟨h6, h7, h8⟩ := buildStore_spec hb
        cases r2 with
        | error e => exact ⟨h6.trans h1, e, rfl⟩
        | ok m' =>
          obtain ⟨h8, h9⟩ := h8 m' rfl
          have hcall : m'.target.call K rnd w2.dps = (setPrecision (indexOf d) w2.dps, .error .typeError) := by
            rw [h8, h4]
            rfl
          unfold searchRest
          simp only
          rw [hgen, hcall]
          exact ⟨h6.trans h1, _, rfl⟩

example (K : Consts) (rnd : ℤ → ℚ → ℚ) : (main K rnd idOps (newConfig "zeta".toList 3) (oneFile .pi "pi".toList)).2 = .error .typeError ∧
    (main K rnd idOps (newConfig "zeta".toList 3) (oneFile .pi "pi".toList)).1.dps = 3 := ⟨rfl, rfl⟩

/-- **C75 (violated, feig and percolation).** With these documented constants every run, with every operation and index,
raises NameError before it does anything. -/
theorem C75_undefined_violated {K : Consts} {rnd : ℤ → ℚ → ℚ} {O : Ops S} {d : Config.Dict} {c : Str}
    (hc : dataOf (d "const".toList) = .str c) (hc' : c = "feig".toList ∨ c = "percolation".toList) (w : World S) :
    main K rnd O d w = (w, .error .nameError) := by
  have hg : ∃ g, chooseGen (.str c) (indexOf d) = .ok (g, true) := by
    rcases hc' with rfl | rfl <;> exact ⟨_, rfl⟩
  obtain ⟨g, hg⟩ := hg
  unfold main
  rw [hc, hg]

example : dataOf (newConfig "feig".toList 2 "const".toList) = .str "feig".toList := rfl

/-- **C75 (violated, use).** A configuration for the constant e that uses a hashtable stored by a run for pi searches for pi, for all
values of the constants. -/
theorem C75_use_violated (K : Consts) (rnd : ℤ → ℚ → ℚ) :
    dataOf (useConfig "e".toList "const".toList) = .str "e".toList ∧
    (main K rnd idOps (useConfig "e".toList) (oneFile .pi "pi".toList)).1.searches = [(rnd 150 K.pi, .str "pi".toList, ())] ∧
    (main K rnd idOps (useConfig "e".toList) (oneFile .pi "pi".toList)).2 = .ok () :=
  ⟨rfl, rfl, rfl⟩

/-! ### C83-C85 -/

/-- The last stage stores nothing. -/
theorem searchRest_files {K : Consts} {rnd : ℤ → ℚ → ℚ} {O : Ops S} {d : Config.Dict} {m : Mitm S} {w : World S} :
    (searchRest K rnd O d m w).1.files = w.files := by
  unfold searchRest
  split
  · rfl
  · split
    · rfl
    · simp only
      split <;> rfl

theorem obtain_files {O : Ops S} {d : Config.Dict} {g : Gen} {c : Json.Val} {op file : Str} {w : World S} :
    (obtain O d g c op file w).1.files = w.files := by
  by_cases hop : op = "use".toList
  · subst hop
    rw [obtain_use]
    split <;> rfl
  · exact (obtain_new hop rfl).2.1

/-- What a run does to the stored hashtables: nothing, or it stores one object with a completely built table. -/
theorem main_files {K : Consts} {rnd : ℤ → ℚ → ℚ} {O : Ops S} {d : Config.Dict} (w : World S) :
    (main K rnd O d w).1.files = w.files ∨ ∃ op file, ∃ m : Mitm S, ∃ s, dataOf (d "hashtable_file_operation".toList) = .str op ∧
      (op = "expand".toList ∨ op = "generate".toList) ∧ dataOf (d "hashtable_file".toList) = .str file ∧
      O.build d m.rest = .ok s ∧
      (main K rnd O d w).1.files = fun f => if f = file then some { m with rest := s } else w.files f := by
  unfold main
  split
  · exact .inl rfl
  · exact .inl rfl
  · rename_i g hg
    split
    · rename_i op file hop hf
      cases ho : obtain O d g (dataOf (d "const".toList)) op file w with
      | mk w1 r1 =>
        have hw1 : w1.files = w.files := by
          have := obtain_files (O := O) (d := d) (g := g) (c := dataOf (d "const".toList)) (op := op) (file := file) (w := w)
          rw [ho] at this
          exact this
        cases r1 with
        | error e => exact .inl hw1
        | ok m =>
          simp only
          by_cases hop' : op = "expand".toList ∨ op = "generate".toList
          · cases hb : O.build d m.rest with
            | error e =>
              have : buildStore O d op file m w1 = (w1, .error e) := by
                unfold buildStore; rw [if_pos hop', hb]
              rw [this]
              exact .inl hw1
            | ok s =>
              refine .inr ⟨op, file, m, s, hop, hop', hf, hb, ?_⟩
              have : buildStore O d op file m w1 = ({ w1 with files := fun f => if f = file then some { m with rest := s } else w1.files f },
                  .ok { m with rest := s }) := by
                unfold buildStore; rw [if_pos hop', hb]
              rw [this]
              simp only
              rw [searchRest_files]
              simp only
              rw [hw1]
          · left
            have : buildStore O d op file m w1 = (w1, .ok m) := by
              unfold buildStore; rw [if_neg hop']
            rw [this]
            simp only
            rw [searchRest_files]
            exact hw1
    · exact .inl rfl

/-- **C84.** For all runs: the stored hashtables are unchanged, or the only change is that the file named in the configuration
now holds an object whose table was built to the end (so an exception while loading, creating or building leaves every
stored hashtable as it was). -/
theorem C84_complete {K : Consts} {rnd : ℤ → ℚ → ℚ} {O : Ops S} {d : Config.Dict} (w : World S) :
    (main K rnd O d w).1.files = w.files ∨ ∃ file m s s', dataOf (d "hashtable_file".toList) = .str file ∧ O.build d s = .ok s' ∧
      m.rest = s' ∧ (main K rnd O d w).1.files file = some m ∧ ∀ p, p ≠ file → (main K rnd O d w).1.files p = w.files p := by
  rcases main_files (K := K) (rnd := rnd) (O := O) (d := d) w with h | ⟨op, file, m, s, -, -, hf, hb, h⟩
  · exact .inl h
  · refine .inr ⟨file, { m with rest := s }, m.rest, s, hf, hb, rfl, by rw [h]; simp, fun p hp => ?_⟩
    rw [h]
    simp [hp]

/-- **C84 (failed build).** If building the table raises, no stored hashtable changes. -/
theorem C84_failed {K : Consts} {rnd : ℤ → ℚ → ℚ} {O : Ops S} {d : Config.Dict} (hb : ∀ s, ∃ e, O.build d s = .error e) (w : World S) :
    (main K rnd O d w).1.files = w.files := by
  rcases C84_complete (K := K) (rnd := rnd) (O := O) (d := d) w with h | ⟨file, m, s, s', -, h, -⟩
  · exact h
  · obtain ⟨e, he⟩ := hb s
    rw [he] at h
    cases h

example : ∀ s : Unit, ∃ e, ({ idOps with build := fun _ _ => .error .keyboardInterrupt } : Ops Unit).build (newConfig "pi".toList 0) s = .error e :=
  fun _ => ⟨_, rfl⟩

/-- **C85.** With gen_hashtable_only no run searches. -/
theorem C85_only {K : Consts} {rnd : ℤ → ℚ → ℚ} {O : Ops S} {d : Config.Dict} (hgen : truthy (dataOf (d "gen_hashtable_only".toList)) = true)
    (w : World S) : (main K rnd O d w).1.searches = w.searches := by
  unfold main
  split
  · rfl
  · rfl
  · rename_i g hg
    split
    · rename_i op file hop hf
      cases ho : obtain O d g (dataOf (d "const".toList)) op file w with
      | mk w1 r1 =>
        have hw1 : w1.searches = w.searches := by
          by_cases hu : op = "use".toList
          · subst hu
            rw [obtain_use] at ho
            split at ho
            · injection ho with h1; rw [← h1]
            · injection ho with h1; rw [← h1]
          · exact (obtain_new hu ho).1
        cases r1 with
        | error e => exact hw1
        | ok m =>
          simp only
          cases hb : buildStore O d op file m w1 with
          | mk w2 r2 =>
            have := (buildStore_spec hb).1
            cases r2 with
            | error e => exact this.trans hw1
            | ok m' =>
              simp only
              unfold searchRest
              rw [if_pos hgen]
              exact this.trans hw1
    · rfl

/-- Here the object would be searched with gen_hashtable_only=false. -/
example (K : Consts) (rnd : ℤ → ℚ → ℚ) : let d := dictOf [("const".toList, .str "phi".toList),
      ("hashtable_file_operation".toList, .str "generate".toList), ("hashtable_file".toList, .str "./h_v1.pkl".toList),
      ("gen_hashtable_only".toList, .bool true)]
    truthy (dataOf (d "gen_hashtable_only".toList)) = true ∧ (main K rnd idOps d (oneFile .pi "pi".toList)).2 = .ok () ∧
      (main K rnd idOps (newConfig "phi".toList 3) (oneFile .pi "pi".toList)).1.searches.length = 1 :=
  ⟨rfl, rfl, rfl⟩

/-- **C85 (auto).** With gen_hashtable_only=auto in the file, generating and expanding runs never search. -/
theorem C85_auto {K : Consts} {rnd : ℤ → ℚ → ℚ} {O : Ops S} {listdir : Str → Except PyErr (List Str)} {items : List (Str × Str)} {d : Config.Dict}
    (h : load listdir items = .ok d) {t : Str} (ht : written items "gen_hashtable_only".toList = some t)
    (hauto : stringParser t = .str "auto".toList) (hop : dataOf (d "hashtable_file_operation".toList) ≠ .str "use".toList)
    (w : World S) : (main K rnd O d w).1.searches = w.searches := by
  obtain ⟨op, hmem, hd, hg⟩ := C74_auto h
  rw [hd] at hop
  obtain ⟨g1, -⟩ := (hg t ht).1 hauto
  simp only [List.mem_cons, List.not_mem_nil, or_false] at hmem
  refine C85_only ?_ w
  rcases hmem with rfl | rfl | rfl
  · rw [g1 (.inl rfl)]; rfl
  · rw [g1 (.inr rfl)]; rfl
  · exact absurd rfl hop

/-- **C83 (use).** A run with operation use changes no stored hashtable. -/
theorem C83_use {K : Consts} {rnd : ℤ → ℚ → ℚ} {O : Ops S} {d : Config.Dict}
    (hop : dataOf (d "hashtable_file_operation".toList) = .str "use".toList) (w : World S) :
    (main K rnd O d w).1.files = w.files := by
  rcases main_files (K := K) (rnd := rnd) (O := O) (d := d) w with h | ⟨op, file, m, s, h1, h2, -⟩
  · exact h
  · rw [hop] at h1
    injection h1 with h1
    subst h1
    rcases h2 with h2 | h2 <;> exact absurd h2 (by decide)

/-- A search with a stored hashtable. -/
example (K : Consts) (rnd : ℤ → ℚ → ℚ) : dataOf (useConfig "e".toList "hashtable_file_operation".toList) = .str "use".toList ∧
    (main K rnd idOps (useConfig "e".toList) (oneFile .e "e".toList)).2 = .ok () ∧
    ((oneFile .e "e".toList).files "./h_v1.pkl".toList).isSome = true :=
  ⟨rfl, rfl, rfl⟩

/-- **C83 (generate, partial).** For every name of a hashtable without dots and directory in which its versions have numbers of
equal length: a run with operation generate, with the file chosen by the program, changes no existing hashtable. -/
theorem C83_generate_partial {K : Consts} {rnd : ℤ → ℚ → ℚ} {O : Ops S} {d : Config.Dict} {listdir : Str → Except PyErr (List Str)} {p s file : Str}
    {n : ℕ} {files : List Str} (hs : '.' ∉ s) (hne : (Path.split p).2 ≠ []) (hp : Names s (Path.split p).2)
    (hd : listdir (dirOf p) = .ok files) (hv : Versions s n files)
    (hgen : genFilename listdir (.str "generate".toList) (.str p) = .ok (.str file))
    (hf : dataOf (d "hashtable_file".toList) = .str file) (w : World S)
    (hw : ∀ name, w.files (Path.join (dirOf p) name) ≠ none → name ∈ files) (q : Str) (hq : w.files q ≠ none) :
    (main K rnd O d w).1.files q = w.files q := by
  obtain ⟨m, h1, h2, -⟩ := C69_generate_partial hs hne hp hd hv
  rw [h1] at hgen
  injection hgen with hgen
  injection hgen with hgen
  subst hgen
  rcases main_files (K := K) (rnd := rnd) (O := O) (d := d) w with h | ⟨op, file, m', s', -, -, h3, -, h4⟩
  · rw [h]
  · rw [hf] at h3
    injection h3 with h3
    subst h3
    rw [h4]
    simp only
    rw [if_neg]
    rintro rfl
    exact h2 (hw _ hq)

/-- **C83 (violated, expand).** The documentation of expand promises to save to the latest version plus one. In every run with
operation expand in which the steps succeed, the loaded file itself is replaced, and no other file changes. -/
theorem C83_expand_violated {K : Consts} {rnd : ℤ → ℚ → ℚ} {O : Ops S} {d : Config.Dict} {file c : Str} {m : Mitm S} {s s' : S}
    (hop : dataOf (d "hashtable_file_operation".toList) = .str "expand".toList)
    (hf : dataOf (d "hashtable_file".toList) = .str file) (hc : dataOf (d "const".toList) = .str c) (hcp : c ∈ plainNames)
    (w : World S) (hm : w.files file = some m) (hr : O.redefine d m.rest = .ok s) (hb : O.build d s = .ok s') :
    (∃ m', (main K rnd O d w).1.files file = some m' ∧ m'.rest = s') ∧ ∀ p, p ≠ file → (main K rnd O d w).1.files p = w.files p := by
  obtain ⟨g, hg, -⟩ := chooseGen_plain hcp (indexOf d)
  have e : (main K rnd O d w).1.files = fun f => if f = file then some ⟨g, .str c, s'⟩ else w.files f := by
    rw [main_eq hc hg hop hf]
    have ho : obtain O d g (.str c) "expand".toList file w = ({ w with dps := decimalPrec }, .ok ⟨g, .str c, s⟩) := by
      unfold obtain
      rw [if_pos (.inr rfl), hm]
      simp only [if_true, hr]
    rw [ho]
    simp only
    have hbs : buildStore O d "expand".toList file ⟨g, .str c, s⟩ { w with dps := decimalPrec } =
        ({ w with dps := decimalPrec, files := fun f => if f = file then some ⟨g, .str c, s'⟩ else w.files f }, .ok ⟨g, .str c, s'⟩) := by
      unfold buildStore
      rw [if_pos (.inl rfl), hb]
    rw [hbs]
    simp only
    rw [searchRest_files]
  rw [e]
  exact ⟨⟨_, if_pos rfl, rfl⟩, fun p hp => if_neg hp⟩

/-- An expanding run. -/
def expandConfig : Config.Dict :=
  dictOf [("const".toList, .str "pi".toList), ("hashtable_file_operation".toList, .str "expand".toList),
    ("hashtable_file".toList, .str "./h_v1.pkl".toList), ("gen_hashtable_only".toList, .bool true)]

example (K : Consts) (rnd : ℤ → ℚ → ℚ) (O : Ops ℕ) (hr : O.redefine expandConfig 5 = .ok 5) (hb : O.build expandConfig 5 = .ok 6) :
    ∃ m', (main K rnd O expandConfig ⟨150, fun _ => some ⟨⟨.e, []⟩, .str "e".toList, 5⟩, []⟩).1.files "./h_v1.pkl".toList = some m' ∧
      m'.rest = 6 :=
  (C83_expand_violated (m := ⟨⟨.e, []⟩, .str "e".toList, 5⟩) (c := "pi".toList) (file := "./h_v1.pkl".toList) rfl rfl rfl (by decide) _ rfl hr hb).1

example : Versions ['h'] 1 someFiles ∧ ∃ file, genFilename (fun _ => .ok someFiles) (.str "generate".toList) (.str "tables/h.pkl".toList) =
    .ok (.str file) :=
  ⟨someFiles_versions, "tables/h_v3.pkl".toList, of_strResult (by decide +kernel)⟩

/-! ### C86 -/

theorem constant_index {K : Consts} {c : Str} {i : Option ℤ} {x : ℚ} (h : Constant K c i x) :
    (c = "feig".toList → ∃ n : ℕ, i = some (n : ℤ) ∧ K.feig[n]? = some x) ∧
    (c = "percolation".toList → ∃ n : ℕ, i = some (n : ℤ) ∧ K.percolation[n]? = some x) ∧
    (c = "zeta".toList → ∃ n : ℤ, i = some n ∧ K.zeta n = some x) := by
  cases h with
  | feig n x h => exact ⟨fun _ => ⟨n, rfl, h⟩, fun e => absurd e (by decide), fun e => absurd e (by decide)⟩
  | percolation n x h => exact ⟨fun e => absurd e (by decide), fun _ => ⟨n, rfl, h⟩, fun e => absurd e (by decide)⟩
  | zeta n x _ _ h => exact ⟨fun e => absurd e (by decide), fun e => absurd e (by decide), fun _ => ⟨n, rfl, h⟩⟩
  | _ => exact ⟨fun e => absurd e (by decide), fun e => absurd e (by decide), fun e => absurd e (by decide)⟩

/-- **C86 (partial).** A generator without index called without arguments gives the constant with the current precision and
keeps the precision; with a precision it gives the constant with this precision, which stays set.  A generator with index must be
called with the precision (or None) first, then the index. -/
theorem C86_partial (K : Consts) (rnd : ℤ → ℚ → ℚ) (dps : ℤ) :
    (∀ c g x, plainGen c = some g → Constant K c none x → g.f.call K rnd [] dps = (dps, .ok (rnd dps x)) ∧
      ∀ n : ℤ, 0 < n → g.f.call K rnd [some n] dps = (n, .ok (rnd n x))) ∧
    (∀ (i : ℤ) x, Constant K "feig".toList (some i) x → ConstFun.feig.call K rnd [none, some i] dps = (dps, .ok (rnd dps x)) ∧
      ∀ n : ℤ, 0 < n → ConstFun.feig.call K rnd [some n, some i] dps = (n, .ok (rnd n x))) ∧
    (∀ (i : ℤ) x, Constant K "percolation".toList (some i) x →
      ConstFun.percolation.call K rnd [none, some i] dps = (dps, .ok (rnd dps x)) ∧
      ∀ n : ℤ, 0 < n → ConstFun.percolation.call K rnd [some n, some i] dps = (n, .ok (rnd n x))) ∧
    (∀ (i : ℤ) x, Constant K "zeta".toList (some i) x → ConstFun.zeta.call K rnd [none, some i] dps = (dps, .ok (rnd dps x)) ∧
      ∀ n : ℤ, 0 < n → ConstFun.zeta.call K rnd [some n, some i] dps = (n, .ok (rnd n x))) := by
  have hp : ∀ n : ℤ, 0 < n → setPrecision (some n) dps = n := by
    intro n hn
    rw [setPrecision, if_neg (by omega), max_eq_right (by omega)]
  have idx : ∀ (l : List ℚ) (n : ℕ) (x : ℚ), l[n]? = some x → pyIndex l (some n) = .ok x := by
    intro l n x h
    obtain ⟨h1, h2⟩ := List.getElem?_eq_some_iff.1 h
    rw [pyIndex, if_pos ⟨by omega, by omega⟩, if_neg (by omega), Int.toNat_natCast, List.getD_eq_getElem?_getD, h]
    rfl
  refine ⟨fun c g x hg hx => ?_, ?_, ?_, ?_⟩
  · cases hx with
    | pi => injection hg with hg; subst hg; exact ⟨rfl, fun n hn => by rw [ConstFun.call]; simp only [hp n hn]; rfl⟩
    | e => injection hg with hg; subst hg; exact ⟨rfl, fun n hn => by rw [ConstFun.call]; simp only [hp n hn]; rfl⟩
    | eulerMasch => injection hg with hg; subst hg; exact ⟨rfl, fun n hn => by rw [ConstFun.call]; simp only [hp n hn]; rfl⟩
    | phi => injection hg with hg; subst hg; exact ⟨rfl, fun n hn => by rw [ConstFun.call]; simp only [hp n hn]; rfl⟩
    | apery _ x h =>
      injection hg with hg
      subst hg
      refine ⟨?_, fun n hn => ?_⟩
      · simp only [ConstFun.call, ConstFun.body, zetaAt, h]; rfl
      · simp only [ConstFun.call, ConstFun.body, zetaAt, h, hp n hn]; rfl
  · intro i x hx
    obtain ⟨n, hn, h⟩ := (constant_index hx).1 rfl
    rw [hn]
    refine ⟨?_, fun m hm => ?_⟩
    · simp only [ConstFun.call, ConstFun.body, idx _ _ _ h, setPrecision]
      rfl
    · simp only [ConstFun.call, ConstFun.body, idx _ _ _ h, hp m hm]
      rfl
  · intro i x hx
    obtain ⟨n, hn, h⟩ := (constant_index hx).2.1 rfl
    rw [hn]
    refine ⟨?_, fun m hm => ?_⟩
    · simp only [ConstFun.call, ConstFun.body, idx _ _ _ h, setPrecision]
      rfl
    · simp only [ConstFun.call, ConstFun.body, idx _ _ _ h, hp m hm]
      rfl
  · intro i x hx
    obtain ⟨n, hn, h⟩ := (constant_index hx).2.2 rfl
    rw [hn]
    refine ⟨?_, fun m hm => ?_⟩
    · simp only [ConstFun.call, ConstFun.body, zetaAt, h, setPrecision]
      rfl
    · simp only [ConstFun.call, ConstFun.body, zetaAt, h, hp m hm]
      rfl

/-- **C86 (violated).** Called with the index only, as in main.py and process_and_compare.py, the generators with index always raise
TypeError, and a positive index is left as the precision of all further calculations. -/
theorem C86_index_violated (K : Consts) (rnd : ℤ → ℚ → ℚ) (dps i : ℤ) (f : ConstFun)
    (hf : f = .feig ∨ f = .percolation ∨ f = .zeta) : (f.call K rnd [some i] dps).2 = .error .typeError ∧
      (0 < i → (f.call K rnd [some i] dps).1 = i) := by
  have hp : 0 < i → setPrecision (some i) dps = i := by
    intro hn
    rw [setPrecision, if_neg (by omega), max_eq_right (by omega)]
  rcases hf with rfl | rfl | rfl <;> exact ⟨rfl, hp⟩

end PiCF.Main
