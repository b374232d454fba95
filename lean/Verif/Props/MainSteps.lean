import Verif.Model.MainSteps
import Verif.Props.Main

/-!
# C129: when an incomplete configuration is noticed
-/

namespace PiCF.Main
open PiCF.Hashtable PiCF.Config PiCF.Spec

variable {S : Type}

/-- The documented names of constants (main.py:40-43 and 58-65). -/
def constNames : List Str := plainNames ++ ["feig".toList, "percolation".toList, "zeta".toList]

/-- The option is missing, or written as none. -/
def Missing (d : Config.Dict) (k : Str) : Prop := dataOf (d k) = .null

theorem chooseGen_unknown {v : Json.Val} (h : ∀ c ∈ constNames, v ≠ .str c) (i : Option ℤ) : chooseGen v i = .error .valueError := by
  unfold chooseGen
  cases v with
  | str s =>
    simp only
    have hs : ∀ c ∈ constNames, s ≠ c := fun c hc e => h c hc (by rw [e])
    rw [if_neg (hs _ (by simp [constNames, plainNames])), if_neg (hs _ (by simp [constNames, plainNames])),
      if_neg (hs _ (by simp [constNames, plainNames])), if_neg (hs _ (by simp [constNames, plainNames])),
      if_neg (hs _ (by simp [constNames, plainNames])), if_neg (hs _ (by simp [constNames, plainNames])),
      if_neg (hs _ (by simp [constNames, plainNames])), if_neg (hs _ (by simp [constNames, plainNames]))]
  | _ => rfl

/-- **C129 (rejected).** If the file cannot be opened, is not accepted, or has no known constant, the run raises and changes nothing:
no precision, no stored table, no search. -/
theorem C129_rejected {K : Consts} {rnd : ℤ → ℚ → ℚ} {O : Ops S} {listdir : Str → Except PyErr (List Str)} {text : Option Str}
    (h : ∀ t d, text = some t → Ini.loadText listdir t = .ok d → ∀ c ∈ constNames, dataOf (d "const".toList) ≠ .str c) (w : World S) :
    ∃ e, mainFile K rnd O listdir text w = (w, .error e) := by
  unfold mainFile
  cases text with
  | none => exact ⟨_, rfl⟩
  | some t =>
    simp only
    cases hl : Ini.loadText listdir t with
    | error e => exact ⟨e, rfl⟩
    | ok d =>
      simp only [main, chooseGen_unknown (h t d rfl hl)]
      exact ⟨_, rfl⟩

example : Ini.loadText (fun _ => .ok []) "junk".toList = .error .iniError := rfl

/-- **C129 (early, partial).** With operation generate or expand, a missing precision of the hashtable, class of polynomials or range of coefficients
is noticed before anything is stored or searched, if the constructor and `redefine_settings` raise for the first two (None + 1 in
decimal_hashtable.py:16 and 22, a call of None in enum_params.py:69, isinstance with None in line 101) and `build_hashtable` for the others.
Missing: the other options, see `C129_late_violated`. -/
theorem C129_early_partial {K : Consts} {rnd : ℤ → ℚ → ℚ} {T : Steps S} {d : Config.Dict}
    (hcreate : ∀ f p c s i, dataOf p = .null ∨ c = some (.data .null) → ∃ e, T.create f p c s i = .error e)
    (hredefine : ∀ f p c s x, dataOf p = .null ∨ c = some (.data .null) → ∃ e, T.redefine f p c s x = .error e)
    (hbuild : ∀ a b s, dataOf a = .null ∨ dataOf b = .null → ∃ e, T.build a b s = .error e)
    (hop : dataOf (d "hashtable_file_operation".toList) ≠ .str "use".toList)
    (hm : Missing d "hashtable_precision".toList ∨ d "ab_polys_type".toList = some (.data .null) ∨
      Missing d "a_coeffs_range".toList ∨ Missing d "b_coeffs_range".toList) (w : World S) :
    (∃ e, (main K rnd T.ops d w).2 = .error e) ∧ (main K rnd T.ops d w).1.files = w.files ∧
      (main K rnd T.ops d w).1.searches = w.searches := by
  unfold main
  split
  · exact ⟨⟨_, rfl⟩, rfl, rfl⟩
  · exact ⟨⟨_, rfl⟩, rfl, rfl⟩
  · rename_i g hg
    split
    · rename_i op file ho hf
      have hop' : op ≠ "use".toList := fun e => hop (by rw [ho, e])
      cases hob : obtain T.ops d g (dataOf (d "const".toList)) op file w with
      | mk w1 r1 =>
        obtain ⟨h1, h2, -⟩ := obtain_new hop' hob
        cases r1 with
        | error e => exact ⟨⟨_, rfl⟩, h2, h1⟩
        | ok m =>
          have hb : ∃ e, T.ops.build d m.rest = .error e := by
            rcases hm with hm | hm | hm
            · exfalso
              unfold obtain at hob
              split at hob
              · split at hob
                · cases hob
                · split at hob
                  · obtain ⟨e, he⟩ := hredefine (d "postproc_funcs_filter".toList) (d "hashtable_precision".toList) (d "ab_polys_type".toList)
                      (d "ab_polys_special_params".toList) (by assumption : Mitm S).rest (.inl hm)
                    rw [show T.ops.redefine d _ = .error e from he] at hob
                    cases hob
                  · rcases ‹op = "use".toList ∨ op = "expand".toList› with h | h
                    · exact hop' h
                    · exact absurd h ‹_›
              · split at hob
                · obtain ⟨e, he⟩ := hcreate (d "postproc_funcs_filter".toList) (d "hashtable_precision".toList) (d "ab_polys_type".toList)
                    (d "ab_polys_special_params".toList) (d "hashtable_num_of_iterations".toList) (.inl hm)
                  rw [show T.ops.create d = .error e from he] at hob
                  cases hob
                · cases hob
            · exfalso
              unfold obtain at hob
              split at hob
              · split at hob
                · cases hob
                · split at hob
                  · obtain ⟨e, he⟩ := hredefine (d "postproc_funcs_filter".toList) (d "hashtable_precision".toList) (d "ab_polys_type".toList)
                      (d "ab_polys_special_params".toList) (by assumption : Mitm S).rest (.inr hm)
                    rw [show T.ops.redefine d _ = .error e from he] at hob
                    cases hob
                  · rcases ‹op = "use".toList ∨ op = "expand".toList› with h | h
                    · exact hop' h
                    · exact absurd h ‹_›
              · split at hob
                · obtain ⟨e, he⟩ := hcreate (d "postproc_funcs_filter".toList) (d "hashtable_precision".toList) (d "ab_polys_type".toList)
                    (d "ab_polys_special_params".toList) (d "hashtable_num_of_iterations".toList) (.inr hm)
                  rw [show T.ops.create d = .error e from he] at hob
                  cases hob
                · cases hob
            · exact hbuild _ _ _ hm
          obtain ⟨e, he⟩ := hb
          have hr : op = "expand".toList ∨ op = "generate".toList := by
            unfold obtain at hob
            split at hob
            · rename_i hx
              exact .inl (hx.resolve_left hop')
            · split at hob
              · rename_i hx
                exact .inr hx
              · cases hob
          have hbs : buildStore T.ops d op file m w1 = (w1, .error e) := by
            unfold buildStore
            rw [if_pos hr, he]
          simp only [hbs]
          exact ⟨⟨_, rfl⟩, h2, h1⟩
    · exact ⟨⟨_, rfl⟩, rfl, rfl⟩

theorem report_missing {a b : Option Value} (h : dataOf a = .null ∨ dataOf b = .null) (s : S) : report a b s = (s, .error .typeError) := by
  unfold report formatD
  rcases h with h | h <;> rw [h]
  cases dataOf a <;> rfl

theorem filters_missing {T : Steps S} {d : Config.Dict}
    (hm : Missing d "first_filtering_precision".toList ∨ Missing d "first_filtering_num_of_iterations".toList ∨
      Missing d "second_filtering_precision".toList ∨ Missing d "second_filtering_max_num_of_iterations".toList) (s : S) :
    ∃ s' e, T.filters d s = (s', .error e) := by
  have step : ∀ {m : PyM S Unit} {f : Unit → PyM S Unit}, (∀ s, ∃ s' e, f () s = (s', .error e)) →
      ∀ s, ∃ s' e, (m >>= f) s = (s', .error e) := by
    intro m f hf s
    cases hms : m s with
    | mk s1 r1 =>
      cases r1 with
      | error e => exact ⟨s1, e, PyM.bind_error hms⟩
      | ok u =>
        obtain ⟨s2, e, h2⟩ := hf s1
        exact ⟨s2, e, (PyM.bind_ok hms).trans h2⟩
  have stop : ∀ {m : PyM S Unit} {f : Unit → PyM S Unit}, (∀ s, ∃ s' e, m s = (s', .error e)) →
      ∀ s, ∃ s' e, (m >>= f) s = (s', .error e) := by
    intro m f hm s
    obtain ⟨s1, e, h1⟩ := hm s
    exact ⟨s1, e, PyM.bind_error h1⟩
  unfold Steps.filters
  rw [← or_assoc] at hm
  rcases hm with hm | hm
  · exact step (stop fun s => ⟨s, _, report_missing hm s⟩) s
  · exact step (step (step (step (step (step fun s => ⟨s, _, report_missing hm s⟩))))) s

/-- **C129 (no results).** If one of the four options of the first two refinements is missing, no run that searches ends normally, whatever the steps
do, and it never writes results (what the run does is the same for every way of writing them). -/
theorem C129_unfinished {K : Consts} {rnd : ℤ → ℚ → ℚ} {T : Steps S} {d : Config.Dict}
    (hm : Missing d "first_filtering_precision".toList ∨ Missing d "first_filtering_num_of_iterations".toList ∨
      Missing d "second_filtering_precision".toList ∨ Missing d "second_filtering_max_num_of_iterations".toList)
    (hgen : truthy (dataOf (d "gen_hashtable_only".toList)) = false) (w : World S) :
    (∃ e, (main K rnd T.ops d w).2 = .error e) ∧
      ∀ o, main K rnd { T with output := o }.ops d w = main K rnd T.ops d w := by
  have htail : ∀ o s, ∃ e, { T with output := o }.tail d s = .error e ∧ T.tail d s = .error e := by
    intro o s
    obtain ⟨s', e, he⟩ := filters_missing (T := T) hm s
    refine ⟨e, ?_, ?_⟩
    · unfold Steps.tail
      rw [show Steps.filters { T with output := o } d s = (s', .error e) from he]
    · unfold Steps.tail
      rw [he]
  have hrest : ∀ m w, ∃ e, (searchRest K rnd T.ops d m w).2 = .error e := by
    intro m w
    unfold searchRest
    rw [hgen]
    simp only [Bool.false_eq_true, if_false]
    split
    · exact ⟨_, rfl⟩
    · split
      · exact ⟨_, rfl⟩
      · rename_i s _
        obtain ⟨e, -, he⟩ := htail T.output s
        exact ⟨e, he⟩
  have hsame : ∀ o m w, searchRest K rnd { T with output := o }.ops d m w = searchRest K rnd T.ops d m w := by
    intro o m w
    unfold searchRest
    split
    · rfl
    · split
      · rfl
      · simp only
        have : ∀ x, Ops.search (Steps.ops { T with output := o }) d x m.rest = T.ops.search d x m.rest := fun _ => rfl
        rw [this]
        split
        · rfl
        · rename_i s _
          obtain ⟨e, h1, h2⟩ := htail o s
          rw [show Ops.tail (Steps.ops { T with output := o }) d _ s = .error e from h1, show T.ops.tail d _ s = .error e from h2]
  constructor
  · unfold main
    split
    · exact ⟨_, rfl⟩
    · exact ⟨_, rfl⟩
    · split
      · split
        · exact ⟨_, rfl⟩
        · split
          · exact ⟨_, rfl⟩
          · exact hrest _ _
      · exact ⟨_, rfl⟩
  · intro o
    unfold main
    split
    · rfl
    · rfl
    · split
      · have h1 : ∀ g c op file, obtain { T with output := o }.ops d g c op file = obtain T.ops d g c op file := fun _ _ _ _ => rfl
        have h2 : ∀ op file m, buildStore { T with output := o }.ops d op file m = buildStore T.ops d op file m := fun _ _ _ => rfl
        rw [h1]
        split
        · rfl
        · rw [h2]
          split
          · rfl
          · exact hsame _ _ _
      · rfl

/-- A configuration without the precision of the second refinement. -/
example : let d := dictOf [("const".toList, .str "pi".toList), ("hashtable_file_operation".toList, .str "generate".toList),
      ("hashtable_file".toList, .str "./h_v1.pkl".toList), ("gen_hashtable_only".toList, .bool false),
      ("first_filtering_precision".toList, .int 10), ("first_filtering_num_of_iterations".toList, .int 1000)]
    Missing d "second_filtering_precision".toList ∧ truthy (dataOf (d "gen_hashtable_only".toList)) = false :=
  ⟨rfl, rfl⟩

/-- **C129 (third refinement).** The same for the options of the last refinement, in runs that are not cancelled during it. -/
theorem C129_third {K : Consts} {rnd : ℤ → ℚ → ℚ} {T : Steps S} {d : Config.Dict}
    (hm : Missing d "third_filtering_precision".toList ∨ Missing d "third_filtering_max_num_of_iterations".toList)
    (hc : ∀ a n s, (T.refineInfo a n s).2 ≠ .error .keyboardInterrupt)
    (hgen : truthy (dataOf (d "gen_hashtable_only".toList)) = false) (w : World S) :
    (∃ e, (main K rnd T.ops d w).2 = .error e) := by
  have htail : ∀ s, ∃ e, T.tail d s = .error e := by
    intro s
    unfold Steps.tail
    split
    · exact ⟨_, rfl⟩
    · rename_i s1 _
      have hl : ∃ s' e, T.last d s1 = (s', .error e) ∧ e ≠ .keyboardInterrupt := by
        unfold Steps.last
        cases hr : T.refineInfo (d "third_filtering_precision".toList) (d "third_filtering_max_num_of_iterations".toList) s1 with
        | mk s2 r2 =>
          cases r2 with
          | error e =>
            refine ⟨s2, e, PyM.bind_error hr, fun he => hc (d "third_filtering_precision".toList) (d "third_filtering_max_num_of_iterations".toList) s1 ?_⟩
            rw [hr, he]
          | ok u => exact ⟨s2, .typeError, (PyM.bind_ok hr).trans (PyM.bind_error (report_missing hm s2)), nofun⟩
      obtain ⟨s', e, he, hne⟩ := hl
      rw [he]
      split
      · rename_i h; cases h
      · rename_i h; cases h; exact absurd rfl hne
      · exact ⟨_, rfl⟩
  unfold main
  split
  · exact ⟨_, rfl⟩
  · exact ⟨_, rfl⟩
  · split
    · split
      · exact ⟨_, rfl⟩
      · split
        · exact ⟨_, rfl⟩
        · unfold searchRest
          rw [hgen]
          simp only [Bool.false_eq_true, if_false]
          split
          · exact ⟨_, rfl⟩
          · split
            · exact ⟨_, rfl⟩
            · exact htail _
    · exact ⟨_, rfl⟩

/-- Steps that do nothing and do not raise. -/
def idSteps : Steps Unit where
  create _ _ _ _ _ := .ok ()
  redefine _ _ _ _ _ := .ok ()
  build _ _ _ := .ok ()
  findClicks _ _ _ _ := .ok ()
  refineConst _ _ := pure ()
  refineInfo _ _ := pure ()
  uniq := pure ()
  onlyExp _ := pure ()
  approach := pure ()
  posRoots := pure ()
  output _ _ := .ok ()

/-- A complete configuration up to the options given last. -/
def fullConfig (l : List (Str × Json.Val)) : Config.Dict :=
  dictOf ([("const".toList, .str "pi".toList), ("hashtable_file_operation".toList, .str "generate".toList),
    ("hashtable_file".toList, .str "./h_v1.pkl".toList), ("gen_hashtable_only".toList, .bool false),
    ("first_filtering_precision".toList, .int 10), ("first_filtering_num_of_iterations".toList, .int 1000),
    ("second_filtering_precision".toList, .int 13), ("second_filtering_max_num_of_iterations".toList, .int 1200)] ++ l)

/-- The options are there: the run ends normally.  One of them is missing: it does not. -/
example (K : Consts) (rnd : ℤ → ℚ → ℚ) (w : World Unit) :
    (main K rnd idSteps.ops (fullConfig [("third_filtering_precision".toList, .int 20),
      ("third_filtering_max_num_of_iterations".toList, .int 1500)]) w).2 = .ok () ∧
    Missing (fullConfig [("third_filtering_precision".toList, .int 20)]) "third_filtering_max_num_of_iterations".toList :=
  ⟨rfl, rfl⟩

/-- **C129 (violated).** The precision and the number of iterations of the refinements are not looked at before the table has been built and
stored and the clicks have been found: with operation generate and a constant without index, a run for a configuration without one of these
(or, if it is not cancelled, without those of the last refinement) gets that far unless one of these steps raises; then it ends with an
exception, and the results are lost.  Such runs exist for each option. -/
theorem C129_late_violated {K : Consts} {rnd : ℤ → ℚ → ℚ} :
    (∀ (T : Steps S) (d : Config.Dict) (c file : Str) (x : ℚ) (w : World S) (s1 s2 s3 : S),
      dataOf (d "const".toList) = .str c → c ∈ plainNames → Constant K c (indexOf d) x →
      dataOf (d "hashtable_file_operation".toList) = .str "generate".toList → dataOf (d "hashtable_file".toList) = .str file →
      truthy (dataOf (d "gen_hashtable_only".toList)) = false →
      T.ops.create d = .ok s1 → T.ops.build d s1 = .ok s2 → T.ops.search d (rnd 50 x) s2 = .ok s3 →
      (Missing d "first_filtering_precision".toList ∨ Missing d "first_filtering_num_of_iterations".toList ∨
        Missing d "second_filtering_precision".toList ∨ Missing d "second_filtering_max_num_of_iterations".toList) →
      (∃ m, (main K rnd T.ops d w).1.files file = some m ∧ m.rest = s2) ∧
      (main K rnd T.ops d w).1.searches = w.searches ++ [(rnd 50 x, .str c, s2)] ∧
      ∃ e, (main K rnd T.ops d w).2 = .error e) ∧
    ∀ k ∈ ["first_filtering_precision".toList, "first_filtering_num_of_iterations".toList, "second_filtering_precision".toList,
        "second_filtering_max_num_of_iterations".toList, "third_filtering_precision".toList, "third_filtering_max_num_of_iterations".toList],
      ∃ d, Missing d k ∧ (∀ k', k' ≠ k → d k' = fullConfig [("third_filtering_precision".toList, .int 20),
          ("third_filtering_max_num_of_iterations".toList, .int 1500)] k') ∧
        ∀ w : World Unit, (main K rnd idSteps.ops d w).2 = .error .typeError ∧
          ((main K rnd idSteps.ops d w).1.files "./h_v1.pkl".toList).isSome ∧
          (main K rnd idSteps.ops d w).1.searches = w.searches ++ [(rnd 50 K.pi, .str "pi".toList, ())] := by
  constructor
  · intro T d c file x w s1 s2 s3 hc hcp hx hop hf hgen h1 h2 h3 hm
    refine ⟨?_, ?_, (C129_unfinished hm hgen w).1⟩
    all_goals
      obtain ⟨g, hg, hg'⟩ := chooseGen_plain hcp (indexOf d)
      rw [main_eq hc hg hop hf]
      have ho : obtain T.ops d g (.str c) "generate".toList file w = ({ w with dps := decimalPrec }, .ok ⟨g, .str c, s1⟩) := by
        unfold obtain
        rw [if_neg (by decide), if_pos rfl, h1]
      have hb : buildStore T.ops d "generate".toList file ⟨g, .str c, s1⟩ { w with dps := decimalPrec } =
          ({ w with dps := decimalPrec, files := fun f => if f = file then some ⟨g, .str c, s2⟩ else w.files f }, .ok ⟨g, .str c, s2⟩) := by
        unfold buildStore
        rw [if_pos (.inr rfl)]
        simp only [h2]
      simp only [ho, hb, searchRest, hgen, Bool.false_eq_true, if_false, plainGen_call hx hg']
      rw [show rnd decimalPrec x = rnd 50 x from rfl, h3]
    · exact ⟨_, if_pos rfl, rfl⟩
  · intro k hk
    refine ⟨fun k' => if k' = k then none else fullConfig [("third_filtering_precision".toList, .int 20),
      ("third_filtering_max_num_of_iterations".toList, .int 1500)] k', ?_, ?_, ?_⟩
    · simp [Missing, dataOf]
    · intro k' hk'
      exact if_neg hk'
    · intro w
      simp only [List.mem_cons, List.not_mem_nil, or_false] at hk
      rcases hk with rfl | rfl | rfl | rfl | rfl | rfl <;> exact ⟨rfl, rfl, rfl⟩

end PiCF.Main
