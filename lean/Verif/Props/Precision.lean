import Verif.Model.Precision
import Verif.Props.Main

/-!
# C121: the working precision
-/

namespace PiCF.Precision
open PiCF.Mitm PiCF.Main PiCF.Hashtable
open PiCF.Spec
open PiCF.Config (dataOf)

variable {K : Consts} {rnd : ℤ → ℚ → ℚ}

/-- The call gives the `k`-th object the precision `p`, when there are `n` objects before it. -/
def Act.Gives (n k : ℕ) (p : ℤ) : Act → Prop
  | .construct _ _ q => k = n ∧ q = p
  | .redefine j _ _ q => j = k ∧ q = p
  | _ => False

/-- The call does not name a precision: a constant generator called without one. -/
def Act.Silent : Act → Prop
  | .constant _ [] => True
  | .constant _ (none :: _) => True
  | _ => False

theorem newEnumer_ok {cls : PolyClass} {special : Option (ℕ × ℕ)} {p : ℤ} {s s' : State} {en : Enumer}
    (h : newEnumer cls special p s = (s', .ok en)) : s' = { s with dps := setPrec p } ∧ en = ⟨cls, p⟩ := by
  unfold newEnumer makeEnumer at h
  split at h
  · cases h
  · rename_i heq
    split at heq
    · cases heq
    · cases heq; cases h; exact ⟨rfl, rfl⟩

theorem newEnumer_error {cls : PolyClass} {special : Option (ℕ × ℕ)} {p : ℤ} {s s' : State} {e : PyErr}
    (h : newEnumer cls special p s = (s', .error e)) : s' = s := by
  unfold newEnumer at h
  split at h <;> cases h
  rfl

theorem setPrec_pos {p : ℤ} (h : 0 < p) : setPrec p = p := max_eq_right (by omega)

theorem gives_dps {x : Act} {s s' : State} {k : ℕ} {p : ℤ} (hg : x.Gives s.objects.length k p) (hp : 0 < p)
    (h : x.run K rnd s = (s', .ok ())) : s'.dps = p := by
  cases x with
  | construct cls sp q =>
    obtain ⟨-, rfl⟩ := hg
    simp only [Act.run, newMitm] at h
    split at h
    · cases h
    · cases h; exact setPrec_pos hp
  | redefine j cls sp q =>
    obtain ⟨rfl, rfl⟩ := hg
    simp only [Act.run, redefine] at h
    split at h
    · cases h
    · split at h
      · cases h; exact setPrec_pos hp
      · split at h
        · cases h
        · cases h; exact setPrec_pos hp
  | reset j => exact hg.elim
  | enumer => exact hg.elim
  | constant => exact hg.elim

theorem silent_dps {x : Act} (hx : x.Silent) (s : State) : (x.run K rnd s).1 = s := by
  cases x with
  | constant f args =>
    cases args with
    | nil => rfl
    | cons a l =>
      cases a with
      | none => rfl
      | some n => exact hx.elim
  | _ => exact hx.elim

theorem error_dps {x : Act} {s s' : State} {e : PyErr} (hx : ∀ f args, x ≠ .constant f args)
    (h : x.run K rnd s = (s', .error e)) : s' = s := by
  cases x with
  | construct cls sp q =>
    simp only [Act.run, newMitm] at h
    split at h
    · rename_i heq; cases h; exact newEnumer_error heq
    · cases h
  | redefine j cls sp q =>
    simp only [Act.run, redefine] at h
    split at h
    · cases h; rfl
    · split at h
      · cases h
      · split at h
        · rename_i heq; cases h; exact newEnumer_error heq
        · cases h
  | reset j =>
    simp only [Act.run, reset] at h
    split at h <;> cases h
    rfl
  | enumer cls sp q =>
    simp only [Act.run] at h
    split at h
    · rename_i heq; cases h; exact newEnumer_error heq
    · cases h
  | constant f args => exact (hx f args rfl).elim

theorem runs_append (l₁ l₂ : List Act) (s : State) : runs K rnd (l₁ ++ l₂) s = runs K rnd l₂ (runs K rnd l₁ s) := by
  induction l₁ generalizing s with
  | nil => rfl
  | cons x l ih => exact ih _

/-- **C121 (partial).** After any calls, a successful construction or redefinition that gives an object the precision `p`
makes `p` the working precision, and constant generators called without a precision keep it.  A call other than to a
constant generator that raises changes nothing.
Missing: precisions given to other objects in between, see `C121_shared_violated`, and the operation use, see
`C121_use_violated`. -/
theorem C121_given_partial (before after : List Act) (x : Act) (s : State) (k : ℕ) (p : ℤ) (hp : 0 < p)
    (hx : x.Gives (runs K rnd before s).objects.length k p) (hok : (x.run K rnd (runs K rnd before s)).2 = .ok ())
    (hafter : ∀ y ∈ after, y.Silent) :
    (runs K rnd (before ++ x :: after) s).dps = p := by
  rw [runs_append, runs]
  generalize runs K rnd before s = t at hx hok ⊢
  rcases hrun : x.run K rnd t with ⟨t', r⟩
  rw [hrun] at hok
  cases hok
  have h1 := gives_dps hx hp hrun
  show (runs K rnd after t').dps = p
  have : ∀ l : List Act, (∀ y ∈ l, y.Silent) → runs K rnd l t' = t' := by
    intro l
    induction l with
    | nil => intro _; rfl
    | cons y l ih =>
      intro h
      rw [runs, silent_dps (h y (by simp))]
      exact ih fun z hz => h z (by simp [hz])
  rw [this after hafter]
  exact h1

/-- **C121.** A call other than to a constant generator that raises changes nothing. -/
theorem C121_raises (x : Act) (s : State) (e : PyErr) (hx : ∀ f args, x ≠ .constant f args)
    (h : (x.run K rnd s).2 = .error e) : (x.run K rnd s).1 = s := by
  rcases hrun : x.run K rnd s with ⟨t', r⟩
  rw [hrun] at h
  cases h
  exact error_dps hx hrun

example : (Act.construct .sparse none 50).run K rnd .start = (.start, .error .typeError) := rfl

/-- Two objects; the second is redefined with another class of polynomials. -/
def exBefore : List Act := [.construct .basic none 50, .construct .basic none 30, .constant .pi [some 100]]

example : (Act.redefine 1 .sparse (some (3, 3)) 60).Gives (runs K rnd exBefore .start).objects.length 1 60 ∧
    ((Act.redefine 1 .sparse (some (3, 3)) 60).run K rnd (runs K rnd exBefore .start)).2 = .ok () ∧
    (runs K rnd exBefore .start).dps = 100 ∧
    (∀ y ∈ [Act.constant .pi [], Act.constant .zeta [none, some 3]], y.Silent) ∧
    (runs K rnd (exBefore ++ .redefine 1 .sparse (some (3, 3)) 60 :: [.constant .pi [], .constant .zeta [none, some 3]]) .start).dps
      = 60 :=
  ⟨⟨rfl, rfl⟩, rfl, rfl, by simp [Act.Silent], rfl⟩

/-! ### reset_precision -/

/-- Every object of the state keeps the precision of the constructor, also in its enumerator. -/
def Kept (s : State) : Prop := ∀ x ∈ s.objects, x.enumer.prec = x.prec

theorem run_objects {x : Act} {s : State} (hs : Kept s) :
    Kept (x.run K rnd s).1 ∧ ((x.run K rnd s).1.objects.map Object.prec = s.objects.map Object.prec ∨
      ∃ cls sp p, x = .construct cls sp p ∧ (x.run K rnd s).2 = .ok () ∧
        (x.run K rnd s).1.objects.map Object.prec = s.objects.map Object.prec ++ [p]) := by
  cases x with
  | construct cls sp q =>
    simp only [Act.run, newMitm]
    split
    · rename_i heq
      obtain rfl := newEnumer_error heq
      exact ⟨hs, .inl rfl⟩
    · rename_i heq
      obtain ⟨rfl, rfl⟩ := newEnumer_ok heq
      refine ⟨?_, .inr ⟨cls, sp, q, rfl, rfl, by simp⟩⟩
      intro y hy
      rcases List.mem_append.1 hy with hy | hy
      · exact hs y hy
      · obtain rfl := List.mem_singleton.1 hy; rfl
  | redefine j cls sp q =>
    simp only [Act.run, redefine]
    split
    · exact ⟨hs, .inl rfl⟩
    · rename_i x hx
      split
      · exact ⟨hs, .inl rfl⟩
      · split
        · rename_i heq
          obtain rfl := newEnumer_error heq
          exact ⟨hs, .inl rfl⟩
        · rename_i heq
          obtain ⟨rfl, rfl⟩ := newEnumer_ok heq
          constructor
          · intro y hy
            rcases List.mem_or_eq_of_mem_set hy with hy | rfl
            · exact hs y hy
            · rfl
          · left
            apply List.ext_getElem?
            intro i
            simp only [List.getElem?_map, List.getElem?_set]
            split
            · rename_i hij
              subst hij
              split
              · simp [hx]
              · rename_i h2
                rw [List.getElem?_eq_none (by omega)]
            · rfl
  | reset j =>
    simp only [Act.run, reset]
    split <;> exact ⟨hs, .inl rfl⟩
  | enumer cls sp q =>
    simp only [Act.run]
    split
    · rename_i heq
      obtain rfl := newEnumer_error heq
      exact ⟨hs, .inl rfl⟩
    · rename_i heq
      obtain ⟨rfl, -⟩ := newEnumer_ok heq
      exact ⟨hs, .inl rfl⟩
  | constant f args => exact ⟨hs, .inl rfl⟩

theorem runs_kept (l : List Act) (s : State) (hs : Kept s) : Kept (runs K rnd l s) ∧
    (s.objects.map Object.prec) <+: ((runs K rnd l s).objects.map Object.prec) := by
  induction l generalizing s with
  | nil => exact ⟨hs, List.prefix_refl _⟩
  | cons x l ih =>
    obtain ⟨h1, h2⟩ := run_objects (K := K) (rnd := rnd) (x := x) hs
    obtain ⟨h3, h4⟩ := ih _ h1
    refine ⟨h3, ?_⟩
    rcases h2 with h2 | ⟨_, _, p, -, -, h2⟩
    · rw [h2] at h4; exact h4
    · rw [h2] at h4; exact (List.prefix_append _ _).trans h4

/-- **C121, reset.** `reset_precision` of the enumerator of an object sets the precision the object was constructed with:
for the object made by the construction `x` after any calls, and whatever is called between the construction and the reset,
including redefinitions that exchange the enumerator. -/
theorem C121_reset (before between : List Act) (cls : PolyClass) (sp : Option (ℕ × ℕ)) (p : ℤ) (hp : 0 < p) (k : ℕ)
    (hk : k = (runs K rnd before .start).objects.length)
    (hok : ((Act.construct cls sp p).run K rnd (runs K rnd before .start)).2 = .ok ()) :
    ((Act.reset k).run K rnd (runs K rnd (before ++ .construct cls sp p :: between) .start)).2 = .ok () ∧
    ((Act.reset k).run K rnd (runs K rnd (before ++ .construct cls sp p :: between) .start)).1.dps = p := by
  rw [runs_append, runs]
  have h0 : Kept (runs K rnd before .start) := (runs_kept before .start (by intro x hx; cases hx)).1
  generalize runs K rnd before .start = t at hk hok h0 ⊢
  obtain ⟨h1, h2⟩ := run_objects (K := K) (rnd := rnd) (x := .construct cls sp p) h0
  have h3 : ((Act.construct cls sp p).run K rnd t).1.objects.map Object.prec = t.objects.map Object.prec ++ [p] := by
    simp only [Act.run, newMitm] at hok ⊢
    split
    · rename_i heq
      rw [heq] at hok
      cases hok
    · rename_i heq
      obtain ⟨rfl, rfl⟩ := newEnumer_ok heq
      simp
  obtain ⟨h4, h5⟩ := runs_kept (K := K) (rnd := rnd) between _ h1
  rw [h3] at h5
  generalize runs K rnd between ((Act.construct cls sp p).run K rnd t).1 = u at h4 h5
  have h6 : (u.objects.map Object.prec)[k]? = some p := by
    obtain ⟨l, hl⟩ := h5
    rw [← hl, hk]
    simp
  rw [List.getElem?_map] at h6
  cases hx : u.objects[k]? with
  | none => rw [hx] at h6; cases h6
  | some x =>
    rw [hx] at h6
    have h7 : x.prec = p := Option.some.inj h6
    simp only [Act.run, reset, hx]
    refine ⟨trivial, ?_⟩
    rw [h4 x (List.mem_of_getElem? hx), h7, setPrec_pos hp]

example : ((Act.reset 1).run K rnd (runs K rnd
    ([.construct .basic none 50] ++ .construct .indexed none 30 :: [.redefine 1 .sparse (some (3, 3)) 60, .constant .pi [some 9]])
    .start)).1.dps = 30 :=
  (C121_reset [.construct .basic none 50] [.redefine 1 .sparse (some (3, 3)) 60, .constant .pi [some 9]] .indexed none 30
    (by norm_num) 1 rfl rfl).2

/-! ### Where the precision is not the one given -/

/-- **C121 (violated, shared).** The precision belongs to the process, not to the object: for all precisions, after a second
object has been constructed the first one is used with the precision of the second. -/
theorem C121_shared_violated (p q : ℤ) (hq : 0 < q) (hpq : p ≠ q) :
    (runs K rnd [.construct .basic none p, .construct .basic none q] .start).dps ≠ p := by
  show setPrec q ≠ p
  rw [setPrec_pos hq]
  exact hpq.symm

example : (runs K rnd [.construct .basic none 100, .construct .basic none 20] .start).dps = 20 := rfl

/-- **C121 (violated, redefined).** After the precision of an object has been redefined, `reset_precision` of its enumerator
goes back to the precision of the constructor, also when the redefinition made a new enumerator. -/
theorem C121_redefined_violated (p q : ℤ) (hp : 0 < p) (hpq : p ≠ q) (cls : PolyClass) (sp : ℕ × ℕ) :
    (runs K rnd [.construct .basic none p, .redefine 0 cls (some sp) q, .reset 0] .start).dps ≠ q := by
  have h : (runs K rnd [.construct .basic none p, .redefine 0 cls (some sp) q, .reset 0] .start).dps = p := by
    have := (C121_reset (K := K) (rnd := rnd) [] [.redefine 0 cls (some sp) q] .basic none p hp 0 rfl rfl).2
    exact this
  rw [h]
  exact hpq

/-! ### The runs of main.py -/

/-- The last stage of a run does not set the precision when the target takes no arguments. -/
theorem searchRest_dps {S : Type} {O : Ops S} {d : Config.Dict} {m : Main.Mitm S} {w : World S} (hm : m.target.bound = []) :
    (searchRest K rnd O d m w).1.dps = w.dps := by
  have h : (m.target.call K rnd w.dps).1 = w.dps := by
    rw [Gen.call, hm]
    rfl
  unfold searchRest
  split
  · rfl
  · split
    · rename_i heq
      rw [heq] at h
      exact h
    · rename_i heq
      rw [heq] at h
      simp only
      split <;> exact h

theorem plainGen_bound {c : Str} (hc : c ∈ plainNames) {g : Gen} (h : some g = plainGen c) : g.bound = [] := by
  simp only [plainNames, List.mem_cons, List.not_mem_nil, or_false] at hc
  rcases hc with rfl | rfl | rfl | rfl | rfl <;> cases h <;> rfl

/-- **C121, main (partial).** A run of the program with operation generate or expand and a constant without index that
reaches its end works with `DECIMAL_PREC` = 50 digits, whatever the precision was before: the object is made with it, and
nothing later in the run sets it.
Missing: operation use, see `C121_use_violated`; constants with an index raise, see `C75_zeta_violated`. -/
theorem C121_main_partial {S : Type} {O : Ops S} {d : Config.Dict} {op file c : Str}
    (hop : dataOf (d "hashtable_file_operation".toList) = .str op) (hop' : op ≠ "use".toList)
    (hf : dataOf (d "hashtable_file".toList) = .str file) (hc : dataOf (d "const".toList) = .str c) (hcp : c ∈ plainNames)
    (w : World S) (hok : (main K rnd O d w).2 = .ok ()) : (main K rnd O d w).1.dps = 50 := by
  obtain ⟨g, hg, hg'⟩ := chooseGen_plain hcp (indexOf d)
  rw [main_eq hc hg hop hf] at hok ⊢
  cases ho : Main.obtain O d g (.str c) op file w with
  | mk w1 r1 =>
    obtain ⟨h1, -, h3⟩ := obtain_new hop' ho
    cases r1 with
    | error e => rw [ho] at hok; cases hok
    | ok m =>
      rw [ho] at hok
      simp only at hok ⊢
      cases hb : buildStore O d op file m w1 with
      | mk w2 r2 =>
        obtain ⟨h4, h5, h6⟩ := buildStore_spec hb
        cases r2 with
        | error e => rw [hb] at hok; cases hok
        | ok m2 =>
          simp only
          have h7 := h3 m rfl
          rw [searchRest_dps (by rw [(h6 m2 rfl).1, h7.2.1]; exact plainGen_bound hcp hg'.symm), h5, h7.1]
          rfl

example : (main K rnd idOps (newConfig "phi".toList 3) (oneFile .pi "pi".toList)).1.dps = 50 :=
  C121_main_partial (op := "generate".toList) (file := "./h_v1.pkl".toList) (c := "phi".toList) rfl (by decide) rfl rfl (by decide)
    _ rfl

/-- **C121 (violated, use).** A run with operation use does not set the precision: it works with the 150 digits set by the
import of gen_consts.py instead of `DECIMAL_PREC`, for all stored objects whose target takes no arguments. -/
theorem C121_use_violated {S : Type} {O : Ops S} {d : Config.Dict} {file c : Str} {m : Main.Mitm S}
    (hop : dataOf (d "hashtable_file_operation".toList) = .str "use".toList)
    (hf : dataOf (d "hashtable_file".toList) = .str file) (hc : dataOf (d "const".toList) = .str c) (hcp : c ∈ plainNames)
    (w : World S) (hm : w.files file = some m) (hmt : m.target.bound = []) (hw : w.dps = State.start.dps) :
    (main K rnd O d w).1.dps = 150 ∧ (150 : ℤ) ≠ decimalPrec := by
  obtain ⟨g, hg, -⟩ := chooseGen_plain hcp (indexOf d)
  rw [main_eq hc hg hop hf, obtain_use, hm]
  simp only
  rw [show buildStore O d "use".toList file m w = (w, .ok m) by unfold buildStore; rw [if_neg (by decide)]]
  simp only
  rw [searchRest_dps hmt, hw]
  exact ⟨rfl, by decide⟩

example : (main K rnd idOps (useConfig "e".toList) (oneFile .e "e".toList)).1.dps = 150 :=
  (C121_use_violated (file := "./h_v1.pkl".toList) (c := "e".toList) rfl rfl rfl (by decide) _ rfl rfl rfl).1

end PiCF.Precision
