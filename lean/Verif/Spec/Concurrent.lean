import Verif.Spec.Tables
import Verif.Model.Concurrent

/-!
# Specification of runs at the same time: what each of them has to leave behind
-/

namespace PiCF.Spec
open PiCF.Hashtable PiCF.Output PiCF.Config PiCF.Concurrent

variable {F T : Type}

/-- The names of the files in a directory of results. -/
def resultNames : List Str := ["results.csv".toList, "results.pdf".toList, "config.ini".toList]

/-- The path of such a file of the minute `stamp`. -/
def resultPath (stamp name : Str) : Str := "results".toList ++ ('/' :: stamp) ++ ('/' :: name)

/-- `t` is the table that a run with the operation `op` has when its search starts, if the file system is `fs` (nobody else changes its
table): a new one, the stored one, or the stored one extended. -/
inductive Makes (J : Job T F) (fs : FS F) (d : Config.Dict) (file : Str) : Str → T → Prop where
  | generate {t₀ t : T} : J.create d = .ok t₀ → J.build d t₀ = .ok t → Makes J fs d file "generate".toList t
  | expand {c : F} {t₁ t₀ t : T} : fs.files file = some c → J.load c = .ok t₁ → J.redefine d t₁ = .ok t₀ → J.build d t₀ = .ok t →
      Makes J fs d file "expand".toList t
  | use {c : F} {t : T} : fs.files file = some c → J.load c = .ok t → Makes J fs d file "use".toList t

/-- The exceptions that can end a run before its table is ready: those of the configuration, of the computations and of pickle, a missing
file or directory, and the window being closed. -/
inductive Early (J : Job T F) (items : List (Str × Str)) : PyErr → Prop where
  | config {listdir : Str → Except PyErr (List Str)} {e : PyErr} : Config.load listdir items = .error e → Early J items e
  | check {d : Config.Dict} {e : PyErr} : J.check d = .error e → Early J items e
  | create {d : Config.Dict} {e : PyErr} : J.create d = .error e → Early J items e
  | redefine {d : Config.Dict} {t : T} {e : PyErr} : J.redefine d t = .error e → Early J items e
  | build {d : Config.Dict} {t : T} {e : PyErr} : J.build d t = .error e → Early J items e
  | load {c : F} {e : PyErr} : J.load c = .error e → Early J items e
  | missing : Early J items .fileNotFound
  | closed : Early J items .keyboardInterrupt

/-- The three files hold the results `R`. -/
def HasResults (fs : FS F) (stamp : Str) (R : Results F) : Prop :=
  (∃ c, R.csv = .ok c ∧ fs.files (resultPath stamp "results.csv".toList) = some c) ∧
  (∃ c, R.pdf = .ok c ∧ fs.files (resultPath stamp "results.pdf".toList) = some c) ∧
  (∃ c, R.config = .ok c ∧ fs.files (resultPath stamp "config.ini".toList) = some c)

/-- What a run with the result `r` has to leave behind, if the file system was `fs₀` when the runs were started: it has raised before its
table was ready; or its table `t` is the one it makes when it is alone, it is stored (unless the run only uses it), and if the run
has ended normally and searches, the three files of its minute hold the results of the search with `t`. -/
def Left (J : Job T F) (items : List (Str × Str)) (op table stamp : Str) (fs₀ : FS F) (r : Except PyErr Unit) (fs : FS F) : Prop :=
  (∃ e, r = .error e ∧ Early J items e) ∨
  ∃ listdir d q t, Config.load listdir items = .ok d ∧ d "hashtable_file".toList = some (.data (.str q)) ∧ TablePath table q ∧
    Makes J fs₀ d q op t ∧ (op ≠ "use".toList → fs.files q = some (J.dump t)) ∧
    (r = .ok () → Main.truthy (dataOf (d "gen_hashtable_only".toList)) = true ∨
      ∃ R, J.search d t = .ok R ∧ HasResults fs stamp R)

end PiCF.Spec
