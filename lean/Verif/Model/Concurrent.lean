import Verif.Model.Output
import Verif.Model.Config
import Verif.Model.Main

/-!
# Model of several runs of `main.py` at the same time

`run_distributed_configs.main` (run_distributed_configs.py:4-7) starts one process per configuration file
(`start cmd.exe /k python main.py <file>`) and does not wait.  The processes share the file system only.  Here a run is a program
of which each access to the file system is one step; steps of different runs can alternate in every order.
-/

namespace PiCF.Concurrent
open PiCF.Hashtable PiCF.Output PiCF.Config

variable {F T : Type}

/-- A running program: it has ended, or the next access to the file system changes it by `eff` and the program goes on as `next`
(which depends on what was found). -/
inductive Prog (F : Type) : Type where
  | done (r : Except PyErr Unit)
  | act (eff : FS F → FS F) (next : FS F → Prog F)

/-- One access to the file system; an exception ends the program. -/
def access {α : Type} (m : PyM (FS F) α) (k : α → Prog F) : Prog F :=
  .act (fun fs => (m fs).1) fun fs =>
    match (m fs).2 with
    | .error e => .done (.error e)
    | .ok a => k a

/-- A computation without access to the file system. -/
def compute {α : Type} (r : Except PyErr α) (k : α → Prog F) : Prog F :=
  match r with
  | .error e => .done (.error e)
  | .ok a => k a

/-- `open(p, 'w')` creates or empties the file, then the content is written and the file is closed: two steps. (The content appears at
once; `empty` is an empty file.) -/
def store (empty : F) (p : Str) (c : F) (k : Prog F) : Prog F :=
  access (write p empty) fun _ => access (write p c) fun _ => k

/-- What a run computes without the file system, as functions of the configuration; each may raise.  `check` is main.py:54-75, `create`
95-102, `redefine` 85-91, `build` 108-112, `search` 117-160 together with the contents of the files written at the end;
`dump` and `load` are those of pickle, `empty` is an empty file. -/
structure Job (T F : Type) where
  check : Config.Dict → Except PyErr Unit
  create : Config.Dict → Except PyErr T
  redefine : Config.Dict → T → Except PyErr T
  build : Config.Dict → T → Except PyErr T
  search : Config.Dict → T → Except PyErr (Results F)
  dump : T → F
  load : F → Except PyErr T
  empty : F

/-- `open(p, 'rb')` and `pickle.load`, one step -/
def read (J : Job T F) (p : Str) : PyM (FS F) T := fun fs =>
  match fs.files p with
  | none => (fs, .error .fileNotFound)
  | some c => (fs, J.load c)

/-- `os.path.isdir('results')` (main.py:162) -/
def isBase : PyM (FS F) Bool := fun fs => (fs, .ok (fs.dirs base))

/-- main.py:46-52; `listdir` is `os.listdir` in a file system. -/
def loadConfig (listdir : FS F → Str → Except PyErr (List Str)) (items : List (Str × Str)) : PyM (FS F) Config.Dict := fun fs =>
  (fs, Config.load (listdir fs) items)

/-- main.py:164-186; `stamp1` and `stamp2` are the two readings of the clock (lines 164, 165).  pdflatex writes the PDF at once
here. -/
def saveIn (J : Job T F) (stamp1 stamp2 : Str) (R : Results F) : Prog F :=
  access (mkdir (resultsDir stamp1)) fun _ =>
  compute R.csv fun csv =>
  store J.empty (resultsFile stamp2 "results.csv".toList) csv <|
  compute R.eqns fun _ =>
  compute R.pdf fun pdf =>
  access (write (resultsFile stamp2 "results.pdf".toList) pdf) fun _ =>
  compute R.config fun config =>
  store J.empty (resultsFile stamp2 "config.ini".toList) config <|
  .done (.ok ())

/-- main.py:162-186; `os.path.isdir` and `os.mkdir` are two steps. -/
def saveResults (J : Job T F) (stamp1 stamp2 : Str) (R : Results F) : Prog F :=
  access isBase fun isdir => if isdir then saveIn J stamp1 stamp2 R else access (mkdir base) fun _ => saveIn J stamp1 stamp2 R

/-- main.py:117-186: the search with the table `t` and what follows -/
def searchSave (J : Job T F) (stamp1 stamp2 : Str) (d : Config.Dict) (t : T) : Prog F :=
  if Main.truthy (dataOf (d "gen_hashtable_only".toList)) then .done (.ok ())
  else compute (J.search d t) (saveResults J stamp1 stamp2)

/-- main.py:107-186: the table is built and stored if the operation asks for it -/
def buildSearch (J : Job T F) (stamp1 stamp2 : Str) (d : Config.Dict) (op file : Str) (t : T) : Prog F :=
  if op = "expand".toList ∨ op = "generate".toList then
    compute (J.build d t) fun t => store J.empty file (J.dump t) (searchSave J stamp1 stamp2 d t)
  else searchSave J stamp1 stamp2 d t

/-- main.py:79-186 -/
def obtainSearch (J : Job T F) (stamp1 stamp2 : Str) (d : Config.Dict) (op file : Str) : Prog F :=
  if op = "use".toList then access (read J file) (buildSearch J stamp1 stamp2 d op file)
  else if op = "expand".toList then
    access (read J file) fun t => compute (J.redefine d t) (buildSearch J stamp1 stamp2 d op file)
  else if op = "generate".toList then compute (J.create d) (buildSearch J stamp1 stamp2 d op file)
  else .done (.error .valueError)

/-- main.py:39-186 `main` for a configuration file with the lines `items`.  Reading the
configuration and listing the directory of the table (configfile.py:98) is one step: runs do not change configuration files of
others. -/
def run (J : Job T F) (listdir : FS F → Str → Except PyErr (List Str)) (items : List (Str × Str)) (stamp1 stamp2 : Str) : Prog F :=
  access (loadConfig listdir items) fun d =>
  compute (J.check d) fun _ =>
  match dataOf (d "hashtable_file_operation".toList), dataOf (d "hashtable_file".toList) with
  | .str op, .str file => obtainSearch J stamp1 stamp2 d op file
  | _, _ => .done (.error .typeError)

/-! ## Execution -/

/-- A program that runs alone. -/
def Prog.alone : Prog F → PyM (FS F) Unit
  | .done r => fun fs => (fs, r)
  | .act eff next => fun fs => (next fs).alone (eff fs)

/-- The file system and what is left of each run. -/
structure State (ι F : Type) where
  fs : FS F
  runs : ι → Prog F

/-- One of the runs does its next step, or is stopped by closing its window. -/
inductive Step {ι : Type} [DecidableEq ι] : State ι F → State ι F → Prop where
  | act {σ : State ι F} {i : ι} {eff : FS F → FS F} {next : FS F → Prog F} (h : σ.runs i = .act eff next) :
      Step σ ⟨eff σ.fs, Function.update σ.runs i (next σ.fs)⟩
  | stop {σ : State ι F} (i : ι) : Step σ ⟨σ.fs, Function.update σ.runs i (.done (.error .keyboardInterrupt))⟩

/-- `σ'` can be reached from `σ` by steps of the runs in some order. -/
inductive Steps {ι : Type} [DecidableEq ι] : State ι F → State ι F → Prop where
  | refl (σ : State ι F) : Steps σ σ
  | tail {σ σ' σ'' : State ι F} : Steps σ σ' → Step σ' σ'' → Steps σ σ''

end PiCF.Concurrent
