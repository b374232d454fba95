import Verif.Model.Output
import Verif.Model.Config

/-!
# Model of the command lines of the scripts, and of the files the clean-up script reads and writes
-/

namespace PiCF.Scripts
open PiCF.Hashtable PiCF.Path PiCF.Output

/-! ## fix_hashtable_filter_init_b_root.py -/

/-- fix_hashtable_filter_init_b_root.py:31-33, the path of the output -/
def fixedPath (p : Str) : Str := (splitext p).1 ++ "_fixed".toList ++ (splitext p).2

/-- fix_hashtable_filter_init_b_root.py:12-35 `main` with the files: `load` is `pickle.load` (of which only the hashtable matters), `store` what
`pickle.dump` writes, `fix` lines 16-29 (`Hashtable.fixMain`, C33). -/
def fixScript {F T : Type} (load : F → Except PyErr T) (store : T → F) (fix : PyM T Unit) (p : Str) : PyM (FS F) Unit := fun fs =>
  match fs.files p with
  | none => (fs, .error .fileNotFound)
  | some c =>
    match load c with
    | .error e => (fs, .error e)
    | .ok t =>
      match fix t with
      | (_, .error e) => (fs, .error e)
      | (t, .ok ()) => write (fixedPath p) (store t) fs

/-! ## The command lines -/

/-- What a script does with its command line: it prints how to use it, or calls its `main`. -/
inductive Call where
  | usage
  | search (config : Str)
  | fix (path : Str)
  | join (dir output : Str)
  | distribute (splitNum : ℤ) (config : Str)
  | runAll (dir : Str)
  deriving DecidableEq

/-- main.py:189-196; `args` are the arguments after the name of the script (`sys.argv[1:]`). -/
def mainCall : List Str → Except PyErr Call
  | [] => .ok (.search "config.ini".toList)
  | x :: _ => if x ∈ ["-h".toList, "--help".toList, "/?".toList, "-?".toList] then .ok .usage else .ok (.search x)

/-- fix_hashtable_filter_init_b_root.py:38-42 -/
def fixCall (args : List Str) : Except PyErr Call :=
  match args with
  | [p] => .ok (.fix p)
  | _ => .ok .usage

/-- join_hashtables.py:22-28; the default of line 6 -/
def joinCall (args : List Str) : Except PyErr Call :=
  match args with
  | [d] => .ok (.join d "joined_hashtable.pkl".toList)
  | [d, o] => .ok (.join d o)
  | _ => .ok .usage

/-- distribute_run.py:80-88; the defaults of line 13 -/
def distributeCall (args : List Str) : Except PyErr Call :=
  match args with
  | [] => .ok (.distribute 4 "config.ini".toList)
  | [n] => (Config.intParser n).map (.distribute · "config.ini".toList)
  | [n, c] => (Config.intParser n).map (.distribute · c)
  | _ => .ok .usage

/-- run_distributed_configs.py:9-13 -/
def runAllCall (args : List Str) : Except PyErr Call :=
  match args with
  | [d] => .ok (.runAll d)
  | _ => .ok .usage

end PiCF.Scripts
