import Verif.Model.Path
import Verif.Model.Hashtable

/-!
# Model of the end of `main` (main.py:162-186) and of `join_hashtables.main`: what is written to the file system
-/

namespace PiCF.Output
open PiCF.Hashtable PiCF.Path

/-- The directories and files of a file system; `F` is what a file holds.  Paths are compared as texts. -/
structure FS (F : Type) where
  dirs : Str → Bool
  files : Str → Option F

variable {F : Type}

/-- `os.mkdir(p)`: FileExistsError if there is something with this path, FileNotFoundError if the parent does not exist (the
empty parent is the current directory). -/
def mkdir (p : Str) : PyM (FS F) Unit := fun fs =>
  if fs.dirs p || (fs.files p).isSome then (fs, .error .fileExists)
  else if (split p).1 ≠ [] && !fs.dirs (split p).1 then (fs, .error .fileNotFound)
  else ({ fs with dirs := fun q => if q = p then true else fs.dirs q }, .ok ())

/-- `open(p, 'w')` followed by writing `c`: FileNotFoundError if the directory of the file does not exist.  (Opening a path that
is a directory is not modelled, the program never does this.) -/
def write (p : Str) (c : F) : PyM (FS F) Unit := fun fs =>
  if (split p).1 ≠ [] && !fs.dirs (split p).1 then (fs, .error .fileNotFound)
  else ({ fs with files := fun q => if q = p then some c else fs.files q }, .ok ())

/-- What the end of `main` computes: the content of the CSV file (enum_params.py:450-482, C63), the equations (C64), the PDF file
(`generate_latex`) and the saved configuration (C72).  Each may raise. -/
structure Results (F : Type) where
  csv : Except PyErr F
  eqns : Except PyErr Unit
  pdf : Except PyErr F
  config : Except PyErr F

/-- An exception of a computation that does not touch the file system. -/
def lift {α : Type} (r : Except PyErr α) : PyM (FS F) α := fun fs => (fs, r)

/-- The directory `'results'`. -/
def base : Str := "results".toList

/-- main.py:162-163 -/
def ensureResults : PyM (FS F) Unit := fun fs =>
  if fs.dirs base then (fs, .ok ()) else mkdir base fs

/-- `os.path.join('results', stamp)` -/
def resultsDir (stamp : Str) : Str := base ++ '/' :: stamp

/-- `os.path.join('results', stamp, name)` -/
def resultsFile (stamp name : Str) : Str := base ++ '/' :: stamp ++ '/' :: name

/-- main.py:162-186.  `stamp1` and `stamp2` are the results of the two calls of `time.strftime('%d%m%y_%H%M')` (lines 164, 165).
The PDF is one file; the auxiliary files of pdflatex are not modelled. -/
def finishRun (R : Results F) (stamp1 stamp2 : Str) : PyM (FS F) Unit := do
  ensureResults
  mkdir (resultsDir stamp1)
  let csv ← lift R.csv
  write (resultsFile stamp2 "results.csv".toList) csv
  lift R.eqns
  let pdf ← lift R.pdf
  write (resultsFile stamp2 "results.pdf".toList) pdf
  let config ← lift R.config
  write (resultsFile stamp2 "config.ini".toList) config

/-! ## join_hashtables.py -/

/-- The loaded files; FileNotFoundError cannot occur as the names come from the directory, a file that is not a pickled MITM
object is an error of `load`. -/
def loadAll {T : Type} (load : F → Except PyErr T) (fs : FS F) : List Str → Except PyErr (List T)
  | [] => .ok []
  | p :: ps =>
    match fs.files p with
    | none => .error .fileNotFound
    | some c =>
      match load c with
      | .error e => .error e
      | .ok t => (loadAll load fs ps).map (t :: ·)

/-- join_hashtables.py:6-19 `main`; `join` is what lines 11-17 compute from the loaded tables (`Hashtable.joinTables`, C31, C32; IndexError for
an empty list), `listdir` the names in the directory.  The existence of the output file only leads to a message
(lines 7-8).  The files are loaded one after the other while joining; here all are loaded first (joining does not touch
the file system, only the order of two exceptions can differ). -/
def joinMain {T : Type} (load : F → Except PyErr T) (store : T → F) (join : List T → Except PyErr T) (dir : Str) (listdir : List Str)
    (output : Str) : PyM (FS F) Unit := fun fs =>
  match loadAll load fs ((listdir.filter fun f => (splitext f).2 = ".pkl".toList).map (Path.join dir)) with
  | .error e => (fs, .error e)
  | .ok ts =>
    match join ts with
    | .error e => (fs, .error e)
    | .ok t => write output (store t) fs

end PiCF.Output
