import Verif.Model.Concurrent
import Verif.Model.DistributeMain
import Verif.Model.Expand

/-!
# Model of a distributed search from the configuration to the joined table

`distribute_run.py` writes configurations, `run_distributed_configs.py` starts `main.py` for each of them, `join_hashtables.py` joins the
tables.  Here the computations of `main.py` on tables (`Model/Expand`) are put into the runs of `Model/Concurrent`.
-/

namespace PiCF.Workflow
open PiCF.Hashtable PiCF.EnumPoly PiCF.Mitm PiCF.Config PiCF.Concurrent PiCF.DistributeMain

/-- `ab_polys_special_params`: None, or the pair of numbers that `SparseParametersPolynomials.__init__` unpacks
(enum_poly_params.py:229-248). -/
def specialOf : Json.Val → Option (Option (ℕ × ℕ))
  | .null => some none
  | .arr [.int (.ofNat n), .int (.ofNat m)] => some (some (n, m))
  | _ => none

/-- A natural number. -/
def natOf : Json.Val → Option ℕ
  | .int (.ofNat n) => some n
  | _ => none

/-- A list of natural numbers. -/
def natsOf : Json.Val → Option (List ℕ)
  | .arr l => l.mapM natOf
  | _ => none

/-- The options used in main.py:84-108.  Values of a form that no table can be built with are a TypeError here. -/
def optsOf (d : Config.Dict) : Except PyErr Opts :=
  match d "ab_polys_type".toList, specialOf (dataOf (d "ab_polys_special_params".toList)), dataOf (d "hashtable_precision".toList),
    natOf (dataOf (d "hashtable_num_of_iterations".toList)), natsOf (dataOf (d "postproc_funcs_filter".toList)),
    rangesOf (dataOf (d "a_coeffs_range".toList)), rangesOf (dataOf (d "b_coeffs_range".toList)) with
  | some (.poly cls), some special, .int prec, some iters, some filter, some ra, some rb => .ok ⟨cls, special, prec, iters, filter, ra, rb⟩
  | _, _, _, _, _, _, _ => .error .typeError

/-- main.py:108-112 -/
def buildObject (w : Surroundings) (o : Opts) (x : Object) : Except PyErr Object :=
  match x.build w o with
  | (_, .error e) => .error e
  | (y, .ok ()) => .ok (y.mark w)

/-- `pickle.load` (main.py:80, join_hashtables.py:13, 16) -/
def loadObject : Content → Except PyErr Object
  | .whole s => .ok s.load
  | .broken => .error .runtimeError

/-- `pickle.dump` (main.py:114, join_hashtables.py:19), when it does not raise -/
def dumpObject (x : Object) : Content := .whole x.pickled

/-- main.py:54-160 on `MITM` objects; `check` (lines 54-75) and `search` (lines 117-160) are arbitrary. -/
def tableJob (w : Surroundings) (check : Config.Dict → Except PyErr Unit) (search : Config.Dict → Object → Except PyErr (Output.Results Content)) :
    Job Object Content where
  check := check
  create d := optsOf d >>= newObject
  redefine d x := optsOf d >>= x.redefine
  build d x := optsOf d >>= fun o => buildObject w o x
  search := search
  dump := dumpObject
  load := loadObject
  empty := .broken

/-- join_hashtables.py:11-17 on the loaded objects: the first one is kept, the other tables are appended to its table. -/
def joinObjects : List Object → Except PyErr Object
  | [] => .error .indexError
  | x :: xs => (joinTables ((x :: xs).map fun y => y.set.table)).map fun t => { x with set := { x.set with table := t } }

end PiCF.Workflow
