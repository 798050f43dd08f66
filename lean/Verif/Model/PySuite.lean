import Verif.Model.Suite
/-!
# Suites from Python: rez-next-python/src/suite_bindings.rs

Errors of the file system are left out, as in `Model/Suite.lean`, and so are the texts of exceptions.
-/
namespace Rez.PySuite
open Rez Rez.Suite

/-- The exceptions. -/
inductive Exc where
  | valueError
  | keyError
  | ioError
  | runtimeError
deriving DecidableEq

/-- suite_bindings.rs:26-36 `Suite(description=None)`. -/
def make (description : Option Str) : Suite := { Suite.new with description := description }

/-- The calls on a suite, and the attributes that can be set. -/
inductive Call where
  | addContext (name : Str) (requests : List Str)
  | removeContext (name : Str)
  | aliasTool (context name tool : Str)
  | hideTool (context tool : Str)
  | setDescription (d : Option Str)
  | setMode (text : Str)
  | save (path : Str)

/-- An error of the suite as an exception. -/
def raise (e : Exc) : Except Err Suite → Except Exc Suite
  | .ok s => .ok s
  | .error _ => .error e

/-- suite_bindings.rs:43-47, 50-54, 76-80, 83-87, 90-94, 123-125, 135-140: a call, with the suite and the disk after it. -/
def call (alnum : Char → Bool) (y : Yaml) (s : Suite) (fs : Fs) : Call → Except Exc (Suite × Fs)
  | .addContext n r => (raise .valueError (s.add alnum n r)).map fun s => (s, fs)
  | .removeContext n => (raise .keyError (s.remove n)).map fun s => (s, fs)
  | .aliasTool c n t => (raise .keyError (s.alias c n t)).map fun s => (s, fs)
  | .hideTool c t => (raise .keyError (s.hide c t)).map fun s => (s, fs)
  | .setDescription d => .ok ({ s with description := d }, fs)
  | .setMode t =>
    match Mode.parse t with
    | some m => .ok ({ s with mode := m }, fs)
    | none => .error .valueError
  | .save p => .ok (s.save y p fs)

/-- The suite and the disk after a call, which an exception does not change: every method works on the suite in place only after
its checks (suite.rs:85-118, 141-161). -/
def step (alnum : Char → Bool) (y : Yaml) (x : Suite × Fs) (c : Call) : Suite × Fs :=
  match call alnum y x.1 x.2 c with
  | .ok x' => x'
  | .error _ => x

/-- The suite and the disk after calls. -/
def run (alnum : Char → Bool) (y : Yaml) (x : Suite × Fs) (cs : List Call) : Suite × Fs := cs.foldl (step alnum y) x

/-- suite_bindings.rs:97-102 `load`. -/
def load (y : Yaml) (fs : Fs) (path : Str) : Except Exc Suite := raise .ioError (Suite.load y fs path)

/-- suite_bindings.rs:219-224 `SuiteManager.load_suite`. -/
def loadByName (y : Yaml) (join : Str → Str → Str) (fs : Fs) (name : Str) (paths : List Str) : Except Exc Suite :=
  raise .keyError (loadSuite y join fs name paths)

/-- suite_bindings.rs:129-131 `conflict_mode`. -/
def mode (s : Suite) : Str := s.mode.text

/-- suite_bindings.rs:66-68 `len()`. -/
def len (s : Suite) : Nat := s.contexts.length

/-- suite_bindings.rs:152-170 `get_tools`: for each name the name, the original name, the context, the package, and whether it is
an alias. -/
def tools (iter : List (Str × Str) → List (Str × Str)) (s : Suite) : Except Exc (List (Str × Str × Str × Str × Str × Bool)) :=
  match s.tools iter with
  | .ok l => .ok (l.map fun x => (x.1, x.2.name, x.2.original, x.2.context, x.2.package, x.2.isAlias))
  | .error _ => .error .runtimeError

end Rez.PySuite
