import Verif.Model.Environment
import Verif.Model.Search
import Verif.Base.Map
import Verif.Base.Words
/-!
# `src/cli/commands/test.rs`, `package/test_runner.rs`: running the tests of a package

Both know only commands that are text: the packages have lost everything else (see the model of package files).
-/
namespace Rez.Tests
open Rez Rez.Rex

/-- test.rs:26-69 `TestArgs`; the level of detail of what is printed is left out. -/
structure Args where
  package : Str
  tests : List Str
  list : Bool
  inplace : Bool
  extraPackages : List Str
  paths : Option Str
  noLocal : Bool
  dryRun : Bool
  stopOnFail : Bool
  workingDir : Option Str

/-- What is read of a package. -/
structure Pkg where
  name : Str
  version : Option Str
  requires : List Str
  variants : List (List Str)
  tests : List (Str × Str)
  preTestCommands : Option Str
  postCommands : Option Str
deriving DecidableEq

/-- package/types.rs `qualified_name`. -/
def Pkg.qualified (p : Pkg) : Str :=
  match p.version with
  | some v => p.name ++ c!"-" ++ v
  | none => p.name

/-- A started program: where, what, and with which variables (all of them, or none for those of the caller). -/
structure Start where
  dir : Str
  program : Str
  args : List Str
  vars : Option (List (Str × Str))
deriving DecidableEq

/-- The machine. -/
structure World where
  cwd : Str
  /-- The configured package directories and the local one. -/
  configured : List Str
  localPath : Str
  /-- utils.rs:128-139 `expand_home_path`. -/
  home : Str → Str
  /-- The file `package.py` of a directory: whether it is there, and what it holds. -/
  packageFile : Str → Option (Option Pkg)
  /-- The directory of a request below a search path, if it is there: the names of its directories. -/
  versions : Str → Str → Option (List Str)
  /-- The directory of a version. -/
  versionDir : Str → Str → Str → Str
  /-- Requirements that can be parsed. -/
  parses : Str → Bool
  /-- The strict solver over the given directories. -/
  solve : List Str → List Str → Option (List Pkg)
  /-- `EnvironmentManager::generate_environment`. -/
  generate : List Pkg → Option (List (Str × Str))
  /-- The variables of the caller, with the doubled entries of PATH removed. -/
  vars : List (Str × Str)
  isDir : Str → Bool
  /-- Compiling and running a regular expression. -/
  regex : Str → Option (Str → Bool)
  /-- What a program ends with, after the ones started before: none if it cannot be started, a missing code if it was
  killed. -/
  exec : List Start → Start → Option (Option Int)

/-- A loaded runner. -/
structure Runner where
  dir : Str
  tests : List (Str × Str)
  env : Option (List (Str × Str))
  skip : Bool

/-- test.rs:163-175: the directories to search. -/
def searchPaths (w : World) (a : Args) : List Str :=
  (w.configured.map w.home).foldl
    (fun l p => if (!a.noLocal || p != w.home w.localPath) && !l.contains p then l ++ [p] else l)
    ((a.paths.map (splitChar ':')).getD [])

/-- test.rs:603-636 `test_requirement_sets`. -/
def requirementSets (p : Pkg) (a : Args) (fromRepository : Bool) : List (List Str) :=
  if fromRepository then [p.qualified :: a.extraPackages]
  else if p.variants.isEmpty then [p.requires ++ a.extraPackages]
  else p.variants.map fun v => p.requires ++ a.extraPackages ++ v

/-- test.rs:285-314: the packages of the first set that can be resolved. -/
def firstResolved (w : World) (paths : List Str) : List (List Str) → Option (List Pkg)
  | [] => none
  | r :: rest =>
    if r.isEmpty then some []
    else if r.all w.parses then
      match w.solve paths r with
      | some l => some l
      | none => firstResolved w paths rest
    else none

/-- test.rs:638-646 `apply_pre_test_commands`. -/
def withPreTest (p : Pkg) : Pkg :=
  match p.preTestCommands with
  | none => p
  | some c => { p with
      preTestCommands := none
      postCommands := some (match p.postCommands with
        | some q => q ++ c!"\n" ++ c
        | none => c) }

/-- test.rs:323-331: the first package of a name gets its commands. -/
def withPreTestIn (name : Str) : List Pkg → Option (List Pkg)
  | [] => none
  | p :: rest => if p.name = name then some (withPreTest p :: rest) else (withPreTestIn name rest).map (p :: ·)

/-- test.rs:243-266: tests in the current environment. -/
def inplaceRunner (w : World) (dir : Str) (p : Pkg) : Runner :=
  let root := mget w.vars (Environment.upper p.name ++ c!"_ROOT")
  let version := mget w.vars (Environment.upper p.name ++ c!"_VERSION")
  let mismatch := match p.version, version with
    | some v, some u => v != u
    | _, _ => false
  match root with
  | some r => if !w.isDir r || mismatch then ⟨dir, p.tests, some w.vars, true⟩ else ⟨r, p.tests, some w.vars, false⟩
  | none => ⟨dir, p.tests, some w.vars, true⟩

/-- test.rs:218-343 `extract_tests_from_package`. -/
def extract (w : World) (a : Args) (paths : List Str) (dir : Str) (p : Pkg) (fromRepository : Bool) : Option Runner :=
  if a.inplace then some (inplaceRunner w dir p)
  else
    match firstResolved w paths (requirementSets p a fromRepository) with
    | none => none
    | some packages =>
      match (if fromRepository then withPreTestIn p.name packages else some (packages ++ [withPreTest p])) with
      | none => none
      | some packages => (w.generate packages).map fun env => ⟨dir, p.tests, some env, false⟩

/-- test.rs:191-210: the package of a request in the search paths. -/
def loadFrom (w : World) (a : Args) (paths : List Str) : List Str → Option Runner
  | [] => none
  | s :: rest =>
    match (w.versions s a.package).bind fun l => (Search.sortStr l).getLast? with
    | none => loadFrom w a paths rest
    | some v =>
      match w.packageFile (w.versionDir s a.package v) with
      | none => loadFrom w a paths rest
      | some none => none
      | some (some p) => extract w a paths (w.versionDir s a.package v) p true

/-- test.rs:131-215 `new`, `load_test_definitions`. -/
def load (w : World) (a : Args) : Option Runner :=
  let dir := a.workingDir.getD w.cwd
  match w.packageFile dir with
  | some none => none
  | some (some p) => extract w a (searchPaths w a) dir p false
  | none => loadFrom w a (searchPaths w a) (searchPaths w a)

/-- test.rs:346-354 `get_test_names`. -/
def names (tests : List (Str × Str)) : List Str := Search.sortStr (mkeys tests)

/-- test.rs:367-382, test_runner.rs:250-266: one pattern; `wrap` is what is put around it. -/
def select (regex : Str → Option (Str → Bool)) (wrap : Str → Str) (available : List Str) (found : List Str) (pattern : Str) :
    Option (List Str) :=
  if pattern.contains '*' then
    match regex (wrap (replaceAll c!"*" c!".*" pattern)) with
    | none => none
    | some f => some (available.foldl (fun l x => if f x && !l.contains x then l ++ [x] else l) found)
  else if available.contains pattern && !found.contains pattern then some (found ++ [pattern])
  else some found

/-- test.rs:357-386, test_runner.rs:241-270 `find_requested_test_names`. -/
def requested (regex : Str → Option (Str → Bool)) (wrap : Str → Str) (tests : List (Str × Str)) (patterns : List Str) :
    Option (List Str) :=
  if patterns.isEmpty then some (names tests)
  else patterns.foldlM (select regex wrap (names tests)) []

/-- test_runner.rs:253: the library puts the pattern between anchors. -/
def anchored (s : Str) : Str := c!"^" ++ s ++ c!"$"

/-- test.rs:70-77 `TestStatus`. -/
inductive Status where
  | success | failed | skipped | error
deriving DecidableEq

/-- test.rs:79-88 `TestResult`: name, status and code. -/
structure Result where
  name : Str
  status : Status
  code : Int
deriving DecidableEq

/-- test.rs:507-546: what the end of a program says. -/
def judge : Option (Option Int) → Status × Int
  | none => (.error, -1)
  | some none => (.failed, -1)
  | some (some c) => if c = 0 then (.success, 0) else (.failed, c)

/-- test.rs:466-546 `execute_test_command`: the program of a test. -/
def shell (r : Runner) (command : Str) : Start := ⟨r.dir, c!"sh", [c!"-c", command], r.env⟩

/-- test.rs:389-463 `run_test`: the result and the programs started. -/
def runTest (w : World) (a : Args) (r : Runner) (before : List Start) (name : Str) : Result × List Start :=
  if r.skip || a.dryRun then (⟨name, .skipped, 0⟩, [])
  else
    match mget r.tests name with
    | none => (⟨name, .error, -1⟩, [])
    | some c =>
      let j := judge (w.exec before (shell r c))
      (⟨name, j.1, j.2⟩, [shell r c])

/-- test.rs:711-721: the tests one after another. -/
def runAll (w : World) (a : Args) (r : Runner) : List Start → List Str → List Result × List Start
  | before, [] => ([], before)
  | before, n :: rest =>
    let x := runTest w a r before n
    if a.stopOnFail && x.1.code != 0 then ([x.1], before ++ x.2)
    else
      let y := runAll w a r (before ++ x.2) rest
      (x.1 :: y.1, y.2)

/-- test.rs:709-716: the code of the command. -/
def exitCode (results : List Result) : Int :=
  results.foldl (fun c r => if r.code ≠ 0 ∧ c = 0 then r.code else c) 0

/-- test.rs:549-588 `print_summary`: the numbers and the last line. -/
structure Summary where
  total : Nat
  passed : Nat
  failed : Nat
  errors : Nat
  skipped : Nat
  note : Option Str
deriving DecidableEq

/-- test.rs:549-588 `print_summary`. -/
def summary (l : List Result) : Summary :=
  let failed := (l.filter fun r => r.status = .failed).length
  let errors := (l.filter fun r => r.status = .error).length
  { total := l.length, passed := (l.filter fun r => r.status = .success).length, failed := failed, errors := errors
    skipped := (l.filter fun r => r.status = .skipped).length
    note := if failed > 0 || errors > 0 then some c!"Some tests failed!"
      else if l.length > 0 then some c!"All tests passed!" else none }

/-- How the command ends: an error, nothing to run, the names that it lists, or a run. -/
inductive End where
  | failed
  | nothing
  | listed (l : List (Str × Str))
  | ran (summary : Summary) (code : Int) (results : List Result) (starts : List Start)
deriving DecidableEq

/-- test.rs:652-735 `execute`. -/
def execute (w : World) (a : Args) : End :=
  if a.inplace && (!a.extraPackages.isEmpty || a.paths.isSome || a.noLocal) then .failed
  else
    match load w a with
    | none => .failed
    | some r =>
      if r.tests.isEmpty then .nothing
      else if a.list then .listed ((names r.tests).map fun n => (n, (mget r.tests n).getD []))
      else
        match requested w.regex id r.tests a.tests with
        | none => .failed
        | some [] => .nothing
        | some l =>
          let x := runAll w a r [] l
          .ran (summary x.1) (exitCode x.1) x.1 x.2

/-- test_runner.rs:189-201, 371-393: the program of a test in the library; none for an empty command. -/
def libraryProgram (command : Str) : Option (Str × List Str) :=
  if command.contains ' ' then
    match splitWs command with
    | [] => none
    | p :: args => some (p, args)
  else some (c!"sh", [c!"-c", command])

end Rez.Tests
