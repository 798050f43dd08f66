import Verif.Base.Map
import Verif.Model.Requirement
import Mathlib.Data.List.Sort
/-!
# Running builds: `rez-next-build/src/process.rs`, `builder.rs`

One build is a list of steps on a world (the files, and whatever programs change).  What a step of a build system does is
a parameter; the order, the stopping, the reports, the package tests and the bookkeeping of the manager are modelled.
Left out: durations and time stamps, the average build time, and the text `started`/`finished` of events.
-/
namespace Rez.Build
open Rez

/-- process.rs:38-57 `enum BuildStep`. -/
inductive BuildStep where
  | preparing | configuring | compiling | testing | packaging | installing | packageTesting | cleanup
deriving DecidableEq

/-- `{:?}` of a step. -/
def BuildStep.shown : BuildStep → Str
  | .preparing => c!"Preparing"
  | .configuring => c!"Configuring"
  | .compiling => c!"Compiling"
  | .testing => c!"Testing"
  | .packaging => c!"Packaging"
  | .installing => c!"Installing"
  | .packageTesting => c!"PackageTesting"
  | .cleanup => c!"Cleanup"

/-- process.rs:93-105 `struct BuildStepResult`. -/
structure StepResult where
  success : Bool
  output : Str
  errors : Str
deriving DecidableEq

/-- What a step gives: a result, or an error with its text. -/
abbrev StepOutcome := Except Str StepResult

/-- process.rs:60-74 `enum BuildEventKind`. -/
inductive EventKind where
  | buildStarted | stepStarted | stepOutput | stepError | stepFinished | buildFinished
deriving DecidableEq

/-- process.rs:77-92 `struct BuildEvent`. -/
structure Event where
  step : Option BuildStep
  kind : EventKind
  text : Str
  success : Option Bool
deriving DecidableEq

/-- What is reported while a build runs. -/
structure Report where
  events : List Event
  output : Str
  errors : Str
deriving DecidableEq

/-- process.rs:293-302: the steps. -/
def allSteps : List BuildStep :=
  [.preparing, .configuring, .compiling, .testing, .packaging, .installing, .packageTesting, .cleanup]

/-- process.rs:647-667 `emit_step_lines`.  Splitting at every line feed stands for `lines`: blank lines are left out and the
others trimmed. -/
def lineEvents (step : BuildStep) (kind : EventKind) (text : Str) : List Event :=
  ((splitChar '\n' text).filter fun l => !(trim l).isEmpty).map fun l => ⟨some step, kind, trim l, none⟩

/-- process.rs:324-362: what is reported of a step that gave a result, before it is known to have failed. -/
def Report.step (r : Report) (s : BuildStep) (x : StepResult) : Report :=
  { events := r.events ++ lineEvents s .stepOutput x.output ++
      (if x.errors.isEmpty then [] else lineEvents s .stepError x.errors) ++ [⟨some s, .stepFinished, [], some x.success⟩]
    output := r.output ++ c!"=== " ++ s.shown ++ c!" ===\n" ++ x.output ++ c!"\n"
    errors := if x.errors.isEmpty then r.errors
      else r.errors ++ c!"=== " ++ s.shown ++ c!" Errors ===\n" ++ x.errors ++ c!"\n" }

/-- process.rs:304-380: the steps in turn; the world, the report and the error. -/
def runSteps {W : Type} (exec : BuildStep → W → W × StepOutcome) : List BuildStep → W → Report → W × Report × Except Str Unit
  | [], w, r => (w, { r with events := r.events ++ [⟨none, .buildFinished, [], some true⟩] }, .ok ())
  | s :: rest, w, r =>
    let r1 := { r with events := r.events ++ [⟨some s, .stepStarted, [], none⟩] }
    match exec s w with
    | (w', .error e) => (w', r1, .error e)
    | (w', .ok x) =>
      let r2 := r1.step s x
      if x.success then runSteps exec rest w' r2
      else (w', { r2 with events := r2.events ++ [⟨none, .buildFinished, [], some false⟩] },
        .error (c!"Build error: Build step " ++ s.shown ++ c!" failed: " ++ x.errors))

/-- process.rs:264-292, 380-391 `run_build_steps`. -/
def runBuild {W : Type} (exec : BuildStep → W → W × StepOutcome) (w : W) : W × Report × Except Str Unit :=
  runSteps exec allSteps w ⟨[⟨none, .buildStarted, [], none⟩], [], []⟩

/-- builder.rs:193-208 `struct BuildResult`. -/
structure BuildResult where
  success : Bool
  output : Str
  errors : Str
deriving DecidableEq

/-- process.rs:150-170, 192-232: what `wait` gives of a build that nobody cancelled.  The errors of a success are not
passed on. -/
def resultOf (r : Report) (x : Except Str Unit) : BuildResult :=
  match x with
  | .ok _ => ⟨true, r.output, []⟩
  | .error e => ⟨false, r.output, if (trim r.errors).isEmpty then r.errors ++ e else r.errors⟩

/-! ## One step -/

/-- What the build system, the shell and the file system do. -/
structure Tools (W : Type) where
  prepare : W → W × StepOutcome
  configure : W → W × StepOutcome
  compile : W → W × StepOutcome
  test : W → W × StepOutcome
  package : W → W × StepOutcome
  install : W → W × StepOutcome
  /-- the environment of the package tests: the error with which it fails -/
  testEnv : W → Option Str
  /-- a shell command: output, error output, exit code -/
  shell : Str → W → W × Except Str (Str × Str × Int)
  /-- `remove_dir_all` of the temporary directory, if it is there -/
  removeTemp : W → W × Except Str Unit
  /-- the text of an exit code -/
  shownCode : Int → Str

/-- process.rs:590-610: one package test, as told before it runs. -/
def testLine (name command : Str) : Str := c!"Running package test '" ++ name ++ c!"': " ++ command ++ c!"\n"

/-- process.rs:590-624: the package tests in turn.  `fill` puts the install directory into a command. -/
def runTests {W : Type} (t : Tools W) (fill : Str → Str) : List (Str × Str) → W → Str → W × StepOutcome
  | [], w, out => (w, .ok ⟨true, out, []⟩)
  | (name, command) :: rest, w, out =>
    let out1 := out ++ testLine name (fill command)
    match t.shell (fill command) w with
    | (w', .error e) => (w', .error e)
    | (w', .ok (stdout, stderr, code)) =>
      if code = 0 then runTests t fill rest w' (out1 ++ stdout)
      else (w', .ok ⟨false, out1 ++ stdout,
        if (trim stderr).isEmpty then c!"Package test '" ++ name ++ c!"' exited with code " ++ t.shownCode code
        else stderr⟩)

/-- process.rs:588-589: `sort_by_key` of the names. -/
def sortTests (tests : List (Str × Str)) : List (Str × Str) :=
  tests.insertionSort fun a b => cmpStr a.1 b.1 ≠ .gt

/-- process.rs:549-627 `execute_package_test_step`. -/
def packageTests {W : Type} (t : Tools W) (fill : Str → Str) (tests : List (Str × Str)) (w : W) : W × StepOutcome :=
  if tests.isEmpty then (w, .ok ⟨true, c!"No package tests defined", []⟩)
  else match t.testEnv w with
    | some e => (w, .error e)
    | none => runTests t fill (sortTests tests) w []

/-- The options of one build. -/
structure Options where
  skipTests : Bool
  keepArtifacts : Bool
  tests : List (Str × Str)
  fill : Str → Str

/-- process.rs:394-443 `execute_build_step`. -/
def execStep {W : Type} (t : Tools W) (o : Options) : BuildStep → W → W × StepOutcome
  | .preparing, w => t.prepare w
  | .configuring, w => t.configure w
  | .compiling, w => t.compile w
  | .testing, w => if o.skipTests then (w, .ok ⟨true, c!"Tests skipped", []⟩) else t.test w
  | .packaging, w => t.package w
  | .installing, w => t.install w
  | .packageTesting, w =>
    if o.skipTests then (w, .ok ⟨true, c!"Package tests skipped", []⟩) else packageTests t o.fill o.tests w
  | .cleanup, w =>
    if o.keepArtifacts then (w, .ok ⟨true, c!"Cleanup completed", []⟩)
    else match t.removeTemp w with
      | (w', .error e) => (w', .error e)
      | (w', .ok _) => (w', .ok ⟨true, c!"Cleanup completed", []⟩)

end Rez.Build
