import Verif.Model.BuildEnv
import Verif.Model.BuildRun
import Verif.Model.Rex
import Verif.Base.Words
/-!
# The build systems: `rez-next-build/src/systems/`

Which system builds a package, what each system runs in each step, and what a step reports.  What programs do, whether
they can be started, the making of directories and the copying of files are parameters; every program that is started is
written down.  The steps of a binary archive are a parameter here.
Left out: the variables given to the programs (see `Model/BuildEnv.lean`), durations, and the output of Python scripts
while they run.
-/
namespace Rez.Build
open Rez Rez.Rex

/-- systems/mod.rs:94-111 `enum BuildSystem`. -/
inductive System where
  | cmake | make | python | nodejs | cargo | archive | pypi
  | custom (script : Str)
deriving DecidableEq

/-- systems/mod.rs:115-152 `detect`.  `has x` says whether the source directory has the file `x`. -/
def detect (has : Str → Bool) : System :=
  match [c!"build.sh", c!"build.bat", c!"build.py", c!"build"].find? has with
  | some s => .custom s
  | none =>
    if has c!"CMakeLists.txt" then .cmake
    else if has c!"Makefile" || has c!"makefile" then .make
    else if has c!"setup.py" || has c!"pyproject.toml" then .python
    else if has c!"package.json" then .nodejs
    else if has c!"Cargo.toml" then .cargo
    else .custom c!"default"

/-- systems/mod.rs:171-193: a system by its name. -/
def named (s : Str) : System :=
  if s = c!"cmake" then .cmake
  else if s = c!"make" then .make
  else if s = c!"python" then .python
  else if s = c!"nodejs" then .nodejs
  else if s = c!"cargo" then .cargo
  else if s = c!"binary_archive" then .archive
  else if s = c!"pypi" ∨ s = c!"pip" ∨ s = c!"rez_pip" then .pypi
  else .custom s

/-- systems/mod.rs:155-203 `detect_with_package`. -/
def detectWith (has : Str → Bool) (command system : Option Str) : System :=
  match command with
  | some c => if c = c!"false" ∨ c = [] then .custom c!"copy-only" else .custom c!"build_command"
  | none =>
    match system with
    | some s => named s
    | none => if has c!"rezbuild.py" then .custom c!"rezbuild.py" else detect has

/-! ## Programs -/

/-- What is started: a shell command, `python` with arguments, or a Python script with a command. -/
inductive Program where
  | shell (text : Str)
  | pip (args : List Str)
  | script (python path command : Str)
deriving DecidableEq

/-- What a program that could be started leaves. -/
structure Exit where
  code : Int
  out : Str
  err : Str
deriving DecidableEq

/-- A program that was to be started: where, and whether it was and ended with code 0. -/
structure Call where
  cwd : Option Str
  what : Program
  ok : Bool
deriving DecidableEq

/-- A world and the programs that were started. -/
structure Traced (W : Type) where
  world : W
  calls : List Call

/-- What the machine does. -/
structure Box (W : Type) where
  has : Str → W → Bool
  start : Option Str → Program → W → W × Except Str Exit
  makeDir : Str → W → W × Except Str Unit
  copy : Str → Str → W → W × Except Str Nat
  hostPython : W → Except Str Str
  archive : BuildStep → W → W × StepOutcome
  shownCode : Int → Str

/-- The parts of a request and of an environment that the systems use. -/
structure Job where
  source : Str
  buildDir : Str
  installDir : Str
  name : Str
  version : Option Str
  command : Option Str
  release : Bool
  args : List Str
  vars : List (Str × Str)

/-- Whether a program was started and ended with code 0 (context shell.rs:137-139 `is_success`). -/
def succeeded : Except Str Exit → Bool
  | .ok x => x.code == 0
  | .error _ => false

/-- Starting a program. -/
def start {W : Type} (b : Box W) (cwd : Option Str) (p : Program) (t : Traced W) : Traced W × Except Str Exit :=
  let r := b.start cwd p t.world
  (⟨r.1, t.calls ++ [⟨cwd, p, succeeded r.2⟩]⟩, r.2)

/-- `create_dir_all`. -/
def makeDir {W : Type} (b : Box W) (d : Str) (t : Traced W) : Traced W × Except Str Unit :=
  let r := b.makeDir d t.world
  (⟨r.1, t.calls⟩, r.2)

/-- custom.rs:466-507 `copy_package_files` (see `Model/BuildCopy.lean`). -/
def copyFiles {W : Type} (b : Box W) (src dst : Str) (t : Traced W) : Traced W × Except Str Nat :=
  let r := b.copy src dst t.world
  (⟨r.1, t.calls⟩, r.2)

/-- A step that is the success or failure of a program: `execute(..).await?` and the result of it. -/
def plain {W : Type} (b : Box W) (cwd : Option Str) (p : Program) (t : Traced W) : Traced W × StepOutcome :=
  match start b cwd p t with
  | (t', .ok x) => (t', .ok ⟨x.code == 0, x.out, x.err⟩)
  | (t', .error e) => (t', .error e)

/-- cmd_builder.rs:30-73 `run_cmd` of an optional command.  One that is not optional is `plain`. -/
def lenient {W : Type} (b : Box W) (cwd : Option Str) (p : Program) (fallback : Str) (t : Traced W) :
    Traced W × StepOutcome :=
  match start b cwd p t with
  | (t', .ok x) => if x.code == 0 then (t', .ok ⟨true, x.out, x.err⟩) else (t', .ok ⟨true, fallback, x.err⟩)
  | (t', .error _) => (t', .ok ⟨true, fallback, []⟩)

/-- A step in which nothing is done. -/
def nothing {W : Type} (text : Str) (t : Traced W) : Traced W × StepOutcome := (t, .ok ⟨true, text, []⟩)

/-- `format!("\"{}\"", ..)`. -/
def quoted (s : Str) : Str := '"' :: s ++ c!"\""

/-! ## CMake and make -/

/-- cmake.rs:22-61. -/
def cmakeConfigure (j : Job) : Str :=
  c!"cmake " ++ joinWith c!" " ([c!"-S", j.source, c!"-B", j.buildDir, c!"-DCMAKE_INSTALL_PREFIX=" ++ j.installDir,
    if j.release then c!"-DCMAKE_BUILD_TYPE=Release" else c!"-DCMAKE_BUILD_TYPE=Debug"] ++ j.args)

/-- cmake.rs:63-97. -/
def cmakeCompile (j : Job) : Str :=
  c!"cmake " ++ joinWith c!" " ([c!"--build", j.buildDir] ++ if j.release then [c!"--config", c!"Release"] else [])

/-- cmd_builder.rs:76-78 `make_install_cmd`. -/
def makeInstall (j : Job) : Str := c!"make install DESTDIR=" ++ quoted j.installDir

/-! ## Cargo -/

/-- cargo_build.rs:44-50: the blank at the end is trimmed. -/
def cargoCompile (j : Job) : Str := trim (c!"cargo build " ++ if j.release then c!"--release" else [])

/-- cargo_build.rs:101-112. -/
def cargoInstall (j : Job) : Str :=
  trim (c!"cargo install --path . " ++ (if j.release then c!"--release" else []) ++ c!" --root " ++ quoted j.installDir)

/-- cargo_build.rs:86-121 `install`. -/
def cargoInstallStep {W : Type} (b : Box W) (j : Job) (t : Traced W) : Traced W × StepOutcome :=
  match makeDir b j.installDir t with
  | (t', .error e) => (t', .error e)
  | (t', .ok _) => plain b (some j.source) (.shell (cargoInstall j)) t'

/-! ## Python -/

/-- python.rs:22-41 `configure`: whether Python is there is not looked at. -/
def pythonConfigure {W : Type} (b : Box W) (j : Job) (t : Traced W) : Traced W × StepOutcome :=
  if b.has c!"rezbuild.py" t.world then
    ((start b (some j.source) (.shell c!"python --version") t).1, .ok ⟨true, c!"Python build system configured", []⟩)
  else nothing c!"Python build system configured" t

/-- python.rs:43-110 `compile`. -/
def pythonCompile {W : Type} (b : Box W) (j : Job) (t : Traced W) : Traced W × StepOutcome :=
  if b.has c!"rezbuild.py" t.world then
    plain b (some j.source) (.shell (c!"python " ++ quoted (pjoin j.source c!"rezbuild.py") ++ c!" build " ++ quoted j.buildDir ++
      c!" " ++ quoted j.installDir)) t
  else if b.has c!"setup.py" t.world then
    plain b (some j.source) (.shell (c!"python setup.py build --build-base " ++ quoted j.buildDir)) t
  else if b.has c!"pyproject.toml" t.world then
    plain b (some j.source) (.shell (c!"pip wheel . -w " ++ quoted j.buildDir ++ c!" --no-deps")) t
  else nothing c!"No Python build files found; skipping compile step" t

/-- python.rs:112-143 `test`. -/
def pythonTest {W : Type} (b : Box W) (j : Job) (t : Traced W) : Traced W × StepOutcome :=
  match lenient b (some j.source) (.shell c!"python -m pytest -q --tb=short") [] t with
  | (t', .error e) => (t', .error e)
  | (t', .ok r) =>
    if r.success && !r.output.isEmpty then (t', .ok r)
    else lenient b (some j.source) (.shell c!"python -m unittest discover -q") c!"No tests found" t'

/-- The copying of a pure package: python.rs:223-232, nodejs.rs:107-114. -/
def copyStep {W : Type} (b : Box W) (src dst word : Str) (t : Traced W) : Traced W × StepOutcome :=
  match copyFiles b src dst t with
  | (t', .error e) => (t', .error e)
  | (t', .ok n) => (t', .ok ⟨true, word ++ c!" " ++ decimal n ++ c!" files to " ++ dst, []⟩)

/-- python.rs:159-233 `install`. -/
def pythonInstall {W : Type} (b : Box W) (j : Job) (t : Traced W) : Traced W × StepOutcome :=
  match makeDir b j.installDir t with
  | (t', .error e) => (t', .error e)
  | (t', .ok _) =>
    if b.has c!"rezbuild.py" t'.world then
      plain b (some j.source) (.shell (c!"python " ++ quoted (pjoin j.source c!"rezbuild.py") ++ c!" install " ++
        quoted j.buildDir ++ c!" " ++ quoted j.installDir)) t'
    else if b.has c!"setup.py" t'.world then
      plain b (some j.source) (.shell (c!"python setup.py install --prefix " ++ quoted j.installDir)) t'
    else if b.has c!"pyproject.toml" t'.world then
      plain b (some j.source) (.shell (c!"pip install . --target " ++ quoted j.installDir ++ c!" --no-deps")) t'
    else copyStep b j.source j.installDir c!"Copied" t'

/-! ## Node.js -/

/-- nodejs.rs:92-115 `install`. -/
def nodejsInstall {W : Type} (b : Box W) (j : Job) (t : Traced W) : Traced W × StepOutcome :=
  match makeDir b j.installDir t with
  | (t', .error e) => (t', .error e)
  | (t', .ok _) =>
    copyStep b (if b.has c!"dist" t'.world then pjoin j.source c!"dist" else j.source) j.installDir c!"Installed" t'

/-! ## PyPI -/

/-- A variable that is set and not empty. -/
def filled (vars : List (Str × Str)) (k : Str) : Option Str := (mget vars k).filter fun v => !v.isEmpty

/-- pypi.rs:182-187 `env_var_truthy`. -/
def truthy (v : Option Str) : Bool :=
  match v with
  | some s => [c!"1", c!"true", c!"yes", c!"on"].contains (s.map lowerChar)
  | none => false

/-- pypi.rs:82-87: what is to be installed. -/
def pypiSpec (j : Job) : Option Str :=
  match filled j.vars c!"REZ_PYPI_PACKAGE" with
  | some s => some s
  | none => j.version.map fun v => j.name ++ c!"==" ++ v

/-- pypi.rs:100-125: the arguments. -/
def pypiArgs (j : Job) : List Str :=
  [c!"-m", c!"pip", c!"install", c!"--disable-pip-version-check", c!"--target", pjoin j.installDir c!"python"] ++
  (if truthy (mget j.vars c!"REZ_PYPI_WITH_DEPS") then [] else [c!"--no-deps"]) ++
  (match filled j.vars c!"REZ_PYPI_EXTRA_ARGS" with
    | some s => splitWs s
    | none => []) ++
  (match filled j.vars c!"REZ_PYPI_REQUIREMENT" with
    | some r => [c!"-r", r]
    | none => []) ++
  (pypiSpec j).toList

/-- pypi.rs:69-133 `install`. -/
def pypiInstall {W : Type} (b : Box W) (j : Job) (t : Traced W) : Traced W × StepOutcome :=
  match makeDir b (pjoin j.installDir c!"python") t with
  | (t', .error e) => (t', .error e)
  | (t', .ok _) =>
    if (pypiSpec j).isNone && (filled j.vars c!"REZ_PYPI_REQUIREMENT").isNone then
      (t', .ok ⟨false, [], c!"pypi requires REZ_PYPI_PACKAGE or REZ_PYPI_REQUIREMENT"⟩)
    else plain b (some j.source) (.pip (pypiArgs j)) t'

/-! ## Scripts and commands -/

/-- custom.rs:452-471 `format_raw_command_failure`. -/
def failure {W : Type} (b : Box W) (cmd : Str) (x : Exit) : Str :=
  c!"Command failed with exit code " ++ b.shownCode x.code ++ c!": " ++ cmd ++
  (if (trim x.err).isEmpty then [] else c!"\nstderr:\n" ++ trimEnd x.err) ++
  (if (trim x.out).isEmpty then [] else c!"\nstdout:\n" ++ trimEnd x.out)

/-- custom.rs:300-326, 388-420: the result of a script. -/
def scriptResult {W : Type} (b : Box W) (cmd : Str) (x : Exit) : StepResult :=
  ⟨x.code == 0, c!"Invoking custom build system...\nRunning build command: " ++ cmd ++ c!"\n" ++ x.out,
    if x.code == 0 then x.err else failure b cmd x⟩

/-- custom.rs:271-420 `execute_build_script`, `execute_python_build_script`.  A name with a slash at the front is the whole
path. -/
def runScript {W : Type} (b : Box W) (j : Job) (script command : Str) (t : Traced W) : Traced W × StepOutcome :=
  match makeDir b j.installDir t with
  | (t', .error e) => (t', .error e)
  | (t', .ok _) =>
    if c!".py".isSuffixOf script then
      match b.hostPython t'.world with
      | .error e => (t', .error e)
      | .ok py =>
        match start b (some j.source) (.script py (pjoin j.source script) command) t' with
        | (t'', .error e) => (t'', .error e)
        | (t'', .ok x) => (t'', .ok (scriptResult b (py ++ c!" " ++ pjoin j.source script ++ c!" " ++ command) x))
    else
      let cmd := (if c!".sh".isSuffixOf script then c!"bash " else []) ++ pjoin j.source script ++ c!" " ++ command
      match start b (some j.source) (.shell cmd) t' with
      | (t'', .error e) => (t'', .error e)
      | (t'', .ok x) => (t'', .ok (scriptResult b cmd x))

/-- custom.rs:237-268 `expand_build_command_variables`. -/
def expand (j : Job) (cmd : Str) : Str :=
  [(c!"{root}", j.source), (c!"{install}", c!"install"), (c!"{build_path}", j.buildDir), (c!"{install_path}", j.installDir),
   (c!"{name}", j.name), (c!"{version}", j.version.getD []), (c!"{variant_index}", [])].foldl
    (fun s e => replaceAll e.1 e.2 s) cmd

/-- custom.rs:141-178 `copy_files_install`. -/
def copyOnly {W : Type} (b : Box W) (j : Job) (t : Traced W) : Traced W × StepOutcome :=
  match makeDir b j.installDir t with
  | (t', .error e) => (t', .error e)
  | (t', .ok _) =>
    match copyFiles b j.source j.installDir t' with
    | (t'', .error e) => (t'', .ok ⟨false, [], c!"Installation failed: " ++ e⟩)
    | (t'', .ok n) => (t'', .ok ⟨true, c!"Installation completed. Copied " ++ decimal n ++ c!" files to " ++ j.installDir, []⟩)

/-- custom.rs:180-234 `execute_build_command`. -/
def runCommand {W : Type} (b : Box W) (j : Job) (t : Traced W) : Traced W × StepOutcome :=
  match makeDir b j.installDir t with
  | (t', .error e) => (t', .error e)
  | (t', .ok _) =>
    match j.command with
    | none => (t', .error c!"Build error: build_command not found in package")
    | some c =>
      match start b (some j.source) (.shell (expand j c)) t' with
      | (t'', .error e) => (t'', .error e)
      | (t'', .ok x) =>
        if x.code == 0 then
          match copyFiles b j.source j.installDir t'' with
          | (t3, .error e) => (t3, .ok ⟨false, x.out, x.err ++ c!"\nFailed to copy source files: " ++ e⟩)
          | (t3, .ok n) => (t3, .ok ⟨true, x.out ++ c!"\nCopied " ++ decimal n ++ c!" source files to install directory", x.err⟩)
        else (t'', .ok ⟨false, x.out, x.err⟩)

/-- custom.rs:67-91 `compile`. -/
def customCompile {W : Type} (b : Box W) (j : Job) (s : Str) (t : Traced W) : Traced W × StepOutcome :=
  if s = c!"default" ∨ s = c!"copy-only" ∨ s = c!"build_command" then nothing (c!"Compilation completed using script: " ++ s) t
  else runScript b j s c!"build" t

/-- custom.rs:124-138 `install`. -/
def customInstall {W : Type} (b : Box W) (j : Job) (s : Str) (t : Traced W) : Traced W × StepOutcome :=
  if s = c!"default" ∨ s = c!"copy-only" then copyOnly b j t
  else if s = c!"build_command" then runCommand b j t
  else runScript b j s c!"install" t

/-! ## The steps of a system -/

/-- The step of a binary archive. -/
def archiveStep {W : Type} (b : Box W) (s : BuildStep) (t : Traced W) : Traced W × StepOutcome :=
  let r := b.archive s t.world
  (⟨r.1, t.calls⟩, r.2)

/-- systems/mod.rs:206-221 `configure`, and `configure` of the systems: cmake.rs:22, make.rs:22, nodejs.rs:22,
cargo_build.rs:22, pypi.rs:28, custom.rs:56. -/
def configure {W : Type} (b : Box W) (j : Job) : System → Traced W → Traced W × StepOutcome
  | .cmake => plain b (some j.source) (.shell (cmakeConfigure j))
  | .make => nothing c!"Make build system ready"
  | .python => pythonConfigure b j
  | .nodejs => plain b (some j.source) (.shell c!"npm install")
  | .cargo => plain b (some j.source) (.shell c!"cargo check")
  | .archive => archiveStep b .configuring
  | .pypi => plain b none (.pip [c!"-m", c!"pip", c!"--version"])
  | .custom s => nothing (c!"Configuration completed for script: " ++ s)

/-- systems/mod.rs:224-248 `compile`. -/
def compile {W : Type} (b : Box W) (j : Job) : System → Traced W → Traced W × StepOutcome
  | .cmake => plain b (some j.source) (.shell (cmakeCompile j))
  | .make => plain b (some j.source) (.shell c!"make")
  | .python => pythonCompile b j
  | .nodejs => lenient b (some j.source) (.shell c!"npm run build") c!"No build script"
  | .cargo => plain b (some j.source) (.shell (cargoCompile j))
  | .archive => archiveStep b .compiling
  | .pypi => nothing c!"pypi uses pip install artifacts"
  | .custom s => customCompile b j s

/-- systems/mod.rs:251-269 `test`. -/
def test {W : Type} (b : Box W) (j : Job) : System → Traced W → Traced W × StepOutcome
  | .cmake => plain b (some j.buildDir) (.shell c!"ctest --output-on-failure")
  | .make => plain b (some j.source) (.shell c!"make test")
  | .python => pythonTest b j
  | .nodejs => lenient b (some j.source) (.shell c!"npm test") c!"No test script"
  | .cargo => plain b (some j.source) (.shell c!"cargo test")
  | .archive => archiveStep b .testing
  | .pypi => nothing c!"pypi plugin tests skipped"
  | .custom _ => nothing c!"Custom build-system tests completed"

/-- systems/mod.rs:272-288 `package`. -/
def package {W : Type} (b : Box W) (j : Job) : System → Traced W → Traced W × StepOutcome
  | .cmake => nothing c!"CMake packaging handled during install"
  | .make => nothing c!"Make packaging handled during install"
  | .python => nothing c!"Python packaging handled during install"
  | .nodejs => nothing c!"NodeJS packaging handled during install"
  | .cargo => lenient b (some j.source) (.shell c!"cargo package --no-verify") c!"cargo package skipped"
  | .archive => archiveStep b .packaging
  | .pypi => nothing c!"pypi package step completed"
  | .custom _ => nothing c!"Packaging completed"

/-- systems/mod.rs:291-306 `install`. -/
def install {W : Type} (b : Box W) (j : Job) : System → Traced W → Traced W × StepOutcome
  | .cmake => plain b (some j.buildDir) (.shell c!"cmake --install .")
  | .make => plain b (some j.source) (.shell (makeInstall j))
  | .python => pythonInstall b j
  | .nodejs => nodejsInstall b j
  | .cargo => cargoInstallStep b j
  | .archive => archiveStep b .installing
  | .pypi => pypiInstall b j
  | .custom s => customInstall b j s

/-- process.rs:394-443 with a build system: the steps before and after, and the package tests, are those of the machine. -/
def toolsOf {W : Type} (b : Box W) (j : Job) (s : System) (m : Tools W) : Tools (Traced W) where
  prepare t := ((⟨(m.prepare t.world).1, t.calls⟩), (m.prepare t.world).2)
  configure := configure b j s
  compile := compile b j s
  test := test b j s
  package := package b j s
  install := install b j s
  testEnv t := m.testEnv t.world
  shell c t := (⟨(m.shell c t.world).1, t.calls⟩, (m.shell c t.world).2)
  removeTemp t := (⟨(m.removeTemp t.world).1, t.calls⟩, (m.removeTemp t.world).2)
  shownCode := m.shownCode

end Rez.Build
