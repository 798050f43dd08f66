import Verif.Model.BuildSystems
/-!
# What building with a build system promises

Which system is chosen, the programs of each system as a table, words of a shell command, and placeholders of a build
command; without the functions of the model that do it.
-/
namespace Rez.Build.Spec
open Rez

/-! ## Choice -/

/-- The files that decide on a system, the first first. -/
def projectFiles : List (List Str × System) :=
  [([c!"rezbuild.py"], .custom c!"rezbuild.py"), ([c!"build.sh"], .custom c!"build.sh"), ([c!"build.bat"], .custom c!"build.bat"),
   ([c!"build.py"], .custom c!"build.py"), ([c!"build"], .custom c!"build"), ([c!"CMakeLists.txt"], .cmake),
   ([c!"Makefile", c!"makefile"], .make), ([c!"setup.py", c!"pyproject.toml"], .python), ([c!"package.json"], .nodejs),
   ([c!"Cargo.toml"], .cargo)]

/-- The names of systems. -/
def systemNames : List (Str × System) :=
  [(c!"cmake", .cmake), (c!"make", .make), (c!"python", .python), (c!"nodejs", .nodejs), (c!"cargo", .cargo),
   (c!"binary_archive", .archive), (c!"pypi", .pypi), (c!"pip", .pypi), (c!"rez_pip", .pypi)]

/-- A file of this list is there. -/
def AnyOf (has : Str → Bool) (files : List Str) : Prop := ∃ f ∈ files, has f = true

/-- The system of a package: its build command comes first, then the system it names, then the first project file that is
there; without any of them the files are copied. -/
inductive Chosen (has : Str → Bool) : Option Str → Option Str → System → Prop where
  | noCommand (c : Str) (sys : Option Str) (h : c = [] ∨ c = c!"false") : Chosen has (some c) sys (.custom c!"copy-only")
  | command (c : Str) (sys : Option Str) (h : c ≠ []) (h' : c ≠ c!"false") : Chosen has (some c) sys (.custom c!"build_command")
  | system (s : Str) (x : System) (h : (s, x) ∈ systemNames) : Chosen has none (some s) x
  | script (s : Str) (h : ∀ x, (s, x) ∉ systemNames) : Chosen has none (some s) (.custom s)
  | file (pre post : List (List Str × System)) (files : List Str) (x : System) (ht : projectFiles = pre ++ (files, x) :: post)
      (h : AnyOf has files) (hno : ∀ e ∈ pre, ¬ AnyOf has e.1) : Chosen has none none x
  | nothing (hno : ∀ e ∈ projectFiles, ¬ AnyOf has e.1) : Chosen has none none (.custom c!"default")

/-- The types that are listed to the user (systems/mod.rs:83-94 `get_buildsys_types`). -/
def listedTypes : List Str :=
  [c!"cmake", c!"make", c!"python", c!"nodejs", c!"cargo", c!"binary_archive", c!"pypi", c!"custom"]

/-! ## Programs -/

/-- The script of a package that is not one of the three names with a meaning of their own. -/
def IsScript (s : Str) : Prop := s ≠ c!"default" ∧ s ≠ c!"copy-only" ∧ s ≠ c!"build_command"
instance (s : Str) : Decidable (IsScript s) := by unfold IsScript; infer_instance

/-- How a script is run. -/
def scriptProgram (j : Job) (py s word : Str) : Program :=
  if c!".py" <:+ s then .script py (pjoin j.source s) word
  else if c!".sh" <:+ s then .shell (c!"bash " ++ pjoin j.source s ++ c!" " ++ word)
  else .shell (pjoin j.source s ++ c!" " ++ word)

/-- What the project files of a Python package call for. -/
def pythonPrograms (j : Job) (has : Str → Bool) (rez setup project : Str) : List (Option Str × Program) :=
  if has c!"rezbuild.py" then [(some j.source, .shell rez)]
  else if has c!"setup.py" then [(some j.source, .shell setup)]
  else if has c!"pyproject.toml" then [(some j.source, .shell project)]
  else []

/-- The values of a variable that mean yes. -/
def Yes (v : Str) : Prop := v.map lowerChar ∈ [c!"1", c!"true", c!"yes", c!"on"]
instance (v : Str) : Decidable (Yes v) := by unfold Yes; infer_instance

/-- A variable of the build that is set to a text that is not empty. -/
def Says (j : Job) (k v : Str) : Prop := mget j.vars k = some v ∧ v ≠ []

/-- The arguments of `pip` for a package: into the directory `python` of the installation, without the dependencies unless
they are asked for, with the arguments, the requirement file and the package of the variables; without the variable the
package is the version of this name. -/
structure PipInstall (j : Job) (args : List Str) : Prop where
  shape : ∃ deps extra file what, args = [c!"-m", c!"pip", c!"install", c!"--disable-pip-version-check", c!"--target",
      pjoin j.installDir c!"python"] ++ deps ++ extra ++ file ++ what ∧
    ((∃ v, mget j.vars c!"REZ_PYPI_WITH_DEPS" = some v ∧ Yes v) → deps = []) ∧
    ((∀ v, mget j.vars c!"REZ_PYPI_WITH_DEPS" = some v → ¬ Yes v) → deps = [c!"--no-deps"]) ∧
    (∀ l : List Str, Says j c!"REZ_PYPI_EXTRA_ARGS" (joinWith c!" " l) → (∀ w ∈ l, w ≠ [] ∧ ∀ c ∈ w, isWs c = false) → extra = l) ∧
    ((∀ v, ¬ Says j c!"REZ_PYPI_EXTRA_ARGS" v) → extra = []) ∧
    (∀ f, Says j c!"REZ_PYPI_REQUIREMENT" f → file = [c!"-r", f]) ∧
    ((∀ f, ¬ Says j c!"REZ_PYPI_REQUIREMENT" f) → file = []) ∧
    (∀ p, Says j c!"REZ_PYPI_PACKAGE" p → what = [p]) ∧
    ((∀ p, ¬ Says j c!"REZ_PYPI_PACKAGE" p) → ∀ v, j.version = some v → what = [j.name ++ c!"==" ++ v]) ∧
    ((∀ p, ¬ Says j c!"REZ_PYPI_PACKAGE" p) → j.version = none → what = [])

/-- The programs of a system in a step, and where they run.  `has` tells the files of the source, `py` is the Python of the
machine.  The second of the tests of Python only runs where the first says nothing. -/
def programs (j : Job) (has : Str → Bool) (py : Str) : System → BuildStep → List (Option Str × Program)
  | .cmake, .configuring => [(some j.source, .shell (cmakeConfigure j))]
  | .cmake, .compiling => [(some j.source, .shell (cmakeCompile j))]
  | .cmake, .testing => [(some j.buildDir, .shell c!"ctest --output-on-failure")]
  | .cmake, .installing => [(some j.buildDir, .shell c!"cmake --install .")]
  | .make, .compiling => [(some j.source, .shell c!"make")]
  | .make, .testing => [(some j.source, .shell c!"make test")]
  | .make, .installing => [(some j.source, .shell (makeInstall j))]
  | .nodejs, .configuring => [(some j.source, .shell c!"npm install")]
  | .nodejs, .compiling => [(some j.source, .shell c!"npm run build")]
  | .nodejs, .testing => [(some j.source, .shell c!"npm test")]
  | .cargo, .configuring => [(some j.source, .shell c!"cargo check")]
  | .cargo, .compiling => [(some j.source, .shell (cargoCompile j))]
  | .cargo, .testing => [(some j.source, .shell c!"cargo test")]
  | .cargo, .packaging => [(some j.source, .shell c!"cargo package --no-verify")]
  | .cargo, .installing => [(some j.source, .shell (cargoInstall j))]
  | .pypi, .configuring => [(none, .pip [c!"-m", c!"pip", c!"--version"])]
  | .pypi, .installing => [(some j.source, .pip (pypiArgs j))]
  | .python, .configuring => if has c!"rezbuild.py" then [(some j.source, .shell c!"python --version")] else []
  | .python, .compiling => pythonPrograms j has
      (c!"python \"" ++ pjoin j.source c!"rezbuild.py" ++ c!"\" build \"" ++ j.buildDir ++ c!"\" \"" ++ j.installDir ++ c!"\"")
      (c!"python setup.py build --build-base \"" ++ j.buildDir ++ c!"\"") (c!"pip wheel . -w \"" ++ j.buildDir ++ c!"\" --no-deps")
  | .python, .testing =>
    [(some j.source, .shell c!"python -m pytest -q --tb=short"), (some j.source, .shell c!"python -m unittest discover -q")]
  | .python, .installing => pythonPrograms j has
      (c!"python \"" ++ pjoin j.source c!"rezbuild.py" ++ c!"\" install \"" ++ j.buildDir ++ c!"\" \"" ++ j.installDir ++ c!"\"")
      (c!"python setup.py install --prefix \"" ++ j.installDir ++ c!"\"")
      (c!"pip install . --target \"" ++ j.installDir ++ c!"\" --no-deps")
  | .custom s, .compiling => if IsScript s then [(some j.source, scriptProgram j py s c!"build")] else []
  | .custom s, .installing =>
    if IsScript s then [(some j.source, scriptProgram j py s c!"install")]
    else if s = c!"build_command" then [(some j.source, .shell (expand j (j.command.getD [])))] else []
  | _, _ => []

/-- The steps of a system that succeed although a program fails. -/
def forgiving : List (System × BuildStep) :=
  [(.nodejs, .compiling), (.nodejs, .testing), (.python, .configuring), (.python, .testing), (.cargo, .packaging)]

/-- The steps that a system has a part in. -/
def systemSteps : List BuildStep := [.configuring, .compiling, .testing, .packaging, .installing]

/-- The step of a system. -/
def stepOf {W : Type} (b : Box W) (j : Job) (s : System) : BuildStep → Traced W → Traced W × StepOutcome
  | .configuring => configure b j s
  | .compiling => compile b j s
  | .testing => test b j s
  | .packaging => package b j s
  | .installing => install b j s
  | _ => fun t => (t, .error [])

/-- A machine on which the files that decide and the Python stay what they are. -/
structure Steady {W : Type} (b : Box W) (has : Str → Bool) (py : Str) : Prop where
  has : ∀ x ∈ [c!"rezbuild.py", c!"setup.py", c!"pyproject.toml"], ∀ w, b.has x w = has x
  python : ∀ w, b.hostPython w = .ok py

/-- The programs of a build, in turn, with these as the tests. -/
def planned (j : Job) (has : Str → Bool) (py : Str) (s : System) (tests : List (Option Str × Program)) :
    List (Option Str × Program) :=
  programs j has py s .configuring ++ programs j has py s .compiling ++ tests ++ programs j has py s .packaging ++
  programs j has py s .installing

/-- What was started from `old` to `new`, where and what. -/
def Started {W : Type} (old new : Traced W) (l : List Call) (ps : List (Option Str × Program)) : Prop :=
  new.calls = old.calls ++ l ∧ l.map (fun c => (c.cwd, c.what)) = ps

/-- A program that ended with code 0, or is one of a step that forgives. -/
def Fine (j : Job) (has : Str → Bool) (py : Str) (s : System) (c : Call) : Prop :=
  c.ok = true ∨ ∃ st, (s, st) ∈ forgiving ∧ (c.cwd, c.what) ∈ programs j has py s st

/-! ## Words of a command -/

/-- Characters that mean something to a shell; those that do within double quotes come first. -/
def special (quoted : Bool) (c : Char) : Bool :=
  c!"$`\\\n".contains c || (!quoted && c!"'\t;&|<>()*?[]#~!{}".contains c)

/-- The words of a shell command that has blanks, double quotes and plain characters; nothing for other commands, whose
meaning is not simply their text. -/
def lex : Bool → Option Str → Str → Option (List Str)
  | false, cur, [] => some cur.toList
  | true, _, [] => none
  | q, cur, c :: s =>
    if c = '"' then lex (!q) (some (cur.getD [])) s
    else if c = ' ' ∧ q = false then (lex false none s).map (cur.toList ++ ·)
    else if special q c then none
    else lex q (some (cur.getD [] ++ [c])) s

/-- The words of a shell command. -/
def shellWords (cmd : Str) : Option (List Str) := lex false none cmd

/-- A text that is a word as it is. -/
def Bare (s : Str) : Prop := s ≠ [] ∧ ∀ c ∈ s, c ≠ ' ' ∧ c ≠ '"' ∧ special false c = false
instance (s : Str) : Decidable (Bare s) := by unfold Bare; infer_instance

/-- A text that is a word within double quotes. -/
def Quotable (s : Str) : Prop := ∀ c ∈ s, c ≠ '"' ∧ special true c = false
instance (s : Str) : Decidable (Quotable s) := by unfold Quotable; infer_instance

/-! ## Placeholders -/

/-- A part of a build command: text, or a placeholder. -/
inductive Piece where
  | text (s : Str)
  | hole (name : Str)

/-- As it is written. -/
def Piece.written : Piece → Str
  | .text s => s
  | .hole n => '{' :: n ++ c!"}"

/-- Text without an opening brace; a name without braces. -/
def Piece.Ok : Piece → Prop
  | .text s => '{' ∉ s
  | .hole n => '{' ∉ n ∧ '}' ∉ n

/-- What the placeholders stand for. -/
def meaning (j : Job) (n : Str) : Option Str :=
  if n = c!"root" then some j.source
  else if n = c!"install" then some c!"install"
  else if n = c!"build_path" then some j.buildDir
  else if n = c!"install_path" then some j.installDir
  else if n = c!"name" then some j.name
  else if n = c!"version" then some (j.version.getD [])
  else if n = c!"variant_index" then some []
  else none

/-- A part with its placeholder filled in; one that is not known stays. -/
def Piece.filled (j : Job) : Piece → Str
  | .text s => s
  | .hole n => (meaning j n).getD ('{' :: n ++ c!"}")

end Rez.Build.Spec
