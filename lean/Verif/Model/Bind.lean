import Verif.Model.Bundle
import Verif.Model.Serialization
import Verif.Base.Words
import Verif.Model.RexShell
import Verif.Model.Search
/-!
# Binding of system tools: crates/rez-next-bind/src and src/cli/commands/bind

Programs that are started are a parameter: what they print.  Characters of words are ASCII letters, digits and `_` (the
regular expression also takes other letters and digits); `char::is_alphanumeric` is restricted to ASCII; lower case is ASCII.
-/
namespace Rez.Bind
open Rez Rez.Files

/-! ## detect.rs -/

/-- What a program that was started gives back. -/
structure Answer where
  success : Bool := true
  out : Str := []
  err : Str := []

/-- The machine: the files, `which`, the programs with their arguments, `/etc/os-release`, and this program itself. -/
structure World where
  fs : FS
  which : Str → Option Str
  run : Str → List Str → Option Answer
  release : Option Str := none
  self : Option Str := none
  own : Str := c!"0.0.0"

/-- rez-next-bind/src/detect.rs:34: the flags. -/
def flags : List Str := [c!"--version", c!"-version", c!"-V", c!"version"]

/-- rez-next-bind/src/detect.rs:33-51 `detect_tool_version`. -/
def rawVersion (w : World) (exe : Str) : Str :=
  ((flags.filterMap fun f => (w.run exe [f]).map fun a => trim (a.out ++ a.err)).find? fun t => !t.isEmpty).getD []

/-- Runs of digits, each after a point, and what is left.  The number bounds the runs. -/
def groups : Nat → Str → List Str × Str
  | 0, s => ([], s)
  | n + 1, s =>
    match s with
    | '.' :: t =>
      if (t.takeWhile isDigit).isEmpty then ([], s)
      else
        let r := groups n (t.dropWhile isDigit)
        (t.takeWhile isDigit :: r.1, r.2)
    | _ => ([], s)

/-- rez-next-bind/src/detect.rs:59: `\d+\.\d+(?:\.\d+)*\b` here, where a word begins.  A run of digits that is cut short has
no end of a word after it, so whole runs are taken, as many as there are; if the last is followed by a letter or `_` it is
left out. -/
def matchAt (s : Str) : Option Str :=
  let d := s.takeWhile isDigit
  let g := groups s.length (s.dropWhile isDigit)
  let l := if g.2.head?.any isTok then g.1.dropLast else g.1
  if d.isEmpty || l.isEmpty then none else some (joinWith c!"." (d :: l))

/-- The first match; `word` is whether the character before is part of a word. -/
def semver : Bool → Str → Option Str
  | _, [] => none
  | word, c :: s =>
    match (if !word && isDigit c then matchAt (c :: s) else none) with
    | some v => some v
    | none => semver (isTok c) s

/-- rez-next-bind/src/detect.rs:67-69: what is cut off. -/
def odd (c : Char) : Bool := !(isAlpha c || isDigit c) && c != '.'

/-- `trim_matches`. -/
def strip (p : Char → Bool) (s : Str) : Str := ((s.dropWhile p).reverse.dropWhile p).reverse

/-- rez-next-bind/src/detect.rs:57-75 `extract_version_from_output`. -/
def extract (s : Str) : Option Str :=
  (semver false s).or (((Rez.splitWs s).find? fun t => t.any isDigit).map (strip odd))

/-! ## binder.rs -/

/-- binder.rs:29-44 `struct BindOptions`. -/
structure Options where
  version : Option Str := none
  path : Option Path := none
  force : Bool := false
  extra : List (Str × Str) := []
  search : Bool := true

/-- binder.rs:10-25 `enum BindError`. -/
inductive Err where
  | missing | version | exists_ | io
deriving DecidableEq

/-- binder.rs:60-71 `struct BindResult`. -/
structure Bound where
  name : Str
  version : Str
  path : Path
  exe : Option Str
deriving DecidableEq

/-- A text in single quotes. -/
def single (s : Str) : Str := c!"'" ++ s ++ c!"'"

/-- `Path::parent` of the path of a program, as a text with `/`. -/
def parent (exe : Str) : Str := RexShell.replaceChar '\\' c!"/" (((rsplitOnce '/' exe).map fun p => if p.1.isEmpty then c!"/" else p.1).getD [])

/-- binder.rs:148-203 `generate_package_py`. -/
def packagePy (name version : Str) (exe : Option Str) (extra : List (Str × Str)) : Str :=
  let dir := (exe.map parent).getD []
  c!"# Auto-generated by rez-next bind\n" ++
  (match exe with
    | some p => c!"# Bound executable: " ++ p
    | none => c!"# Executable path not detected") ++ c!"\n" ++
  c!"name = " ++ single name ++ c!"\n" ++
  c!"version = " ++ single version ++ c!"\n" ++
  c!"description = " ++ single (c!"System-installed " ++ name ++ c!" bound by rez-next bind") ++ c!"\n" ++
  c!"tools = [" ++ single name ++ c!"]\n" ++
  extra.flatMap (fun e => e.1 ++ c!" = " ++ single e.2 ++ c!"\n") ++
  (if dir.isEmpty then [] else c!"\ndef commands():\n    env.prepend_path('PATH', r" ++ single dir ++ c!")\n") ++ c!"\n"

/-- binder.rs:94-117: the program and the version. -/
def version (w : World) (tool : Str) (o : Options) : Option Str :=
  match o.version with
  | some v => some v
  | none => extract (rawVersion w ((if o.search then w.which tool else none).getD tool))

/-- binder.rs:94-145 `bind`; `home` is the directory of the settings. -/
def bind (w : World) (home : Path) (tool : Str) (o : Options) : List Step × Except Err Bound :=
  let exe := if o.search then w.which tool else none
  match version w tool o with
  | none => ([], .error .version)
  | some v =>
    let dir := join (join (o.path.getD home) tool) v
    if (mget w.fs dir).isSome && !o.force then ([], .error .exists_)
    else
      let r := Bundle.next w.fs (Bundle.makeAll w.fs dir) fun fs =>
        Bundle.writeFile fs (dir ++ [c!"package.py"]) (packagePy tool v exe o.extra)
      (r.1, if r.2 = .done then .ok ⟨tool, v, dir, exe⟩ else .error .io)

/-- builtin_binders.rs:27-53: the programs in turn. -/
def bindFirst (w : World) (home : Path) (o : Options) : List Str → List Step × Except Err Bound
  | [] => ([], .error .missing)
  | e :: l =>
    let r := bind w home e (if o.version.isNone then { o with search := true } else o)
    match r.2 with
    | .error .version => bindFirst w home o l
    | .error .missing => bindFirst w home o l
    | _ => r

/-- builtin_binders.rs:57-130: names and programs. -/
def builtins : List (Str × List Str) :=
  [(c!"python", [c!"python3", c!"python"]), (c!"cmake", [c!"cmake"]), (c!"git", [c!"git"]), (c!"pip", [c!"pip3", c!"pip"]),
   (c!"gcc", [c!"gcc"]), (c!"clang", [c!"clang"]), (c!"node", [c!"node", c!"nodejs"]), (c!"rust", [c!"rustc"]), (c!"go", [c!"go"]),
   (c!"java", [c!"java"]), (c!"ffmpeg", [c!"ffmpeg"]), (c!"imagemagick", [c!"convert", c!"magick"])]

/-- builtin_binders.rs:27-53, 133-135: `get_builtin_binder` and its `bind`. -/
def bindBuiltin (w : World) (home : Path) (name : Str) (o : Options) : Option (List Step × Except Err Bound) :=
  (mget builtins name).map (bindFirst w home o)

/-- The names of what is in a directory. -/
def names (fs : FS) (p : Path) : List Str := (below fs p).filterMap fun e => if e.1.length = 1 then e.1.head? else none

/-- binder.rs:232-244: the versions of a family, sorted as texts. -/
def versionsOf (fs : FS) (root : Path) (f : Str) : List Str :=
  Search.sortStr ((names fs (root ++ [f])).filter fun v =>
    mget fs (root ++ [f, v]) == some .dir && (mget fs (root ++ [f, v, c!"package.py"])).isSome)

/-- binder.rs:222-260 `list_bound_packages_in`; no two families have the same name. -/
def listBound (fs : FS) (root : Path) : List (Str × List Str) :=
  (((names fs root).filter fun f => mget fs (root ++ [f]) == some .dir && !(versionsOf fs root f).isEmpty).map
    fun f => (f, versionsOf fs root f)).insertionSort fun a b => cmpStr a.1 b.1 ≠ .gt

/-! ## src/cli/commands/bind -/

/-- utils.rs:124-147: characters of a version. -/
def verChar (c : Char) : Bool := isDigit c || c == '.' || c == '-' || c == '_'

/-- utils.rs:117-147 `parse_version_from_string`. -/
def parseVersion (s : Str) : Option Str :=
  let t := (trim s).dropWhile fun c => !isDigit c
  if t.isEmpty then none
  else
    let v := ((t.takeWhile verChar).reverse.dropWhile fun c => c == '.' || c == '-' || c == '_').reverse
    if v.isEmpty then none else some v

/-- `str::find` and the text after it. -/
def after (pat : Str) : Str → Option Str
  | [] => if pat.isEmpty then some [] else none
  | c :: s => if pat.isPrefixOf ((c :: s).map lowerChar) then some ((c :: s).drop pat.length) else after pat s

/-- utils.rs:97-112 `extract_version_from_output`; upper and lower case are the same. -/
def extractAfter (s pat : Str) : Option Str :=
  (Serial.linesOf s).findSome? fun l => (after (pat.map lowerChar) l).bind parseVersion

/-- detect.rs:13-21 `struct DetectedTool`, without what is not used. -/
structure Tool where
  version : Str
  exe : Option Str
deriving DecidableEq

/-- detect.rs:40-62: a program is asked for its version. -/
def askTool (w : World) (pat : Str) (withErr : Bool) (cmd : Str) : Option Tool :=
  match w.run cmd [c!"--version"] with
  | none => none
  | some a =>
    if a.success then (extractAfter (a.out ++ if withErr then a.err else []) pat).map fun v => ⟨v, w.which cmd⟩ else none

/-- detect.rs:118-134 `detect_gcc`. -/
def detectGcc (w : World) : Option Tool :=
  match w.run c!"gcc" [c!"--version"] with
  | none => none
  | some a => if a.success then (parseVersion ((Serial.linesOf a.out).head?.getD [])).map fun v => ⟨v, w.which c!"gcc"⟩ else none

/-- detect.rs:153-170 `detect_setuptools`. -/
def detectSetuptools (w : World) : Option Tool :=
  match w.run c!"python3" [c!"-c", c!"import setuptools; print(setuptools.__version__)"] with
  | none => none
  | some a => if a.success && !(trim a.out).isEmpty then some ⟨trim a.out, w.which c!"python3"⟩ else none

/-- `trim_start_matches`. -/
def dropPrefix (p : Str) : Nat → Str → Str
  | 0, s => s
  | n + 1, s => if p.isPrefixOf s then dropPrefix p n (s.drop p.length) else s

/-- detect.rs:216-241 `get_os_version`, on Linux. -/
def osVersion (w : World) : Str :=
  (((w.release.map Serial.linesOf).getD []).find? fun l => c!"VERSION_ID=".isPrefixOf l).elim c!"unknown" fun l =>
    strip (· == '"') (dropPrefix c!"VERSION_ID=" l.length l)

/-- detect.rs:24-37 `detect_system_tool`, on Linux. -/
def detect (w : World) (name : Str) : Option Tool :=
  if name = c!"python" then [c!"python3", c!"python"].findSome? (askTool w c!"Python" true)
  else if name = c!"pip" then [c!"pip3", c!"pip"].findSome? (askTool w c!"pip" false)
  else if name = c!"cmake" then askTool w c!"cmake version" false c!"cmake"
  else if name = c!"git" then askTool w c!"git version" false c!"git"
  else if name = c!"gcc" then detectGcc w
  else if name = c!"clang" then askTool w c!"clang version" false c!"clang"
  else if name = c!"setuptools" then detectSetuptools w
  else if name = c!"platform" then some ⟨c!"1.0.0", none⟩
  else if name = c!"arch" then some ⟨c!"1.0.0", none⟩
  else if name = c!"os" then some ⟨osVersion w, none⟩
  else if name = c!"rez" then some ⟨w.own, w.self⟩
  else none

/-- package_gen.rs:86-103 `get_package_description`. -/
def description (name : Str) : Str :=
  (mget [(c!"platform", c!"System platform package"), (c!"arch", c!"System architecture package"),
    (c!"os", c!"Operating system package"), (c!"python", c!"Python interpreter"), (c!"rez", c!"Rez package manager (rez-next)"),
    (c!"pip", c!"Python package installer"), (c!"setuptools", c!"Python build and packaging utilities"),
    (c!"cmake", c!"CMake build system"), (c!"git", c!"Git version control system"), (c!"gcc", c!"GNU Compiler Collection"),
    (c!"clang", c!"Clang/LLVM compiler")] name).getD (c!"System package: " ++ name)

/-- package_gen.rs:106-114 `get_default_requirements`. -/
def requirements (name : Str) : List Str :=
  (mget [(c!"os", [c!"platform", c!"arch"]), (c!"python", [c!"os"]), (c!"pip", [c!"python"]), (c!"setuptools", [c!"python"])] name).getD []

/-- package_gen.rs:117-128 `get_default_tools`. -/
def tools (name : Str) : List Str :=
  (mget [(c!"python", [c!"python", c!"python3"]), (c!"pip", [c!"pip", c!"pip3"]), (c!"cmake", [c!"cmake", c!"ctest", c!"cpack"]),
    (c!"git", [c!"git"]), (c!"gcc", [c!"gcc", c!"g++", c!"cpp"]), (c!"clang", [c!"clang", c!"clang++"])] name).getD []

/-- package_gen.rs:48-83 `get_package_commands`. -/
def commands (name : Str) (exe : Option Str) : Option Str :=
  let dir := (exe.map parent).getD []
  let there := c!"    import os\n    env.PATH.prepend(" ++ single dir ++ c!")\n"
  if name = c!"python" then some (if dir.isEmpty then c!"    env.PATH.prepend('{root}/bin')\n" else there)
  else if name ∈ [c!"pip", c!"cmake", c!"git", c!"gcc", c!"clang"] then if dir.isEmpty then none else some there
  else none

/-- package_gen.rs:20-34: a list with one text on each line. -/
def block (field : Str) (l : List Str) : Str :=
  if l.isEmpty then [] else field ++ c!" = [\n" ++ l.flatMap (fun s => c!"    " ++ single s ++ c!",\n") ++ c!"]\n\n"

/-- package_gen.rs:8-43 `generate_package_py`. -/
def generate (name version description : Str) (requires tools : List Str) (commands : Option Str) : Str :=
  c!"name = " ++ single name ++ c!"\n" ++ c!"version = " ++ single version ++ c!"\n\n" ++
  c!"description = " ++ single description ++ c!"\n\n" ++ block c!"requires" requires ++ block c!"tools" tools ++
  commands.elim [] fun b => c!"def commands():\n" ++ b ++ c!"\n"

/-- mod.rs:280-292 `parse_package_spec`. -/
def parseSpec (s : Str) : Str × Option Str :=
  match rsplitOnce '-' s with
  | none => (s, none)
  | some (a, b) => if b.head?.any isDigit then (a, some b) else (s, none)

/-- mod.rs:304-395 `bind_single_package`. -/
def bindSingle (w : World) (fs : FS) (root : Path) (noDeps : Bool) (name : Str) : List Step × Bundle.End :=
  let d := detect w name
  let v := (d.map Tool.version).getD c!"1.0.0"
  let exe := d.bind Tool.exe
  if (Version.parse v).isNone then ([], .failed)
  else
    let dir := join (join root name) v
    Bundle.next fs (Bundle.makeAll fs dir) fun fs => Bundle.writeFile fs (dir ++ [c!"package.py"])
      (generate name v (description name) (if noDeps then [] else requirements name) (tools name) (commands name exe))

/-- mod.rs:30-66 `BindArgs` and the directories of the settings. -/
structure Args where
  package : Option Str := none
  quickstart : Bool := false
  release : Bool := false
  path : Option Path := none
  noDeps : Bool := false
  list : Bool := false
  search : Bool := false

/-- mod.rs:294-302 `get_install_path`. -/
def installPath (locals releases : Path) (a : Args) : Path := if a.release then releases else a.path.getD locals

/-- mod.rs:147-155: the packages to start with. -/
def quick : List Str := [c!"platform", c!"arch", c!"os", c!"python", c!"rez", c!"setuptools", c!"pip"]

/-- mod.rs:162-187: each in turn; errors are only shown. -/
def quickEach (w : World) (root : Path) : FS → List Str → List Step
  | _, [] => []
  | fs, n :: l => (bindSingle w fs root true n).1 ++ quickEach w root (Files.run fs (bindSingle w fs root true n).1) l

/-- mod.rs:80-112 `execute`, 141-204 `execute_quickstart`, 240-278 `bind_package`. -/
def execute (w : World) (locals releases : Path) (a : Args) : List Step × Bundle.End :=
  let root := installPath locals releases a
  if a.list then ([], .done)
  else if a.quickstart then
    Bundle.next w.fs (Bundle.makeAll w.fs root) fun fs => (quickEach w root fs quick, .done)
  else if a.search then ([], if a.package.isSome then .done else .failed)
  else
    match a.package with
    | none => ([], .failed)
    | some s => Bundle.next w.fs (Bundle.makeAll w.fs root) fun fs => bindSingle w fs root a.noDeps (parseSpec s).1

end Rez.Bind
