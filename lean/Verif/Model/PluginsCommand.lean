import Verif.Model.PyRelease
/-!
# The `plugins` command: `src/cli/commands/plugins.rs`

Parameters: the directories (what a path holds), the sorting of the repositories, the description of a package and the order in
which the map of the types is walked.  Left out: how arguments are parsed; that two spellings of a path are one; texts of errors.
-/
namespace Rez.PluginsCommand
open Rez Rez.Repository Rez.PackageOrder

/-- plugins.rs:13-26 `PluginsArgs`. -/
structure Args where
  package : Option Str
  paths : List Str
  verbose : Bool

/-- The settings that are read, plugins.rs:106-111. -/
structure Settings where
  packagesPath : List Str
  localPackagesPath : Str

/-- plugins.rs:29-37 `PluginInfo`, without the name of the package, which is only copied, and the module, which is never there. -/
structure Plugin where
  name : Str
  version : Option Str
  type : Str
  description : Option Str
deriving DecidableEq

/-- What a run writes: to the output and to the error output. -/
structure Written where
  out : List Str
  err : List Str
deriving DecidableEq

/-- plugins.rs:102-116: the directories that are searched. -/
def searched (c : Settings) (a : Args) : List Str :=
  if a.paths.isEmpty then
    if c.packagesPath.contains c.localPackagesPath then c.packagesPath else c.packagesPath ++ [c.localPackagesPath]
  else a.paths

/-- plugins.rs:128-144 `find_package`. -/
def findPackage (srt : Sorting) (roots : List Root) (name : Str) : Outcome Package :=
  match (managerFind srt (PyRelease.newRepos roots) name).2 with
  | .ok [] => .err
  | .ok (p :: _) => .ok p
  | .err => .err
  | .panic => .panic

/-- plugins.rs:181-196 `discover_command_plugins`. -/
def commandPlugins (p : Package) : List Plugin :=
  p.tools.map fun t => ⟨t, p.version.map Version.asStr, c!"command", some (c!"Command-line tool provided by " ++ p.name)⟩

/-- plugins.rs:204-215: the build systems that are looked for. -/
def indicators : List (Str × Str) :=
  [(c!"cmake", c!"CMake build system"), (c!"make", c!"Make build system"), (c!"python", c!"Python build system"),
   (c!"pypi", c!"PyPI package installer"), (c!"pip", c!"Python pip installer"), (c!"setuptools", c!"Python setuptools"),
   (c!"poetry", c!"Python Poetry"), (c!"cargo", c!"Rust Cargo"), (c!"npm", c!"Node.js npm"), (c!"yarn", c!"Node.js Yarn")]

/-- plugins.rs:200-233 `discover_build_plugins`. -/
def buildPlugins (p : Package) : List Plugin :=
  indicators.filterMap fun (i, d) =>
    if p.tools.any (fun t => containsStr t i) || p.requires.any (fun r => containsStr r i) then
      some ⟨i ++ c!"_build", p.version.map Version.asStr, c!"build_system", some d⟩
    else none

/-- plugins.rs:240. -/
def shellTools : List Str := [c!"bash", c!"zsh", c!"fish", c!"powershell", c!"cmd"]

/-- plugins.rs:236-256 `discover_shell_plugins`. -/
def shellPlugins (p : Package) : List Plugin :=
  p.tools.filterMap fun t =>
    if shellTools.any fun s => containsStr t s then
      some ⟨t ++ c!"_shell", p.version.map Version.asStr, c!"shell", some (c!"Shell integration for " ++ t)⟩
    else none

/-- plugins.rs:259-276 `discover_extension_plugins`. -/
def extensionPlugins (desc : Package → Option Str) (p : Package) : List Plugin :=
  if containsStr p.name c!"plugin" || containsStr p.name c!"extension" then
    [⟨p.name, p.version.map Version.asStr, c!"extension", desc p⟩]
  else []

/-- plugins.rs:147-178 `discover_plugins`. -/
def discover (desc : Package → Option Str) (p : Package) : List Plugin :=
  commandPlugins p ++ buildPlugins p ++ shellPlugins p ++ extensionPlugins desc p

/-- plugins.rs:292-298: the plugins by type. -/
def byType (ps : List Plugin) : List (Str × List Plugin) :=
  ps.foldl (fun m x => mset m x.type ((mget m x.type).getD [] ++ [x])) []

/-- plugins.rs:303: `_` becomes a blank; `to_uppercase` for ASCII letters. -/
def heading (t : Str) : Str :=
  t.map fun c => if c = '_' then ' ' else if 97 ≤ c.toNat ∧ c.toNat ≤ 122 then Char.ofNat (c.toNat - 32) else c

/-- plugins.rs:307-316: the lines for one plugin. -/
def entry (x : Plugin) : List Str :=
  [c!"  • " ++ x.name] ++
    (match x.description with | some d => [c!"    Description: " ++ d] | none => []) ++
    (match x.version with | some v => [c!"    Version: " ++ v] | none => []) ++ [[]]

/-- plugins.rs:300-317: the lines for one type. -/
def group (g : Str × List Plugin) : List Str :=
  [c!"🔧 " ++ heading g.1 ++ c!" Plugins:", List.replicate 40 '-'] ++ g.2.flatMap entry

/-- plugins.rs:280-327 `display_plugins_result`; `walk` is the order in which the map is walked. -/
def display (walk : List (Str × List Plugin) → List (Str × List Plugin)) (name : Str) (ps : List Plugin) (verbose : Bool) : Written :=
  if ps.isEmpty then ⟨[], [c!"package '" ++ name ++ c!"' has no plugins."]⟩
  else if verbose then
    ⟨[c!"📋 Plugins found for package '" ++ name ++ c!"':", List.replicate 60 '=', []] ++ (walk (byType ps)).flatMap group ++
      [c!"✅ Total: " ++ decimal ps.length ++ c!" plugins found"], []⟩
  else ⟨ps.map (·.name), []⟩

/-- plugins.rs:84-90, 152-156, 163-165: what is told on the way. -/
def progress (p : Package) (found : Nat) : List Str :=
  [c!"Found package: " ++ p.name] ++ (match p.version with | some v => [c!"Version: " ++ v.asStr] | none => []) ++
    [[], c!"🔍 Searching for plugins in package '" ++ p.name ++ c!"'...", c!"Found " ++ decimal found ++ c!" plugins"]

/-- plugins.rs:48-97 `execute`, `execute_plugins_async`.  `dirs` is what a path holds.  What is written before an error is left out. -/
def run (srt : Sorting) (dirs : Str → Root) (desc : Package → Option Str)
    (walk : List (Str × List Plugin) → List (Str × List Plugin)) (c : Settings) (a : Args) : Outcome Written :=
  match a.package with
  | none =>
    .ok ⟨(if a.verbose then [c!"🔌 Rez Plugins - Listing all available plugins..."] else []) ++
      [c!"Available plugin types: build_process, build_system, release_hook, release_vcs, shell",
       c!"Built-in build_system plugins: binary_archive, pypi",
       c!"Use 'rez plugins <package>' to list plugins for a specific package."], []⟩
  | some name =>
    match findPackage srt ((searched c a).map dirs) name with
    | .ok p =>
      let ps := discover desc p
      let shown := display walk p.name ps a.verbose
      .ok ⟨(if a.verbose then
          [c!"🔌 Rez Plugins - Discovering package plugins...", c!"Package: " ++ name] ++ progress p ps.length
        else []) ++ shown.out, shown.err⟩
    | .err => .err
    | .panic => .panic

end Rez.PluginsCommand
