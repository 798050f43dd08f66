import Verif.Model.BuildCopy
import Verif.Model.BuildEnv
import Verif.Model.RexShell
import Verif.Model.Environment
/-!
# `src/cli/commands/bundle.rs`: a directory with the packages of a context

The file system changes by steps, as in `Model/PackageFiles.lean`; copying is that of `Model/BuildCopy.lean` (the loop of
bundle.rs:364-377 is that of custom.rs:510-546).  Parameters: whether a request parses, what it resolves to, the time and
the texts of the two JSON files.  What is printed is left out.
-/
namespace Rez.Bundle
open Rez Rez.Files Rez.Build

/-- bundle.rs:22-47 `BundleArgs` without `paths` (a parameter of the world) and the level of detail. -/
structure Args where
  packages : List Str
  output : Option Str
  name : Option Str
  skipCopy : Bool
deriving DecidableEq

/-- What is used of a resolved package. -/
structure Pkg where
  name : Str
  version : Option Str
deriving DecidableEq

/-- bundle.rs:64-72 `BundlePackageInfo`; the original place is a path and no text here. -/
structure Info where
  name : Str
  version : Str
  bundlePath : Str
  source : Option Path
deriving DecidableEq

/-- bundle.rs:49-62 `BundleMetadata`; its `version` is always 1. -/
structure Meta where
  requests : List Str
  packages : List Info
  created : Str
  name : Str
deriving DecidableEq

/-- The machine. -/
structure World where
  cwd : Path
  fs : FS
  /-- bundle.rs:330-350 `get_search_paths`. -/
  paths : List Path
  parses : Str → Bool
  /-- bundle.rs:282-327 `resolve_context`. -/
  resolve : List Str → Option (List Pkg)
  now : Str
  json : Meta → Str
  rxt : List Str → List Pkg → Str
  order : Listing
  depth : Nat

/-- What came of the command.  `unfinished` is a copy that is not over at the depth of the machine. -/
inductive End where
  | failed | unfinished | done
deriving DecidableEq

/-- bundle.rs:79-94 `looks_like_path`. -/
def looksLikePath (s : Str) : Bool :=
  (decide (byteLen s ≥ 3) && s[1]? == some ':') || s.head? == some '/' || s.head? == some '\\' ||
  s.contains '/' || s.contains '\\'

/-- bundle.rs:97-122: the requests and the output directory that is given; `none` is an error. -/
def request (a : Args) : Option (List Str × Option Str) :=
  match a.output, a.packages.getLast? with
  | _, none => none
  | some o, some _ => some (a.packages, some o)
  | none, some x =>
    if looksLikePath x then
      if a.packages.dropLast.isEmpty then none else some (a.packages.dropLast, some x)
    else some (a.packages, none)

/-- bundle.rs:125-131: the name. -/
def bundleName (name : Option Str) (requests : List Str) : Str :=
  name.getD (joinWith c!"_" (requests.map fun s => s.map fun c => if c = '-' ∨ c = '.' then '_' else c))

/-- bundle.rs:135-139: the directory, as it is written. -/
def outText (out : Option Str) (name : Str) : Str := out.getD (pjoin c!"." name)

/-- bundle.rs:196-200, 391-395. -/
def verText (p : Pkg) : Str := p.version.getD c!"unknown"

/-- bundle.rs:353-361 `find_package_dir`. -/
def findDir (fs : FS) (paths : List Path) (name version : Str) : Option Path :=
  (paths.map fun b => join (join b name) version).find? fun p => (mget fs p).isSome

/-- One part after the other, until one fails. -/
def next (fs : FS) (a : List Step × End) (k : FS → List Step × End) : List Step × End :=
  match a.2 with
  | .done => (a.1 ++ (k (run fs a.1)).1, (k (run fs a.1)).2)
  | e => (a.1, e)

/-- `create_dir_all`. -/
def makeAll (fs : FS) (p : Path) : List Step × End := if blocked fs p then ([], .failed) else (mkdirAll p, .done)

/-- `fs::write`. -/
def writeFile (fs : FS) (p : Path) (c : Str) : List Step × End :=
  if mget fs p = some .dir then ([], .failed) else ([.create p, .write p (.file c)], .done)

/-- The directory of a package in the bundle. -/
def home (dir : Path) (p : Pkg) : Path := join (join (dir ++ [c!"packages"]) p.name) (verText p)

/-- bundle.rs:204-229: a package is copied; an error is only shown. -/
def copyPkg (w : World) (skip : Bool) (dir : Path) (fs : FS) (p : Pkg) : List Step × End :=
  if skip then ([], .done)
  else
    match findDir fs w.paths p.name (verText p) with
    | none => ([], .done)
    | some src =>
      match copyDir w.order (fun _ => false) w.depth fs src (home dir p) with
      | (s, .unfinished) => (s, .unfinished)
      | (s, _) => (s, .done)

/-- bundle.rs:195-237: the loop. -/
def copyAll (w : World) (skip : Bool) (dir : Path) : FS → List Pkg → List Step × End
  | _, [] => ([], .done)
  | fs, p :: rest => next fs (copyPkg w skip dir fs p) fun fs => copyAll w skip dir fs rest

/-- bundle.rs:230-236: what is noted of the packages. -/
def infos (w : World) (skip : Bool) (dir : Path) : FS → List Pkg → List Info
  | _, [] => []
  | fs, p :: rest =>
    ⟨p.name, verText p, p.name ++ c!"/" ++ verText p, findDir fs w.paths p.name (verText p)⟩ ::
      infos w skip dir (run fs (copyPkg w skip dir fs p).1) rest

/-- bundle.rs:254-269: `bundle.yaml`. -/
def yamlLines (m : Meta) : List Str :=
  [c!"name: " ++ m.name, c!"version: 1", c!"created_at: " ++ m.created, c!"requests:"] ++
  m.requests.map (fun r => c!"  - " ++ r) ++ [c!"packages:"] ++
  m.packages.flatMap fun p => [c!"  - name: " ++ p.name, c!"    version: " ++ p.version]

/-- bundle.rs:269. -/
def yaml (m : Meta) : Str := joinWith c!"\n" (yamlLines m) ++ c!"\n"

/-- bundle.rs:397-398: the root of a package in the bundle, as it is written. -/
def rootText (out : Str) (p : Pkg) : Str := pjoin (pjoin (pjoin out c!"packages") p.name) (verText p)

/-- bundle.rs:399-419: the variables of one package. -/
def addVars (fs : FS) (dir : Path) (out : Str) (vars : List (Str × Str)) (p : Pkg) : List (Str × Str) :=
  let vars := mset vars (Rez.Environment.upper p.name ++ c!"_ROOT") (rootText out p)
  if (mget fs (home dir p ++ [c!"bin"])).isSome then
    let old := (mget vars c!"PATH").getD []
    mset vars c!"PATH" (if old.isEmpty then pjoin (rootText out p) c!"bin" else pjoin (rootText out p) c!"bin" ++ c!":" ++ old)
  else vars

/-- bundle.rs:380-420: the environment of the scripts. -/
def scriptEnv (fs : FS) (dir : Path) (out : Str) (l : List Pkg) : Rex.Env :=
  { Rex.Env.new with vars := l.foldl (addVars fs dir out) [] }

/-- bundle.rs:422-436: the three scripts. -/
def scripts (fs : FS) (dir : Path) (out : Str) (l : List Pkg) : List Step × End :=
  let e := scriptEnv fs dir out l
  next fs (writeFile fs (dir ++ [c!"activate.sh"]) (RexShell.script e .bash)) fun fs =>
  next fs (writeFile fs (dir ++ [c!"activate.ps1"]) (RexShell.script e .powershell)) fun fs =>
  writeFile fs (dir ++ [c!"activate.bat"]) (RexShell.script e .cmd)

/-- bundle.rs:178-278: what is made, in turn. -/
def make (w : World) (skip : Bool) (requests : List Str) (name out : Str) (l : List Pkg) : List Step × End :=
  let dir := join w.cwd out
  next w.fs (makeAll w.fs dir) fun fs =>
  next fs (makeAll fs (dir ++ [c!"packages"])) fun fs =>
  let m : Meta := ⟨requests, infos w skip dir fs l, w.now, name⟩
  next fs (copyAll w skip dir fs l) fun fs =>
  next fs (writeFile fs (dir ++ [c!"bundle.json"]) (w.json m)) fun fs =>
  next fs (writeFile fs (dir ++ [c!"bundle.yaml"]) (yaml m)) fun fs =>
  next fs (writeFile fs (dir ++ [c!"context.rxt"]) (w.rxt requests l)) fun fs =>
  scripts fs dir out l

/-- bundle.rs:97-279 `execute`.  Requests that cannot be resolved give a bundle without packages. -/
def bundle (w : World) (a : Args) : List Step × End :=
  match request a with
  | none => ([], .failed)
  | some (requests, out) =>
    let name := bundleName a.name requests
    if requests.all w.parses then
      make w a.skipCopy requests name (outText out name) ((w.resolve requests).getD [])
    else ([], .failed)

end Rez.Bundle
