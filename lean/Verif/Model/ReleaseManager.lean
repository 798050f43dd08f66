import Verif.Model.PackageFiles
/-!
# The release manager: `rez-next-build/src/release.rs`

What the manager asks of the machine is a list of acts, each with its answer; the machine is any function of what happened so
far.  Simplifications: loading the package is a parameter; whether `package.py`, `package.yaml` and a repository are there
does not change meanwhile; warnings are left out; the texts of the errors are left out; text of JSON is made by parameters.
-/
namespace Rez.ReleaseManager
open Rez Rez.Files

/-- What the manager asks of the machine. -/
inductive Act where
  | validate
  | metadata
  | mkdirs (p : Path)
  | copy (source dest : Path)
  | write (p : Path) (text : Str)
  | listTests
  | test (command : Str) (dir : Path)
  | tagged (t : Str)
  | tag (t m : Str)
  | changelog
deriving DecidableEq

/-- What comes back: whether it worked, yes or no, a text, and texts. -/
structure Answer where
  ok : Bool
  yes : Bool := false
  text : Str := []
  texts : List Str := []
deriving DecidableEq

/-- A machine: how each act changes it, and its answer. -/
abbrev Machine (W : Type) := Act → W → W × Answer

/-- The acts so far. -/
abbrev Log := List (Act × Answer)

/-- The machine now, and the acts so far. -/
structure St (W : Type) where
  w : W
  log : Log

/-- One act. -/
def ask {W : Type} (m : Machine W) (a : Act) (s : St W) : St W × Answer :=
  (⟨(m a s.w).1, s.log ++ [(a, (m a s.w).2)]⟩, (m a s.w).2)

/-- release.rs:15-23 `ReleaseMode`. -/
inductive Mode where
  | release
  | local
  | dryRun
deriving DecidableEq

/-- release.rs:27-33 `from_str`. -/
def Mode.ofText (s : Str) : Mode :=
  if s = c!"local" then .local else if s = c!"dry-run" || s = c!"dry_run" then .dryRun else .release

/-- The package as far as the manager looks at it. -/
structure Pkg where
  name : Str
  version : Option Str
  variants : List (List Str)
deriving DecidableEq

/-- release.rs:36-47 `ReleaseResult`, and the flags of the errors. -/
inductive Problem where
  | missing
  | unreadable
  | name
  | version
  | vcs
  | variantDir (v : List Str)
  | test (i : Nat)
  | tag
deriving DecidableEq

/-- release.rs:36-47 `ReleaseResult` without its warnings. -/
structure Result where
  success : Bool := false
  name : Str := []
  version : Str := []
  path : Path := []
  dry : Bool := false
  metadata : Option Str := none
  changelog : Option Str := none
  errors : List Problem := []
deriving DecidableEq

/-- release.rs:51-56 `ReleaseManager`. -/
structure Manager where
  mode : Mode
  skipBuild : Bool := false
  skipTests : Bool := false
  skipVcs : Bool := false

/-- Where the package comes from: its directory, the files that are there, what loading gives, and whether there is a
repository. -/
structure Source where
  dir : Path
  py : Bool := true
  yaml : Bool := false
  loaded : Option Pkg
  vcs : Bool := true

/-- What the settings and the environment say. -/
structure Settings where
  localPath : Str
  releasePath : Str
  home : Str
  cwd : Path

/-- What is made of lists of requirements: the hexadecimal digits of the digest of their text, and the text of the file. -/
structure Texts where
  digest : List Str → Str
  variantJson : List Str → Str → Str

/-- release.rs:648-659 `expand_home`. -/
def expandHome (home path : Str) : Str :=
  match path with
  | '~' :: r => if home.isEmpty then path else home ++ r
  | _ => path

/-- release.rs:153-199 `load_package`. -/
def loadPackage (s : Source) : Pkg × Result :=
  if !s.py && !s.yaml then (⟨[], none, []⟩, { errors := [.missing] })
  else
    match s.loaded with
    | none => (⟨[], none, []⟩, { errors := [.unreadable] })
    | some p =>
      (p, { name := p.name, version := p.version.getD c!"unknown",
            errors := (if p.name.isEmpty then [.name] else []) ++ (if p.version.isNone then [.version] else []) })

/-- release.rs:202-225 `get_install_path`. -/
def installPath (mode : Mode) (c : Settings) (p : Pkg) : Path :=
  let base :=
    match mode with
    | .local => c.localPath
    | .dryRun => c.localPath
    | .release => if !c.releasePath.isEmpty && c.releasePath ≠ c!"~/.rez/packages/int" then c.releasePath else c.localPath
  join (join (join c.cwd (expandHome c.home base)) p.name) (p.version.getD c!"unknown")

/-- release.rs:228-262 `validate_vcs`: whether there is a repository to go on with. -/
def validateVcs {W : Type} (m : Machine W) (src : Source) (s : St W) (r : Result) : St W × Result × Bool :=
  if src.vcs then
    let a := ask m .validate s
    if !a.2.ok then (a.1, { r with errors := r.errors ++ [.vcs] }, false)
    else
      let b := ask m .metadata a.1
      (b.1, { r with metadata := if b.2.ok then some b.2.text else r.metadata }, true)
  else (s, r, false)

/-- release.rs:287-338: one variant. -/
def buildVariant {W : Type} (m : Machine W) (t : Texts) (src : Source) (path : Path) (v : List Str) (s : St W) (r : Result) :
    St W × Result :=
  let hash := (t.digest v).take 8
  let dir := path ++ [hash]
  let a := ask m (.mkdirs dir) s
  if !a.2.ok then (a.1, { r with errors := r.errors ++ [.variantDir v] })
  else
    let b := if src.py then (ask m (.copy (src.dir ++ [c!"package.py"]) (dir ++ [c!"package.py"])) a.1).1 else a.1
    ((ask m (.write (dir ++ [c!"variant.json"]) (t.variantJson v hash)) b).1, r)

/-- release.rs:287-338: the variants in turn. -/
def buildVariants {W : Type} (m : Machine W) (t : Texts) (src : Source) (path : Path) :
    List (List Str) → St W → Result → St W × Result
  | [], s, r => (s, r)
  | v :: l, s, r =>
    let a := buildVariant m t src path v s r
    buildVariants m t src path l a.1 a.2

/-- release.rs:265-357 `build_package`; `none` is an error. -/
def buildPackage {W : Type} (m : Machine W) (t : Texts) (src : Source) (p : Pkg) (path : Path) (s : St W) (r : Result) :
    St W × Option Result :=
  let a := ask m (.mkdirs path) s
  if !a.2.ok then (a.1, none)
  else if !p.variants.isEmpty then
    let b := buildVariants m t src path p.variants a.1 r
    (b.1, some b.2)
  else if src.py then ((ask m (.copy (src.dir ++ [c!"package.py"]) (path ++ [c!"package.py"])) a.1).1, some r)
  else (a.1, some r)

/-- release.rs:541-564: the tests in turn. -/
def runEach {W : Type} (m : Machine W) (path : Path) : Nat → List Str → St W → Result → St W × Result
  | _, [], s, r => (s, r)
  | i, c :: l, s, r =>
    let a := ask m (.test c path) s
    runEach m path (i + 1) l a.1 (if a.2.ok then r else { r with errors := r.errors ++ [.test i] })

/-- release.rs:523-567 `run_tests`, 569-620 `get_test_commands`: if the list cannot be had it is empty. -/
def runTests {W : Type} (m : Machine W) (src : Source) (path : Path) (s : St W) (r : Result) : St W × Result :=
  if src.py then
    let a := ask m .listTests s
    runEach m path 1 (if a.2.ok then a.2.texts else []) a.1 r
  else (s, r)

/-- release.rs:360-417 `create_vcs_tag`. -/
def createTag {W : Type} (m : Machine W) (p : Pkg) (message : Option Str) (s : St W) (r : Result) : St W × Result :=
  let t := p.name ++ c!"-" ++ p.version.getD c!"unknown"
  let a := ask m (.tagged t) s
  if a.2.ok && a.2.yes then (a.1, r)
  else
    let b := ask m (.tag t (message.getD (c!"Release " ++ t))) a.1
    if b.2.ok then (b.1, r) else (b.1, { r with errors := r.errors ++ [.tag] })

/-- release.rs:420-437 `generate_changelog`. -/
def makeChangelog {W : Type} (m : Machine W) (s : St W) (r : Result) : St W × Result :=
  let a := ask m .changelog s
  (a.1, if a.2.ok then { r with changelog := some a.2.text } else r)

/-- release.rs:440-484 `write_release_metadata`. -/
def writeMetadata {W : Type} (m : Machine W) (path : Path) (vcs : Bool) (s : St W) (r : Result) : St W × Result :=
  if vcs then
    let a := ask m .metadata s
    if a.2.ok then
      let b := ask m (.write (path ++ [c!"vcs_metadata.json"]) a.2.text) a.1
      (b.1, if b.2.ok then { r with metadata := some a.2.text } else r)
    else (a.1, r)
  else (s, r)

/-- release.rs:487-517 `install_package_definition`; `none` is an error. -/
def installDefinition {W : Type} (m : Machine W) (src : Source) (path : Path) (s : St W) (r : Result) : St W × Option Result :=
  if !src.py && !src.yaml then (s, some r)
  else
    let file := if src.py then c!"package.py" else c!"package.yaml"
    let a := ask m (.copy (src.dir ++ [file]) (path ++ [file])) s
    (a.1, if a.2.ok then some r else none)

/-- release.rs:125-149: what comes after building. -/
def finish {W : Type} (m : Machine W) (g : Manager) (src : Source) (p : Pkg) (message : Option Str) (path : Path) (vcs : Bool)
    (s : St W) (r : Result) : St W × Option Result :=
  let a := if g.skipTests then (s, r) else runTests m src path s r
  let b := if vcs then createTag m p message a.1 a.2 else a
  let c := if vcs then makeChangelog m b.1 b.2 else b
  let d := writeMetadata m path vcs c.1 c.2
  let e := installDefinition m src path d.1 d.2
  (e.1, e.2.map fun r => { r with success := r.errors.isEmpty })

/-- release.rs:84-150 `release`; `none` is an error. -/
def release {W : Type} (m : Machine W) (t : Texts) (c : Settings) (g : Manager) (src : Source) (message : Option Str) (w : W) :
    St W × Option Result :=
  let l := loadPackage src
  if !l.2.errors.isEmpty then (⟨w, []⟩, some l.2)
  else
    let path := installPath g.mode c l.1
    let r := { l.2 with path := path }
    let v := if g.skipVcs then (⟨w, []⟩, r, false) else validateVcs m src ⟨w, []⟩ r
    if g.mode = .dryRun then (v.1, some { v.2.1 with dry := true, success := true })
    else
      let b := if g.skipBuild then (v.1, some v.2.1) else buildPackage m t src l.1 path v.1 v.2.1
      match b.2 with
      | none => (b.1, none)
      | some r => finish m g src l.1 message path v.2.2 b.1 r

end Rez.ReleaseManager
