import Verif.Model.Bundle
import Verif.Model.Serialization
import Verif.Base.Words
/-!
# `src/cli/commands/pip.rs`: packages made of what pip installs

Pip is a parameter: what it makes of the disk, and what it prints.  Copying is that of `Model/BuildCopy.lean` (the loop of
pip.rs:383-405 is that of custom.rs:510-546; the source can be read).  Lower case is ASCII.  What is printed is left out.
-/
namespace Rez.Pip
open Rez Rez.Files Rez.Build

/-- pip.rs:14-50 `PipArgs`; `prefix` is `place` here. -/
structure Args where
  packages : List Str := []
  release : Bool := false
  place : Option Path := none
  python : Option Str := none
  requirement : Option Str := none
  noDeps : Bool := false
  force : Bool := false
  dryRun : Bool := false
  verbose : Nat := 0

/-- The machine. -/
structure World where
  fs : FS
  locals : Path
  releases : Path
  /-- The temporary directory, and its text. -/
  tmp : Path
  tmpText : Str
  /-- The text of a file of requirements. -/
  read : Str → Option Str
  /-- The program can be asked for its version. -/
  runs : Str → Bool
  /-- `python -m pip install …`: whether it succeeds, and the disk after it. -/
  install : FS → Str → List Str → Bool × FS
  /-- `python -m pip show --files NAME` with the temporary directory as `PYTHONPATH`: what it prints if it succeeds. -/
  show_ : FS → Str → Str → Option Str
  order : Listing
  depth : Nat

/-- pip.rs:52-59 `PipPackageInfo`. -/
structure Info where
  name : Str
  version : Str
  requires : List Str
  summary : Str
deriving DecidableEq

/-- `to_lowercase().replace('-', "_")`. -/
def norm (s : Str) : Str := (s.map lowerChar).map fun c => if c = '-' then '_' else c

/-- pip.rs:410. -/
def operators : List Str := [c!"==", c!">=", c!"<=", c!"!=", c!"~=", c!">", c!"<", c!"@"]

/-- pip.rs:412-416: up to an operator, if there is one. -/
def cut (s op : Str) : Str := ((splitOnce op s).map Prod.fst).getD s

/-- pip.rs:408-418 `parse_pkg_name_from_spec`. -/
def specName (s : Str) : Str := norm (trim (operators.foldl cut s))

/-- `str::strip_prefix`. -/
def stripPrefix (p s : Str) : Option Str := if p.isPrefixOf s then some (s.drop p.length) else none

/-- pip.rs:234-252: one line. -/
def showLine (i : Info) (l : Str) : Info :=
  match stripPrefix c!"Name: " l with
  | some v => { i with name := trim v }
  | none =>
    match stripPrefix c!"Version: " l with
    | some v => { i with version := trim v }
    | none =>
      match stripPrefix c!"Requires: " l with
      | some v => { i with requires := ((splitChar ',' v).map trim).filter fun s => !s.isEmpty }
      | none =>
        match stripPrefix c!"Summary: " l with
        | some v => { i with summary := trim v }
        | none => i

/-- pip.rs:227-265 `parse_pip_show_output`. -/
def parseShow (s : Str) : Option Info :=
  let i := (Serial.linesOf s).foldl showLine ⟨[], [], [], []⟩
  if i.name.isEmpty || i.version.isEmpty then none else some i

/-- `trim_end_matches`; the number bounds how often. -/
def dropSuffixes (p : Str) : Nat → Str → Str
  | 0, s => s
  | n + 1, s => if p.isSuffixOf s then dropSuffixes p n (s.take (s.length - p.length)) else s

/-- pip.rs:289-298: a line of `METADATA`. -/
def metaLine (i : Info) (l : Str) : Info :=
  match stripPrefix c!"Summary: " l with
  | some v => { i with summary := v }
  | none =>
    match stripPrefix c!"Requires-Dist: " l with
    | some v => { i with requires := i.requires ++ [(Rez.splitWs v).head?.getD v] }
    | none => i

/-- pip.rs:275-308: what an entry of the directory says, if it is about that package. -/
def distInfo (fs : FS) (tmp : Path) (name fname : Str) : Option Info :=
  if c!".dist-info".isSuffixOf fname then
    match rsplitOnce '-' (dropSuffixes c!".dist-info" fname.length fname) with
    | none => none
    | some (n, v) =>
      if norm n = norm name then
        some ((match mget fs (tmp ++ [fname, c!"METADATA"]) with
          | some (.file c) => Serial.linesOf c
          | _ => []).foldl metaLine ⟨n, v, [], []⟩)
      else none
  else none

/-- pip.rs:268-313 `scan_target_for_package`. -/
def scan (w : World) (fs : FS) (name : Str) : Option Info :=
  (w.order (children fs w.tmp)).findSome? fun e => distInfo fs w.tmp name e.1

/-- pip.rs:202-225 `discover_installed_package`. -/
def discover (w : World) (python : Str) (fs : FS) (spec : Str) : Option Info :=
  match w.show_ fs python (specName spec) with
  | some out => parseShow out
  | none => scan w fs (specName spec)

/-- pip.rs:330-346: the requirements as they are written. -/
def requiresText (l : List Str) : Str :=
  if l.isEmpty then c!"[]" else c!"[\n    " ++ joinWith c!",\n    " (l.map Serial.quoted) ++ c!"\n]"

/-- pip.rs:323-328. -/
def requirements (i : Info) : List Str := (i.requires.filter fun r => !r.isEmpty).map norm

/-- pip.rs:356: double quotes become single ones. -/
def softened (s : Str) : Str := s.map fun c => if c = '"' then '\'' else c

/-- pip.rs:348-375: the file. -/
def packagePy (i : Info) : Str :=
  c!"name = " ++ Serial.quoted (norm i.name) ++ c!"\n" ++ c!"version = " ++ Serial.quoted i.version ++ c!"\n" ++
  c!"description = " ++ Serial.quoted (softened i.summary) ++ c!"\n" ++ c!"authors = [\"pip-rez-next\"]\n\n" ++
  c!"requires = " ++ requiresText (requirements i) ++
  c!"\n\ndef commands():\n    import os\n    env.PYTHONPATH.prepend(\"{root}/python\")\n"

/-- pip.rs:383-405 `copy_dir_recursive`. -/
def copyTree (w : World) (fs : FS) (dst : Path) : List Step × Bundle.End :=
  match copyDir w.order (fun _ => false) w.depth fs w.tmp dst with
  | (s, .done _) => (s, .done)
  | (s, .failed) => (s, .failed)
  | (s, .unfinished) => (s, .unfinished)

/-- pip.rs:315-380 `create_rez_package`. -/
def create (w : World) (fs : FS) (dir : Path) (i : Info) : List Step × Bundle.End :=
  Bundle.next fs (Bundle.makeAll fs dir) fun fs =>
  Bundle.next fs (copyTree w fs (dir ++ [c!"python"])) fun fs =>
  Bundle.writeFile fs (dir ++ [c!"package.py"]) (packagePy i)

/-- pip.rs:115-117: where a package goes. -/
def placeOf (base : Path) (i : Info) : Path := join (join base (norm i.name)) i.version

/-- pip.rs:163-200 `install_pip_package`: the arguments of pip. -/
def pipArgs (w : World) (a : Args) (spec : Str) : List Str :=
  [c!"-m", c!"pip", c!"install", c!"--target", w.tmpText, spec] ++ (if a.noDeps then [c!"--no-deps"] else []) ++
  (if a.force then [c!"--force-reinstall"] else []) ++
  (if a.verbose > 1 then [c!"-v"] else if a.verbose = 0 then [c!"-q"] else [])

/-- What came of it: the disk, the calls of pip, and the end. -/
structure Result where
  fs : FS
  calls : List (List Str)
  end_ : Bundle.End

/-- pip.rs:105-132: one after the other. -/
def each (w : World) (a : Args) (python : Str) (base : Path) : FS → List Str → Result
  | fs, [] => ⟨fs, [], .done⟩
  | fs, spec :: rest =>
    if a.dryRun then each w a python base fs rest
    else
      let x := w.install fs python (pipArgs w a spec)
      if !x.1 then ⟨x.2, [pipArgs w a spec], .failed⟩
      else
        match discover w python x.2 spec with
        | none =>
          let r := each w a python base x.2 rest
          { r with calls := pipArgs w a spec :: r.calls }
        | some i =>
          let y := create w x.2 (placeOf base i) i
          match y.2 with
          | .done =>
            let r := each w a python base (run x.2 y.1) rest
            { r with calls := pipArgs w a spec :: r.calls }
          | e => ⟨run x.2 y.1, [pipArgs w a spec], e⟩

/-- pip.rs:141-160 `find_python`. -/
def findPython (w : World) (a : Args) : Option Str :=
  match a.python with
  | some p => some p
  | none => [c!"python3", c!"python", c!"python3.11", c!"python3.10", c!"python3.9"].find? w.runs

/-- pip.rs:86-94: the lines of a file of requirements. -/
def requirementLines (s : Str) : List Str :=
  ((Serial.linesOf s).map trim).filter fun l => !l.isEmpty && l.head? != some '#'

/-- pip.rs:82-95: what is to be installed. -/
def specs (w : World) (a : Args) : Option (List Str) :=
  match a.requirement with
  | none => some a.packages
  | some f => (w.read f).map fun s => a.packages ++ requirementLines s

/-- pip.rs:63-76: the directory for packages. -/
def basePath (w : World) (a : Args) : Path := a.place.getD (if a.release then w.releases else w.locals)

/-- pip.rs:62-139 `execute`.  The temporary directory is there, and empty. -/
def execute (w : World) (a : Args) : Result :=
  match findPython w a with
  | none => ⟨w.fs, [], .failed⟩
  | some python =>
    match specs w a with
    | none => ⟨w.fs, [], .failed⟩
    | some [] => ⟨w.fs, [], .failed⟩
    | some l => each w a python (basePath w a) w.fs l

end Rez.Pip
