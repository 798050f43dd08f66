import Verif.Model.Requirement
/-!
# `rez-next-build/src/artifacts.rs`: what a build has installed

A directory is a finite tree, in the order of `read_dir`, links followed; a directory that holds a link to itself is left out.
`to_lowercase` and SHA-256 are parameters.  Sizes are natural numbers: that a sum passes 64 bits is left out.
-/
namespace Rez.Artifacts
open Rez

/-- A file: `bytes` is `none` if it cannot be read. -/
structure File where
  size : Nat
  mode : Nat
  bytes : Option Str
deriving DecidableEq

/-- What is at a path; the size of a directory is what its metadata say. -/
inductive Node where
  | file (f : File)
  | dir (readable : Bool) (size : Nat) (entries : List (Str × Node))
  /-- `metadata` fails: a link that leads nowhere -/
  | broken

/-- artifacts.rs:46-64 `ArtifactFileType`. -/
inductive Kind where
  | executable | library | staticLibrary | header | documentation | configuration | data | other
deriving DecidableEq

/-- artifacts.rs:31-43 `ArtifactFile`; a path is its names. -/
structure Artifact where
  path : List Str
  kind : Kind
  size : Nat
  checksum : Option Str
  mode : Nat
deriving DecidableEq

/-- The library functions. -/
structure Lib where
  lower : Str → Str
  sha256 : Str → Str

/-- `Path::extension` of a file name: what follows the last dot, unless that is the first character. -/
def extension (name : Str) : Option Str :=
  match rsplitOnce '.' name with
  | some (_ :: _, e) => some e
  | _ => none

/-- artifacts.rs:137-147: the type by extension. -/
def kindOfExt (e : Str) : Kind :=
  if e = c!"exe" ∨ e = c!"bin" then .executable
  else if e = c!"dll" ∨ e = c!"so" ∨ e = c!"dylib" then .library
  else if e = c!"lib" ∨ e = c!"a" then .staticLibrary
  else if e = c!"h" ∨ e = c!"hpp" ∨ e = c!"hxx" then .header
  else if e = c!"md" ∨ e = c!"txt" ∨ e = c!"rst" ∨ e = c!"html" then .documentation
  else if e = c!"conf" ∨ e = c!"cfg" ∨ e = c!"ini" ∨ e = c!"yaml" ∨ e = c!"yml" ∨ e = c!"json" then .configuration
  else .data

/-- artifacts.rs:135-157 `determine_file_type`, on Unix (159-185 `is_executable`). -/
def kindOf (lib : Lib) (name : Str) (f : File) : Kind :=
  match extension name with
  | some e => kindOfExt (lib.lower e)
  | none => if f.mode &&& 0o111 ≠ 0 then .executable else .other

/-- artifacts.rs:109-127: the record of a file. -/
def record (lib : Lib) (path : List Str) (f : File) : Artifact :=
  ⟨path, kindOf lib (path.getLast?.getD []) f, f.size, f.bytes.map lib.sha256, f.mode⟩

mutual
/-- artifacts.rs:104-128: one entry, with its path; the flag is false if it failed. -/
def scanNode (lib : Lib) (path : List Str) : Node → List Artifact → List Artifact × Bool
  | .file f, acc => (acc ++ [record lib path f], true)
  | .dir true _ entries, acc => scanEntries lib path entries acc
  | .dir false _ _, acc => (acc, false)
  | .broken, acc => (acc, false)
/-- artifacts.rs:88-132 `scan_directory`: an error ends it. -/
def scanEntries (lib : Lib) (path : List Str) : List (Str × Node) → List Artifact → List Artifact × Bool
  | [], acc => (acc, true)
  | (n, t) :: rest, acc =>
    match scanNode lib (path ++ [n]) t acc with
    | (acc', true) => scanEntries lib path rest acc'
    | (acc', false) => (acc', false)
end

/-- artifacts.rs:76-86 `scan_install_dir`: the files before and after; nothing is at the path: `none`, which a broken link counts as. -/
def scan (lib : Lib) (root : Option Node) (old : List Artifact) : List Artifact × Bool :=
  match root with
  | none => (old, true)
  | some .broken => (old, true)
  | some (.file _) => ([], false)
  | some (.dir r s entries) => scanNode lib [] (.dir r s entries) []

/-- artifacts.rs:215-221 `get_files_by_type`. -/
def ofKind (fs : List Artifact) (k : Kind) : List Artifact := fs.filter fun f => f.kind == k

/-- artifacts.rs:224-226 `get_total_size`. -/
def totalSize (fs : List Artifact) : Nat := (fs.map Artifact.size).sum

/-- artifacts.rs:322-345 `ArtifactSummary`. -/
structure Summary where
  files : Nat
  size : Nat
  executables : Nat
  libraries : Nat
  staticLibraries : Nat
  headers : Nat
  documentation : Nat
  configuration : Nat
  dataFiles : Nat
  others : Nat
deriving DecidableEq

/-- artifacts.rs:250-261: one file counted. -/
def Summary.count (s : Summary) : Kind → Summary
  | .executable => { s with executables := s.executables + 1 }
  | .library => { s with libraries := s.libraries + 1 }
  | .staticLibrary => { s with staticLibraries := s.staticLibraries + 1 }
  | .header => { s with headers := s.headers + 1 }
  | .documentation => { s with documentation := s.documentation + 1 }
  | .configuration => { s with configuration := s.configuration + 1 }
  | .data => { s with dataFiles := s.dataFiles + 1 }
  | .other => { s with others := s.others + 1 }

/-- artifacts.rs:239-275 `get_summary`. -/
def summary (fs : List Artifact) : Summary :=
  fs.foldl (fun s f => s.count f.kind) ⟨fs.length, totalSize fs, 0, 0, 0, 0, 0, 0, 0, 0⟩

/-- artifacts.rs:348-358 `ArtifactValidation`; errors and warnings are the files they are about. -/
structure Validation where
  valid : Bool
  errors : List Artifact
  warnings : List Artifact
  checked : Nat
deriving DecidableEq

/-- artifacts.rs:282-311: one file; `now` is the size of what is at its path, if anything is. -/
def check (now : List Str → Option Nat) (v : Validation) (f : Artifact) : Validation :=
  match now f.path with
  | none => { v with errors := v.errors ++ [f] }
  | some s => { v with warnings := if s ≠ f.size then v.warnings ++ [f] else v.warnings, checked := v.checked + 1 }

/-- artifacts.rs:278-316 `validate`; that the metadata of what exists cannot be read is left out. -/
def validate (now : List Str → Option Nat) (fs : List Artifact) : Validation :=
  let v := fs.foldl (check now) ⟨false, [], [], 0⟩
  { v with valid := v.errors.isEmpty }

mutual
/-- `metadata(path).len()`, if something is there. -/
def sizeAt : Node → List Str → Option Nat
  | .file f, [] => some f.size
  | .dir _ s _, [] => some s
  | .broken, [] => none
  | .dir _ _ entries, n :: path => sizeIn entries n path
  | .file _, _ :: _ => none
  | .broken, _ :: _ => none
/-- The same below the entry of that name. -/
def sizeIn : List (Str × Node) → Str → List Str → Option Nat
  | [], _, _ => none
  | (m, t) :: rest, n, path => if m = n then sizeAt t path else sizeIn rest n path
end

end Rez.Artifacts
