import Verif.Model.BuildCopy
import Verif.Model.BuildSystems
/-!
# Binary archives: `rez-next-build/src/systems/binary_archive.rs`

Installing is a list of steps on a file system, so that a crash, or an error of a step, leaves what a prefix of the list
does.  Downloads, hashes and the reading of archives are parameters; an archive is the list of its entries.
Simplifications: those of `Model/BuildCopy.lean`; archives have directories and files only; permissions are left out.
-/
namespace Rez.Build
open Rez Rez.Files

/-- An entry of an archive: its path, if it stays inside (`enclosed_name`, and what `tar` skips), and the content of a file. -/
abbrev ArchiveEntry := Option Path × Option Str

/-- What installing asks of the world. -/
structure ArchiveTools where
  fetch : Str → Option Str
  hash : Str → Str
  unzip : Str → Option (List ArchiveEntry)
  untar : Str → Option (List ArchiveEntry)

/-- A part of an operation and what comes after it if it succeeds. -/
def andThen (fs : FS) (a : List Step × Bool) (k : FS → List Step × Bool) : List Step × Bool :=
  if a.2 then (a.1 ++ (k (run fs a.1)).1, (k (run fs a.1)).2) else a

/-- `create_dir_all`. -/
def makeAll (fs : FS) (p : Path) : List Step × Bool := if blocked fs p then ([], false) else (mkdirAll p, true)

/-- `fs::write`, `fs::File::create` and what is written. -/
def writeFile (fs : FS) (p : Path) (c : Str) : List Step × Bool :=
  if mget fs p = some .dir then ([], false) else ([.create p, .write p (.file c)], true)

/-- binary_archive.rs:251-288 `extract_zip`, 290-298 `extract_tar_gz`: one entry.  For a path that is empty the file is the
directory itself, which cannot be created. -/
def unpackOne (dest : Path) (fs : FS) : ArchiveEntry → List Step × Bool
  | (none, _) => ([], true)
  | (some p, none) => makeAll fs (dest ++ p)
  | (some p, some c) => andThen fs (makeAll fs (dest ++ p).dropLast) fun fs => writeFile fs (dest ++ p) c

/-- The loop over the entries. -/
def unpackEach (dest : Path) : FS → List ArchiveEntry → List Step × Bool
  | _, [] => ([], true)
  | fs, e :: l => andThen fs (unpackOne dest fs e) fun fs => unpackEach dest fs l

/-- What the variables say of the archive: binary_archive.rs:19-22, a value that is empty counts as none. -/
structure ArchiveVars where
  artifact : Option Str
  url : Option Str
  sha256 : Option Str
  pre : Option Str

/-- The variables (binary_archive.rs:123, 130, 156, 168). -/
def archiveVars (vars : List (Str × Str)) : ArchiveVars :=
  ⟨filled vars c!"REZ_BINARY_ARCHIVE_ARTIFACT", filled vars c!"REZ_BINARY_ARCHIVE_URL",
   filled vars c!"REZ_BINARY_ARCHIVE_SHA256", filled vars c!"REZ_BINARY_ARCHIVE_PAYLOAD_PREFIX"⟩

/-- binary_archive.rs:175-179: the name of a download. -/
def urlName (url : Str) : Str :=
  match (splitChar '/' url).getLast? with
  | some [] => c!"artifact.bin"
  | some n => n
  | none => c!"artifact.bin"

/-- binary_archive.rs:150-193 `resolve_artifact`: the steps, and the path and content of the archive.  `cwd` is the directory
of the process.  The status of the answer of the server is not looked at, so that what comes is the content. -/
def archiveFile (t : ArchiveTools) (v : ArchiveVars) (cwd work : Path) (fs : FS) : List Step × Option (Path × Str) :=
  match v.artifact with
  | some a =>
    match mget fs (join cwd a) with
    | some (.file c) => ([], some (join cwd a, c))
    | _ => ([], none)
  | none =>
    match v.url with
    | none => ([], none)
    | some u =>
      match t.fetch u with
      | none => ([], none)
      | some c =>
        if mget fs (join work (urlName u)) = some .dir then ([], none)
        else ([.create (join work (urlName u)), .write (join work (urlName u)) (.file c)], some (join work (urlName u), c))

/-- binary_archive.rs:232-249 `extract_archive`: how the archive is read, by the end of its name. -/
def readArchive (t : ArchiveTools) (name content : Str) : Option (List ArchiveEntry) :=
  if c!".zip".isSuffixOf (name.map lowerChar) then t.unzip content
  else if c!".tar.gz".isSuffixOf (name.map lowerChar) || c!".tgz".isSuffixOf (name.map lowerChar) then t.untar content
  else none

/-- binary_archive.rs:312-320: a directory takes the place of what is there. -/
def replaceDir (order : Listing) (rm : Order) (n : Nat) (fs : FS) (src dst : Path) : List Step × CopyEnd :=
  match mget fs dst with
  | none => copyDir order (fun _ => false) n fs src dst
  | some .dir =>
    let s := removeTree rm fs dst
    let r := copyDir order (fun _ => false) n (run fs s) src dst
    (s ++ r.1, r.2)
  | some _ => ([], .failed)

/-- binary_archive.rs:300-331 `copy_tree_contents`. -/
def copyContents (order : Listing) (rm : Order) (n : Nat) (fs : FS) (src dst : Path) : List Step × CopyEnd :=
  if blocked fs dst then ([], .failed)
  else
    let fs1 := run fs (mkdirAll dst)
    let r := copyEach (replaceDir order rm n) (fun _ => false) src dst fs1 (order (children fs1 src))
    (mkdirAll dst ++ r.1, r.2)

/-- The end of copying, as success. -/
def copied (r : List Step × CopyEnd) : List Step × Bool :=
  (r.1, match r.2 with
    | .done _ => true
    | _ => false)

/-- binary_archive.rs:129-137: the directory in the archive that is installed. -/
def payloadDir (v : ArchiveVars) (extract : Path) : Path :=
  match v.pre with
  | some p => join extract p
  | none => extract

/-- binary_archive.rs:126-140: once the archive is there. -/
def installFrom (order : Listing) (rm : Order) (n : Nat) (t : ArchiveTools) (v : ArchiveVars) (extract install : Path)
    (name content : Str) (fs : FS) : List Step × Bool :=
  if v.sha256.any (· != t.hash content) then ([], false)
  else
    match readArchive t name content with
    | none => ([], false)
    | some entries =>
      andThen fs (unpackEach extract fs entries) fun fs =>
        if mget fs (payloadDir v extract) = some .dir then
          copied (copyContents order rm n fs (payloadDir v extract) install)
        else ([], false)

/-- binary_archive.rs:98-148 `install_archive`. -/
def installArchive (order : Listing) (rm : Order) (n : Nat) (t : ArchiveTools) (v : ArchiveVars) (cwd temp install : Path)
    (fs : FS) : List Step × Bool :=
  let work := temp ++ [c!"binary_archive"]
  let extract := work ++ [c!"extract"]
  andThen fs (makeAll fs work) fun fs =>
    andThen fs (makeAll fs extract) fun fs =>
      andThen fs (makeAll fs install) fun fs =>
        match archiveFile t v cwd work fs with
        | (s, none) => (s, false)
        | (s, some (p, c)) =>
          andThen fs (s, true) fun fs => installFrom order rm n t v extract install (p.getLast?.getD []) c fs

end Rez.Build
