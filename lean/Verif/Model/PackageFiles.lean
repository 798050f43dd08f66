import Verif.Base.Map
import Verif.Model.Requirement
import Mathlib.Data.List.Infix
/-!
# Package directories: `rez-next-package/src/package_copy.rs`, `package_move.rs`, `package_remove.rs`

The file system is a map from paths to entries.  Operations are lists of steps on it, so that a crash, or an error of a
step, leaves what a prefix of the list does.  Simplifications: no directory on the way to a package is a link, so that
`canonicalize` gives the path back; a package is not copied into itself (the entries to copy are those at the start of the
copying, while the code lists directories as it goes); permissions and times are left out.
-/
namespace Rez.Files
open Rez

/-- An absolute path, by its components. -/
abbrev Path := List Str

/-- What is at a path.  `special` are sockets, pipes and devices. -/
inductive Entry where
  | dir
  | file (content : Str)
  | link (target : Str)
  | special
deriving DecidableEq

/-- The file system. -/
abbrev FS := List (Path × Entry)

/-- `Path::join` with one more component. -/
def pushPart (p : Path) (s : Str) : Path :=
  if s = [] then p else if s = c!"." then p else if s = c!".." then p.dropLast else p ++ [s]

/-- `Path::join`, and what the system makes of `.` and `..`: an absolute path takes the place of the first. -/
def join (p : Path) (s : Str) : Path :=
  (splitChar '/' s).foldl pushPart (if s.head? = some '/' then [] else p)

/-- One change of the file system.  Files are created empty and then written. -/
inductive Step where
  | mkdir (p : Path)
  | create (p : Path)
  | write (p : Path) (e : Entry)
  | remove (p : Path)
deriving DecidableEq

/-- The effect of a step. -/
def Step.apply (fs : FS) : Step → FS
  | .mkdir p => if (mget fs p).isSome then fs else mset fs p .dir
  | .create p => mset fs p (.file [])
  | .write p e => mset fs p e
  | .remove p => mdel fs p

/-- The effect of steps. -/
def run (fs : FS) (steps : List Step) : FS := steps.foldl Step.apply fs

/-- `fs::create_dir_all`. -/
def mkdirAll (p : Path) : List Step := p.inits.map .mkdir

/-- `fs::create_dir_all` fails on the way: there is something that is no directory. -/
def blocked (fs : FS) (p : Path) : Bool := p.inits.any fun q => (mget fs q).any fun e => e != .dir

/-- The entries below a directory, with their paths from there. -/
def below (fs : FS) (p : Path) : FS :=
  (fs.filter fun e => p.isPrefixOf e.1 && e.1 != p).map fun e => (e.1.drop p.length, e.2)

/-- The order in which the system lists entries. -/
abbrev Order := FS → FS

/-- `fs::remove_dir_all`. -/
def removeTree (order : Order) (fs : FS) (p : Path) : List Step :=
  (order (fs.filter fun e => p.isPrefixOf e.1)).map fun e => .remove e.1

/-- package_copy.rs:176-216: one entry. -/
def copyEntry (dest : Path) (e : Path × Entry) : List Step :=
  match e.2 with
  | .dir => [.mkdir (dest ++ e.1)]
  | .file c => [.create (dest ++ e.1), .write (dest ++ e.1) (.file c)]
  | .link t => [.write (dest ++ e.1) (.link t)]
  | .special => []

/-- package_copy.rs:168-219 `copy_dir_recursive`. -/
def copyTree (order : Order) (fs : FS) (src dest : Path) : List Step := (order (below fs src)).flatMap (copyEntry dest)

/-- package_copy.rs:179-214: the number of files and of bytes. -/
def copyStats (fs : FS) (src : Path) : Nat × Nat :=
  (((below fs src).filter fun e => match e.2 with | .file _ => true | .link _ => true | _ => false).length,
   ((below fs src).map fun e => match e.2 with | .file c => byteLen c | _ => 0).sum)

/-- The directory of a package, in both layouts. -/
def candidates (base : Path) (name version : Str) : List Path :=
  [join (join base name) version, join (join base name) (name ++ c!"-" ++ version)]

/-- package_copy.rs:128-150 `find_package_dir`. -/
def findDir (fs : FS) (paths : List Path) (name version : Str) : Option Path :=
  (paths.flatMap fun b => candidates b name version).find? fun p => mget fs p == some .dir

/-- The errors. -/
inductive Err where
  | notFound | exists_ | same | io
deriving DecidableEq

/-- package_copy.rs:40-50 `struct PackageCopyResult`. -/
structure Copied where
  source : Path
  destination : Path
  files : Nat
  bytes : Nat
deriving DecidableEq

/-- package_copy.rs:99-125: the copy of a directory that was found; the steps and the result. -/
def copyInto (order : Order) (fs : FS) (force : Bool) (src dest : Path) : List Step × Except Err Copied :=
  if (mget fs dest).isSome && !force then ([], .error .exists_)
  else
    let clear := if (mget fs dest).isSome then removeTree order fs dest else []
    let fs1 := run fs clear
    if blocked fs1 dest then (clear, .error .io)
    else
      let fs2 := run fs1 (mkdirAll dest)
      if mget fs2 src != some .dir then (clear ++ mkdirAll dest, .error .io)
      else
        (clear ++ mkdirAll dest ++ copyTree order fs2 src dest,
          .ok ⟨src, dest, (copyStats fs2 src).1, (copyStats fs2 src).2⟩)

/-- package_copy.rs:87-125 `copy_package`: the steps and the result. -/
def copyPackage (order : Order) (fs : FS) (paths : List Path) (force : Bool) (name version : Str) (destBase : Path) :
    List Step × Except Err Copied :=
  match findDir fs paths name version with
  | none => ([], .error .notFound)
  | some src => copyInto order fs force src (join (join destBase name) version)

/-- package_remove.rs:85-101, 136-145: removes those of the directories that are there; the steps, and what was removed. -/
def removeDirs (order : Order) : FS → List Path → List Step × List Path
  | _, [] => ([], [])
  | fs, d :: ds =>
    if mget fs d = some .dir then
      let s := removeTree order fs d
      let rest := removeDirs order (run fs s) ds
      (s ++ rest.1, d :: rest.2)
    else removeDirs order fs ds

/-- package_remove.rs:108-118: removes the empty family directories. -/
def prune (name : Str) : FS → List Path → List Step
  | _, [] => []
  | fs, b :: bs =>
    let d := join b name
    if mget fs d = some .dir && (below fs d).isEmpty then .remove d :: prune name (mdel fs d) bs else prune name fs bs

/-- package_remove.rs:78-125 `remove_package_version`.  `force` is in the configuration but never read. -/
def removeVersion (order : Order) (fs : FS) (paths : List Path) (_force pruneEmpty : Bool) (name version : Str) :
    List Step × List Path :=
  let r := removeDirs order fs (paths.map fun b => join (join b name) version)
  if r.2.isEmpty then ([], [])
  else (r.1 ++ (if pruneEmpty then prune name (run fs r.1) paths else []), r.2)

/-- package_remove.rs:130-156 `remove_package_family`. -/
def removeFamily (order : Order) (fs : FS) (paths : List Path) (name : Str) : List Step × List Path :=
  removeDirs order fs (paths.map fun b => join b name)

/-- package_remove.rs:159-183 `preview_removal`. -/
def preview (fs : FS) (paths : List Path) (name : Str) (version : Option Str) : List Path :=
  (paths.map fun b => match version with
    | some v => join (join b name) v
    | none => join b name).filter fun p => (mget fs p).isSome

/-- package_move.rs:38-50 `struct PackageMoveResult`. -/
structure Moved where
  copied : Copied
  removed : Bool

/-- package_move.rs:115-153 `move_package`. -/
def movePackage (order : Order) (fs : FS) (paths : List Path) (force keep : Bool) (name version : Str) (destBase : Path) :
    List Step × Except Err Moved :=
  match findDir fs paths name version with
  | none => ([], .error .notFound)
  | some src =>
    if src = join (join destBase name) version then ([], .error .same)
    else
      let c := copyPackage order fs paths force name version destBase
      match c.2 with
      | .error e => (c.1, .error e)
      | .ok r =>
        if keep then (c.1, .ok ⟨r, false⟩)
        else (c.1 ++ (removeVersion order (run fs c.1) paths true true name version).1, .ok ⟨r, true⟩)

end Rez.Files
