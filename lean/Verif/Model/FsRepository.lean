import Verif.Model.PackageFiles
import Verif.Model.Version
/-!
# The filesystem package repository: `rez-next-repository/src/package_repository/filesystem.rs`

It works on the file system of `Model/PackageFiles`, with the same simplifications: nothing in a repository is a link, and
the system gives no errors beyond those that follow from what is at the paths.
-/
namespace Rez.FsRepo
open Rez Rez.Files

/-- filesystem.rs:27-40 `struct FilesystemPackageRepository`: the name, the priority and the description are not used by the
operations. -/
structure Repo where
  location : Path
  readOnly : Bool

/-- `std::path::Component`. -/
inductive Comp where
  | root | cur | parent
  | normal (s : Str)
deriving DecidableEq

/-- One part of a path after its first: empty parts and `.` are left out. -/
def part (s : Str) : List Comp :=
  if s = [] then [] else if s = c!"." then [] else if s = c!".." then [.parent] else [.normal s]

/-- The first part of a path. -/
def firstPart (s : Str) : List Comp := if s = c!"." then [.cur] else part s

/-- `Path::components`. -/
def components (s : Str) : List Comp :=
  (if s.head? = some '/' then [.root] else []) ++
    match splitChar '/' s with
    | [] => []
    | p :: ps => firstPart p ++ ps.flatMap part

/-- filesystem.rs:101-111 `validate_component`. -/
def valid (s : Str) : Bool :=
  match components s with
  | [.normal _] => true
  | _ => false

/-- The errors. -/
inductive Err where
  | readOnly | noVersion | invalid | io | notEmpty | age
deriving DecidableEq

/-- filesystem.rs:133-137 `family_path`. -/
def familyPath (r : Repo) (name : Str) : Option Path := if valid name then some (join r.location name) else none

/-- filesystem.rs:139-143 `version_path`. -/
def versionPath (r : Repo) (name version : Str) : Option Path :=
  if valid version then (familyPath r name).map fun p => join p version else none

/-- filesystem.rs:145-147 `ignore_path`.  A version with a slash, which can only be at its end, would give the path of a
file with a slash: the system neither makes nor removes such a file.  That is `none`. -/
def markerPath (family : Path) (version : Str) : Option Path :=
  if '/' ∈ version then none else some (family ++ [c!".ignore" ++ version])

/-- filesystem.rs:113-121 `require_version`, after 123-131 `ensure_writable`, and then the paths of the family and of the
version. -/
def target (r : Repo) (name : Str) (version : Option Str) : Except Err (Path × Path × Str) :=
  if r.readOnly then .error .readOnly
  else match version with
    | none => .error .noVersion
    | some v =>
      if !valid v then .error .invalid
      else if !valid name then .error .invalid
      else .ok (join r.location name, join (join r.location name) v, v)

/-- The steps of an operation and its result. -/
abbrev Did (α : Type) := List Step × Except Err α

/-- filesystem.rs:338-362: `ignore_package` for paths that were checked. -/
def ignoreAt (fs : FS) (family dir : Path) (version : Str) (allowMissing : Bool) : Did Int :=
  if !allowMissing && mget fs dir != some .dir then ([], .ok (-1))
  else if blocked fs family then ([], .error .io)
  else match markerPath family version with
    | none => (mkdirAll family, .error .io)
    | some m => if (mget fs m).isSome then (mkdirAll family, .ok 0) else (mkdirAll family ++ [.create m], .ok 1)

/-- filesystem.rs:330-363 `ignore_package`. -/
def ignore (r : Repo) (fs : FS) (name : Str) (version : Option Str) (allowMissing : Bool) : Did Int :=
  match target r name version with
  | .error e => ([], .error e)
  | .ok (family, dir, v) => ignoreAt fs family dir v allowMissing

/-- `fs::remove_file`, with `NotFound` taken for success. -/
def removeFile (fs : FS) (m : Path) : Except Err (List Step) :=
  if blocked fs m.dropLast then .error .io
  else match mget fs m with
  | none => .ok []
  | some .dir => .error .io
  | some _ => .ok [.remove m]

/-- filesystem.rs:365-388 `unignore_package`. -/
def unignore (r : Repo) (fs : FS) (name : Str) (version : Option Str) : Did Int :=
  match target r name version with
  | .error e => ([], .error e)
  | .ok (family, dir, v) =>
    match markerPath family v with
    | none => ([], .error .io)
    | some m =>
      match removeFile fs m with
      | .error e => ([], .error e)
      | .ok steps => (steps, .ok (if mget fs dir ≠ some .dir then -1 else if steps.isEmpty then 0 else 1))

/-- filesystem.rs:400-417: `remove_package` after `ignore_package`. -/
def removeAt (order : Order) (fs : FS) (family dir : Path) (v : Str) : Did Bool :=
  let s := removeTree order fs dir
  match markerPath family v with
  | none => (s, .error .io)
  | some m =>
    match removeFile (run fs s) m with
    | .error e => (s, .error e)
    | .ok t => (s ++ t, .ok true)

/-- filesystem.rs:390-418 `remove_package`. -/
def remove (order : Order) (r : Repo) (fs : FS) (name : Str) (version : Option Str) : Did Bool :=
  match target r name version with
  | .error e => ([], .error e)
  | .ok (family, dir, v) =>
    match ignoreAt fs family dir v false with
    | (s, .error e) => (s, .error e)
    | (s, .ok n) =>
      if n = -1 then (s, .ok false)
      else
        let rest := removeAt order (run fs s) family dir v
        (s ++ rest.1, rest.2)

/-- `fs::read_dir`: the names in a directory, with what they are. -/
def children (order : Order) (fs : FS) (p : Path) : List (Str × Entry) :=
  (order (below fs p)).filterMap fun e =>
    match e.1 with
    | [n] => some (n, e.2)
    | _ => none

/-- filesystem.rs:420-453 `remove_package_family`. -/
def removeFamily (order : Order) (r : Repo) (fs : FS) (name : Str) (force : Bool) : Did Bool :=
  if r.readOnly then ([], .error .readOnly)
  else match familyPath r name with
    | none => ([], .error .invalid)
    | some family =>
      if mget fs family != some .dir then ([], .ok false)
      else if !force && (children order fs family).any (fun e => e.2 == .dir && e.1.head? != some '.') then ([], .error .notEmpty)
      else (removeTree order fs family, .ok true)

/-- `str::strip_prefix`. -/
def stripPrefix (p s : Str) : Option Str := if p.isPrefixOf s then some (s.drop p.length) else none

/-- filesystem.rs:491-517: the version that the marker hides, if it is old enough.  `created` gives the times in nanoseconds;
a marker from the future is of age 0. -/
def candidate (created : Path → Nat) (now threshold : Nat) (family : Path) (e : Str × Entry) : Option Str :=
  match stripPrefix c!".ignore" e.1 with
  | none => none
  | some v =>
    if v = [] then none
    else match e.2 with
      | .file _ => if threshold ≤ now - created (family ++ [e.1]) then some v else none
      | _ => none

/-- filesystem.rs:470-519: all candidates. -/
def candidates (order : Order) (r : Repo) (fs : FS) (created : Path → Nat) (now threshold : Nat) : List (Str × Str) :=
  (children order fs r.location).flatMap fun f =>
    if f.2 = .dir then
      ((children order fs (r.location ++ [f.1])).filterMap (candidate created now threshold (r.location ++ [f.1]))).map fun v =>
        (f.1, v)
    else []

/-- filesystem.rs:521-535: the removals, one after the other; the first error ends them. -/
def removeAll (order : Order) (r : Repo) : FS → List (Str × Str) → Did Nat
  | _, [] => ([], .ok 0)
  | fs, (name, v) :: rest =>
    match remove order r fs name (some v) with
    | (s, .error e) => (s, .error e)
    | (s, .ok b) =>
      let more := removeAll order r (run fs s) rest
      (s ++ more.1, more.2.map fun n => n + if b then 1 else 0)

/-- filesystem.rs:455-536 `remove_ignored_since`. -/
def removeIgnoredSince (order : Order) (r : Repo) (fs : FS) (created : Path → Nat) (now : Nat) (days : Int) (dryRun : Bool) :
    Did Nat :=
  if r.readOnly then ([], .error .readOnly)
  else if days < 0 then ([], .error .age)
  else if mget fs r.location ≠ some .dir then ([], .ok 0)
  else
    let c := candidates order r fs created now (days.toNat * 24 * 60 * 60 * 1000000000)
    if dryRun then ([], .ok c.length) else removeAll order r fs c

/-- filesystem.rs:206-209, 262-264: names that are not listed. -/
def hidden (s : Str) : Bool := s.head? == some '.' || s.head? == some '_'

/-- filesystem.rs:179-223 `iter_package_families`: the names. -/
def families (order : Order) (r : Repo) (fs : FS) : Except Err (List Str) :=
  if mget fs r.location ≠ some .dir then .error .io
  else .ok (((children order fs r.location).filter fun e => e.2 == .dir && !hidden e.1).map Prod.fst)

/-- filesystem.rs:158-177 `get_package_family`: the name is not checked. -/
def getFamily (r : Repo) (fs : FS) (name : Str) : Option Str :=
  if mget fs (join r.location name) = some .dir then some name else none

/-- A package of a family: the directory and the version that it spells. -/
abbrev Pkg := Str × Option Version

/-- filesystem.rs:267-270: a marker hides the version. -/
def marked (fs : FS) (family : Path) (v : Str) : Bool :=
  match mget fs (family ++ [c!".ignore" ++ v]) with
  | some (.file _) => true
  | _ => false

/-- filesystem.rs:225-291 `iter_packages`. -/
def packages (order : Order) (r : Repo) (fs : FS) (name : Str) : List Pkg :=
  let family := join r.location name
  if mget fs family ≠ some .dir then []
  else
    ((children order fs family).filter fun e => e.2 == .dir && !hidden e.1 && !marked fs family e.1).map fun e =>
      (e.1, Version.parse e.1)

/-- package_repository/mod.rs:174-200 `get_package`. -/
def getPackage (order : Order) (r : Repo) (fs : FS) (name : Str) (version : Option Str) : Option Pkg :=
  match getFamily r fs name with
  | none => none
  | some f =>
    match version with
    | none => (packages order r fs f).head?
    | some v => (packages order r fs f).find? fun p => p.2.any fun w => w.asStr == v

/-- filesystem.rs:581-591 `get_package_payload_path`. -/
def payloadPath (r : Repo) (name : Str) (version : Option Str) : Except Err Path :=
  match familyPath r name with
  | none => .error .invalid
  | some p =>
    match version with
    | none => .ok p
    | some v => if valid v then .ok (join p v) else .error .invalid

end Rez.FsRepo
