import Verif.Model.Repository
import Verif.Model.Requirement
import Verif.Model.Search
import Verif.Model.Range
/-!
# Packages by name, text and URI: `rez-next-python/src/package_functions/{mod,query,utility,management}.rs` and
`package_uri_functions.rs`

Repositories are those of `Model/Repository.lean`.  Parameters: the sort of the standard library, the configuration, the home
directory, what is found at a path, `to_lowercase`, and the loading of a package file.  Left out: the dictionaries made of packages,
the schemas, and what copying, moving and removing do (`Model/PackageFiles.lean`).
-/
namespace Rez.PackageQuery
open Rez Rez.PackageOrder Rez.Repository

/-- The machine. -/
structure World where
  srt : Sorting
  /-- `RezCoreConfig::load().packages_path` -/
  packagesPath : List Str
  /-- `USERPROFILE`, or else `HOME` -/
  home : Option Str
  /-- the directory at a path, if there is one -/
  dir : Str → Option Root
  isFile : Str → Bool
  isDir : Str → Bool
  exists_ : Str → Bool
  /-- `PackageSerializer::load_from_file` -/
  load : Str → Option Package
  /-- `read_dir`: the names, if it can be read -/
  listing : Str → Option (List Str)
  lower : Str → Str

/-- mod.rs:31-38 `expand_home`; the first `~` is the first character. -/
def expandHome (w : World) (p : Str) : Str :=
  if (c!"~/").isPrefixOf p || p == c!"~" then
    match w.home with
    | some h => h ++ p.drop 1
    | none => p
  else p

/-- mod.rs:50-58: the paths of the repositories. -/
def repoPaths (w : World) (paths : Option (List Str)) : List Str := paths.getD (w.packagesPath.map (expandHome w))

/-- mod.rs:41-70 `make_repo_manager`: a new repository for every path that exists. -/
def manager (w : World) (paths : Option (List Str)) : List Repo := (repoPaths w paths).filterMap fun p => (w.dir p).map fun r => (r, State.new)

/-- `find_packages` of a new manager. -/
def familyOf (w : World) (paths : Option (List Str)) (name : Str) : Outcome (List Package) := (managerFind w.srt (manager w paths) name).2

/-- query.rs:34-49, 121-135: the filter by range. -/
def inRange (range : Option Str) (p : Package) : Bool :=
  match range with
  | none => true
  | some t =>
    match p.version with
    | none => true
    | some v =>
      match VersionRange.parse t with
      | some r => r.contains v
      | none => true

/-- query.rs:53-58, management.rs:76-81: the comparison, descending. -/
def downCmp (a b : Package) : Ordering :=
  match b.version, a.version with
  | some bv, some av => bv.cmp av
  | _, _ => .eq

/-- query.rs:140-145: the comparison, ascending. -/
def upCmp (a b : Package) : Ordering :=
  match a.version, b.version with
  | some av, some bv => av.cmp bv
  | _, _ => .eq

/-- query.rs:21-61 `get_latest_package`. -/
def getLatest (w : World) (name : Str) (range : Option Str) (paths : Option (List Str)) : Outcome (Option Package) :=
  match familyOf w paths name with
  | .err => .err
  | .panic => .panic
  | .ok ps =>
    match w.srt.sort downCmp (ps.filter (inRange range)) with
    | .err => .err
    | .panic => .panic
    | .ok l => .ok l.head?

/-- query.rs:67-89 `get_package`. -/
def getPackage (w : World) (name : Str) (version : Option Str) (paths : Option (List Str)) : Outcome (Option Package) :=
  match familyOf w paths name with
  | .err => .err
  | .panic => .panic
  | .ok ps => .ok (ps.find? fun p =>
      match version with
      | some t => match p.version with | some v => v.asStr == t | none => false
      | none => true)

/-- query.rs:107-150 `iter_packages`. -/
def iterPackages (w : World) (name : Str) (range : Option Str) (paths : Option (List Str)) : Outcome (List Package) :=
  match familyOf w paths name with
  | .err => .err
  | .panic => .panic
  | .ok ps => w.srt.sort upCmp (ps.filter (inRange range))

/-- simple_repository.rs:273-278: the names of all repositories in turn; an error ends the loop. -/
def listEach : List Repo → List Repo × Outcome (List Str)
  | [] => ([], .ok [])
  | (root, s) :: rest =>
    match list Search.sortStr root s with
    | (s', .ok ns) =>
      match listEach rest with
      | (rest', .ok ms) => ((root, s') :: rest', .ok (ns ++ ms))
      | (rest', .err) => ((root, s') :: rest', .err)
      | (rest', .panic) => ((root, s') :: rest', .panic)
    | (s', .err) => ((root, s') :: rest, .err)
    | (s', .panic) => ((root, s') :: rest, .panic)

/-- simple_repository.rs:272-283 `RepositoryManager::list_packages`: the names once, sorted. -/
def managerList (repos : List Repo) : List Repo × Outcome (List Str) :=
  match listEach repos with
  | (repos', .ok ns) => (repos', .ok (Search.dedup (Search.sortStr ns)))
  | r => r

/-- query.rs:156-167 `get_package_family_names`. -/
def familyNames (w : World) (paths : Option (List Str)) : Outcome (List Str) := (managerList (manager w paths)).2

/-- query.rs:187-204, 247-258: the packages of every family.  The names are distinct and in order, so the map and the sort by name
that follow give them back as they are. -/
def findAll (srt : Sorting) : List Repo → List Str → Outcome (List (Str × List Package))
  | _, [] => .ok []
  | repos, n :: ns =>
    match managerFind srt repos n with
    | (_, .err) => .err
    | (_, .panic) => .panic
    | (repos', .ok ps) =>
      match findAll srt repos' ns with
      | .ok l => .ok ((n, ps) :: l)
      | .err => .err
      | .panic => .panic

/-- query.rs:235-276 `iter_package_families`. -/
def allFamilies (w : World) (paths : Option (List Str)) : Outcome (List (Str × List Package)) :=
  match managerList (manager w paths) with
  | (_, .err) => .err
  | (_, .panic) => .panic
  | (repos, .ok ns) => findAll w.srt repos ns

/-- query.rs:196-201: a version as text. -/
def versionShown (p : Package) : Str := match p.version with | some v => v.asStr | none => c!"unknown"

/-- query.rs:174-228 `walk_packages`. -/
def walk (w : World) (paths : Option (List Str)) : Outcome (List (Str × List Str)) :=
  match allFamilies w paths with
  | .err => .err
  | .panic => .panic
  | .ok l => .ok (l.map fun f => (f.1, Search.sortStr (f.2.map versionShown)))

/-- query.rs:285-306 `get_package_from_string`: the name and the version. -/
def fromString (s : Str) : Str × Option Version :=
  match rsplitOnce '-' s with
  | some (name, version) => (name, Version.parse version)
  | none => (s, none)

/-- query.rs:313-334 `get_latest_package_from_string`. -/
def latestFromString (w : World) (s : Str) (paths : Option (List Str)) : Outcome (Option Package) :=
  match rsplitOnce '-' s with
  | some (name, version) => getLatest w name (if version.isEmpty then none else some version) paths
  | none => getLatest w s none paths

/-- utility.rs:196-216 `get_completions`. -/
def completions (w : World) (pre : Str) (paths : Option (List Str)) : Outcome (List Str) :=
  match familyNames w paths with
  | .ok ns => .ok (Search.sortStr (ns.filter fun n => (w.lower pre).isPrefixOf (w.lower n)))
  | .err => .err
  | .panic => .panic

/-- `Iterator::max`. -/
def maxOf : List Int → Option Int
  | [] => none
  | t :: ts => match maxOf ts with | some m => some (if t > m then t else m) | none => some t

/-- utility.rs:353-386 `get_last_release_time`: the time, before it is made a `datetime`. -/
def lastRelease (w : World) (name : Str) (paths : Option (List Str)) : Outcome (Option Int) :=
  match familyOf w paths name with
  | .ok ps => .ok (maxOf (ps.filterMap Package.timestamp))
  | .err => .err
  | .panic => .panic

/-- `Path::join`, on texts. -/
def join (a b : Str) : Str :=
  if b.head? = some '/' then b
  else if a.isEmpty || a.getLast? = some '/' then a ++ b
  else a ++ '/' :: b

/-- utility.rs:156-188 `get_developer_package`: whether the path is a directory, and what is loaded; that it is marked as a
developer package is left out. -/
def developer (w : World) (path : Str) : Option Package :=
  if !w.isDir path then none
  else if w.exists_ (join path c!"package.py") then w.load (join path c!"package.py")
  else none

/-! ## management.rs -/

/-- management.rs:38-55 `resolve_search_paths`. -/
def searchPaths (w : World) (paths : Option (List Str)) : List Str :=
  match paths with
  | some (p :: ps) => (p :: ps).map (expandHome w)
  | _ => w.packagesPath.map (expandHome w)

/-- management.rs:58-93 `find_latest_version`. -/
def latestVersion (w : World) (name : Str) (paths : Option (List Str)) : Outcome Str :=
  match familyOf w paths name with
  | .err => .err
  | .panic => .panic
  | .ok ps =>
    if ps.isEmpty then .err
    else
      match w.srt.sort downCmp ps with
      | .err => .err
      | .panic => .panic
      | .ok l =>
        match l.head?.bind Package.version with
        | some v => .ok v.asStr
        | none => .err

/-- management.rs:110-122, 152-165: the paths and the version that `copy_package` and `move_package` are given. -/
def chosen (w : World) (name : Str) (version : Option Str) (paths : Option (List Str)) : Outcome (List Str × Str) :=
  match version with
  | some t => .ok (searchPaths w paths, t)
  | none =>
    match latestVersion w name paths with
    | .ok t => .ok (searchPaths w paths, t)
    | .err => .err
    | .panic => .panic

/-! ## package_uri_functions.rs -/

/-- `Path::ends_with` a file name, on texts that do not end in `/`. -/
def endsWith (p name : Str) : Bool := p == name || ('/' :: name).isSuffixOf p

/-- package_uri_functions.rs:152-159, 269-276, 325-332: the first package file of a directory that loads. -/
def loadIn (w : World) (dir : Str) : Option Package :=
  [c!"package.py", c!"package.json"].findSome? fun f => if w.exists_ (join dir f) then w.load (join dir f) else none

/-- package_uri_functions.rs:162-167, 260-265: the path is itself a package file. -/
def loadFile (w : World) (path : Str) : Option Package :=
  if w.exists_ path && (endsWith path c!"package.py" || endsWith path c!"package.json") then w.load path else none

/-- package_uri_functions.rs:140-170 `find_package_in_path`. -/
def findIn (w : World) (repo : Str) (parts : List Str) : Option Package :=
  (loadIn w (parts.foldl join repo)).or (loadFile w (parts.foldl join repo))

/-- package_uri_functions.rs:101-116 `get_package_by_name_and_version`. -/
def byNameVersion (w : World) (repos : List Repo) (name version : Str) : List Repo × Outcome (Option Package) :=
  match managerFind w.srt repos name with
  | (repos', .ok ps) => (repos', .ok (ps.find? fun p => match p.version with | some v => v.asStr == version | none => false))
  | (repos', .err) => (repos', .err)
  | (repos', .panic) => (repos', .panic)

/-- package_uri_functions.rs:119-137 `get_latest_package_by_name`; its comparison is that of `find_packages`. -/
def latestByName (w : World) (repos : List Repo) (name : Str) : Outcome (Option Package) :=
  match managerFind w.srt repos name with
  | (_, .ok ps) =>
    match w.srt.sort (sortedCmp true) ps with
    | .ok l => .ok l.head?
    | .err => .err
    | .panic => .panic
  | (_, .err) => .err
  | (_, .panic) => .panic

/-- What is done when a strategy does not find anything, or fails. -/
def orTry (o : Outcome (Option Package)) (next : Outcome (Option Package)) : Outcome (Option Package) :=
  match o with
  | .ok (some p) => .ok (some p)
  | .panic => .panic
  | _ => next

/-- package_uri_functions.rs:48-49: the text without the slashes in front, split at slashes; the last part first. -/
def parts (uri : Str) : List Str := (splitChar '/' (uri.dropWhile (· == '/'))).reverse

/-- package_uri_functions.rs:36-44: the URI as the path of a file. -/
def asFile (w : World) (uri : Str) : Option Package :=
  if w.isFile uri || (c!".py").isSuffixOf uri || (c!".yaml").isSuffixOf uri || (c!".json").isSuffixOf uri then w.load uri else none

/-- package_uri_functions.rs:79-97: in the place of the URI, without its first slashes. -/
def inPlace (w : World) (uri : Str) : Option Package :=
  (match parts uri with
    | c :: b :: a :: rest => if uri.contains '<' then none else findIn w (joinWith c!"/" rest.reverse) [a, b, c]
    | _ => none).or
  (match parts uri with
    | c :: b :: rest => findIn w (joinWith c!"/" rest.reverse) [b, c]
    | _ => none)

/-- package_uri_functions.rs:51-62: `.../name/version/file`. -/
def byVersion (w : World) (repos : List Repo) : List Str → List Repo × Outcome (Option Package)
  | _ :: version :: name :: _ => byNameVersion w repos name version
  | _ => (repos, .ok none)

/-- package_uri_functions.rs:64-72: `.../name/file`. -/
def byFamily (w : World) (repos : List Repo) : List Str → Outcome (Option Package)
  | _ :: name :: _ => latestByName w repos name
  | _ => .ok none

/-- package_uri_functions.rs:24-98 `get_package_from_uri`. -/
def fromUri (w : World) (uri : Str) (paths : Option (List Str)) : Outcome (Option Package) :=
  match asFile w uri with
  | some p => .ok (some p)
  | none =>
    orTry (byVersion w (manager w paths) (parts uri)).2 <|
    orTry (byFamily w (byVersion w (manager w paths) (parts uri)).1 (parts uri)) <|
    if paths.isSome then .ok none else .ok (inPlace w uri)

/-- package_uri_functions.rs:222-304 `get_package_from_handle`, for a handle that holds a text. -/
def fromHandle (w : World) (path : Str) (paths : Option (List Str)) : Option Package :=
  ((loadFile w path).or (if w.isDir path then loadIn w path else none)).or
    ((paths.getD []).findSome? fun s =>
      (if w.exists_ (join s path) then w.load (join s path) else none).or
        (if w.isDir (join s path) then loadIn w (join s path) else none))

/-- package_uri_functions.rs:311-348 `get_package_from_repository`; the order of `read_dir` is a parameter. -/
def fromRepository (w : World) (_uri repo : Str) : Option Package :=
  if !w.exists_ repo then none
  else (loadIn w repo).or (((w.listing repo).getD []).findSome? fun n =>
    if w.isDir (join repo n) then findIn w (join repo n) [] else none)

/-- package_uri_functions.rs:355-385 `get_package_family_from_repository`: the name and, if the directory can be read, the
versions. -/
def familyIn (w : World) (name repo : Str) : Option (Str × Option (List Str)) :=
  if !w.exists_ (join repo name) then none
  else some (name, (w.listing (join repo name)).map fun l => l.filter fun n => w.isDir (join (join repo name) n))

end Rez.PackageQuery
