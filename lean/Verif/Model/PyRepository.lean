import Verif.Model.PyRelease
import Verif.Model.Search
/-!
# Repositories from Python: `rez-next-python/src/repository_bindings.rs`

Parameters: what a path holds, and what a path of the settings stands for.  Left out: the texts of the errors.
-/
namespace Rez.PyRepository
open Rez Rez.Repository Rez.PackageOrder

/-- repository_bindings.rs:36-52 `new`: the paths; those of the settings only if none are given. -/
def pathsOf (configured : List Str) (home : Str → Str) (given : Option (List Str)) : List Str :=
  given.getD (configured.map home)

/-- repository_bindings.rs:18-29 `build_repo_manager`: the directories that are there; `disk` is what a path holds, `none` if there is
nothing. -/
def roots (disk : Str → Option Root) (paths : List Str) : List Root := paths.filterMap disk

/-- repository_bindings.rs:59-71 `find_packages`. -/
def findPackages (srt : Sorting) (rs : List Root) (name : Str) : Outcome (List Package) :=
  (managerFind srt (PyRelease.newRepos rs) name).2

/-- repository_bindings.rs:89-104: the comparison; the texts of the versions are parsed again. -/
def iterCmp (a b : Package) : Ordering :=
  match a.version.bind (fun v => Version.parse v.asStr), b.version.bind (fun v => Version.parse v.asStr) with
  | some u, some v => v.cmp u
  | some _, none => .lt
  | none, some _ => .gt
  | none, none => .eq

/-- repository_bindings.rs:77-107 `iter_packages`. -/
def iterPackages (srt : Sorting) (rs : List Root) (name : Str) : Outcome (List Package) :=
  match findPackages srt rs name with
  | .ok ps => srt.sort iterCmp ps
  | .err => .err
  | .panic => .panic

/-- repository_bindings.rs:110-122 `get_latest_package`. -/
def latest (srt : Sorting) (rs : List Root) (name : Str) : Outcome (Option Package) :=
  (managerGet srt (PyRelease.newRepos rs) name none).2

/-- simple_repository.rs:274-280: the names in all repositories, each once. -/
def listEach : List Root → List Str → Outcome (List Str)
  | [], acc => .ok acc
  | r :: rs, acc =>
    match (Repository.list Search.sortStr r State.new).2 with
    | .ok ns => listEach rs (ns.foldl sadd acc)
    | .err => .err
    | .panic => .panic

/-- repository_bindings.rs:125-139 `get_package_family_names`, simple_repository.rs:273-285 `list_packages`. -/
def familyNames (rs : List Root) : Outcome (List Str) :=
  match listEach rs [] with
  | .ok ns => .ok (Search.sortStr ns)
  | .err => .err
  | .panic => .panic

end Rez.PyRepository
