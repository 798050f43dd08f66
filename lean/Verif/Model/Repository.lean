import Verif.Model.PackageOrder
import Verif.Base.Map
/-!
# `rez-next-repository/src/simple_repository.rs`: file based repositories and their manager
-/
namespace Rez.Repository
open Rez Rez.PackageOrder

/-- What a scan meets in a directory, in the order of `read_dir`: a directory with a package descriptor (and what loading
the first of the known descriptors gives), or another directory.  Plain files are passed over by the code and left out. -/
inductive Tree where
  | package (loaded : Except Str Package)
  | folder (readable : Bool) (children : List (Str × Tree))

/-- The directory of a repository, if it can be read. -/
abbrev Root := Option (List (Str × Tree))

/-- simple_repository.rs:41-44: the packages and the load errors, by family. -/
structure State where
  cache : List (Str × List Package)
  errors : List (Str × Str)

/-- simple_repository.rs:52-59 `new`. -/
def State.new : State := ⟨[], []⟩

/-- simple_repository.rs:100-105. -/
def push (s : State) (p : Package) : State :=
  { s with cache := mset s.cache p.name ((mget s.cache p.name).getD [] ++ [p]) }

/-- simple_repository.rs:107-117; the text of the error is a parameter of the tree. -/
def note (s : State) (family error : Str) : State := { s with errors := mset s.errors family error }

mutual
/-- simple_repository.rs:87-122: one entry below the family directory `family`.  The flag is false if a directory could
not be read; the scan stops there. -/
def scanTree (family : Str) : Tree → State → State × Bool
  | .package (.ok p), s => (push s p, true)
  | .package (.error e), s => (note s family e, true)
  | .folder true children, s => scanBelow family children s
  | .folder false _, s => (s, false)
/-- simple_repository.rs:84-125: the entries of a directory below `family`. -/
def scanBelow (family : Str) : List (Str × Tree) → State → State × Bool
  | [], s => (s, true)
  | (_, t) :: rest, s =>
    match scanTree family t s with
    | (s', true) => scanBelow family rest s'
    | (s', false) => (s', false)
end

/-- simple_repository.rs:84-125 for the root: the family is the name of the entry itself. -/
def scanRoot : List (Str × Tree) → State → State × Bool
  | [], s => (s, true)
  | (n, t) :: rest, s =>
    match scanTree n t s with
    | (s', true) => scanRoot rest s'
    | (s', false) => (s', false)

/-- simple_repository.rs:63-73 `scan`: the maps are cleared first; what was scanned before an error stays. -/
def scan (root : Root) : State × Bool :=
  match root with
  | some entries => scanRoot entries State.new
  | none => (State.new, false)

/-- simple_repository.rs:143-164 `find_packages`. -/
def find (root : Root) (s : State) (name : Str) : State × Outcome (List Package) :=
  match mget s.cache name with
  | some ps => (s, .ok ps)
  | none =>
    match mget s.errors name with
    | some _ => (s, .err)
    | none =>
      match scan root with
      | (s', false) => (s', .err)
      | (s', true) =>
        match mget s'.errors name with
        | some _ => (s', .err)
        | none => (s', .ok ((mget s'.cache name).getD []))

/-- simple_repository.rs:173-183: the first package with an equal version. -/
def withVersion (ps : List Package) (v : Version) : Option Package :=
  ps.find? fun p => match p.version with
    | some w => w.eqv v
    | none => false

/-- simple_repository.rs:185-196: the first package in descending order. -/
def latest (srt : Sorting) (ps : List Package) : Outcome (Option Package) :=
  match srt.sort (sortedCmp true) ps with
  | .ok l => .ok l.head?
  | .err => .err
  | .panic => .panic

/-- simple_repository.rs:173-199: the choice among the packages of a family. -/
def choose (srt : Sorting) (ps : List Package) (version : Option Str) : Outcome (Option Package) :=
  match version with
  | none => latest srt ps
  | some text =>
    match Version.parse text with
    | none => .err
    | some v => .ok (withVersion ps v)

/-- simple_repository.rs:166-199 `get_package`. -/
def get (srt : Sorting) (root : Root) (s : State) (name : Str) (version : Option Str) : State × Outcome (Option Package) :=
  match find root s name with
  | (s', .ok ps) => (s', choose srt ps version)
  | (s', .err) => (s', .err)
  | (s', .panic) => (s', .panic)

/-- simple_repository.rs:201-209 `list_packages`; `sort` stands for sorting strings. -/
def list (sort : List Str → List Str) (root : Root) (_ : State) : State × Outcome (List Str) :=
  match scan root with
  | (s', true) => (s', .ok (sort (mkeys s'.cache)))
  | (s', false) => (s', .err)

/-! ## The manager -/

/-- One repository of a manager: its directory and its memory. -/
abbrev Repo := Root × State

/-- simple_repository.rs:243-246: the packages of all repositories in turn; an error ends the loop. -/
def findEach : List Repo → Str → List Repo × Outcome (List Package)
  | [], _ => ([], .ok [])
  | (root, s) :: rest, name =>
    match find root s name with
    | (s', .ok ps) =>
      match findEach rest name with
      | (rest', .ok qs) => ((root, s') :: rest', .ok (ps ++ qs))
      | (rest', .err) => ((root, s') :: rest', .err)
      | (rest', .panic) => ((root, s') :: rest', .panic)
    | (s', .err) => ((root, s') :: rest, .err)
    | (s', .panic) => ((root, s') :: rest, .panic)

/-- simple_repository.rs:240-257 `RepositoryManager::find_packages`. -/
def managerFind (srt : Sorting) (repos : List Repo) (name : Str) : List Repo × Outcome (List Package) :=
  match findEach repos name with
  | (repos', .ok ps) => (repos', srt.sort (sortedCmp true) ps)
  | r => r

/-- simple_repository.rs:260-271 `RepositoryManager::get_package`. -/
def managerGet (srt : Sorting) : List Repo → Str → Option Str → List Repo × Outcome (Option Package)
  | [], _, _ => ([], .ok none)
  | (root, s) :: rest, name, version =>
    match get srt root s name version with
    | (s', .ok (some p)) => ((root, s') :: rest, .ok (some p))
    | (s', .ok none) =>
      match managerGet srt rest name version with
      | (rest', r) => ((root, s') :: rest', r)
    | (s', .err) => ((root, s') :: rest, .err)
    | (s', .panic) => ((root, s') :: rest, .panic)

end Rez.Repository
