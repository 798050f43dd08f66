import Verif.Model.Repository
import Verif.Model.RuleFilter
import Verif.Model.RexShell
/-!
# `rez-next-repository/src/filesystem.rs`: a repository that scans its directory once, and `deduplicate_packages`
-/
namespace Rez.DirRepo
open Rez Rez.PackageOrder Rez.RuleFilter

/-- A `package.py` that can be loaded, with its size in bytes. -/
structure File where
  pkg : Package
  size : Nat

/-- A directory of the repository, with its subdirectories in the order of `read_dir`.  `none` for a file is a directory
without `package.py`, `some none` one whose `package.py` cannot be loaded.  A directory that cannot be listed has no
subdirectories; plain files are left out. -/
structure Family where
  own : Option (Option File)
  versions : List (Option (Option File))

/-- What is at the path of the repository. -/
inductive Root where
  | missing
  | unreadable
  | dir (families : List Family)

/-- filesystem.rs:22 `package_cache`. -/
abbrev Cache := List (Str × List (Str × Package))

/-- repository.rs:106-121 `RepositoryStats`, without the times. -/
structure Stats where
  packages : Nat
  versions : Nat
  variants : Nat
  bytes : Nat
deriving DecidableEq

/-- filesystem.rs:18-30 `struct FileSystemRepository`. -/
structure State where
  cache : Cache
  variants : List (Str × List Str)
  stats : Stats
  initialized : Bool

/-- filesystem.rs:33-58 `new`. -/
def State.new : State := ⟨[], [], ⟨0, 0, 0, 0⟩, false⟩

/-- filesystem.rs:381-386: the key of a package in its family. -/
def key (p : Package) : Str := (p.version.map Version.asStr).getD c!"latest"

/-- filesystem.rs:389-392. -/
def addPackage (c : Cache) (p : Package) : Cache := mset c p.name (mset ((mget c p.name).getD []) (key p) p)

/-- filesystem.rs:398-409: the variants get numbers for names. -/
def addVariants (c : List (Str × List Str)) (p : Package) : List (Str × List Str) :=
  if p.variants.isEmpty then c
  else mset c (p.name ++ c!"-" ++ key p) ((List.range p.variants.length).map fun i => c!"variant_" ++ decimal i)

/-- filesystem.rs:362-437 `scan_package_directory`. -/
def addFile (s : State) (f : File) : State :=
  { s with
    cache := addPackage s.cache f.pkg
    variants := addVariants s.variants f.pkg
    stats := ⟨s.stats.packages + 1, s.stats.versions + 1, s.stats.variants + f.pkg.variants.length, s.stats.bytes + f.size⟩ }

/-- filesystem.rs:311-350: the files of one directory that are read: its own, or else those of its subdirectories. -/
def readFrom (f : Family) : List File :=
  match f.own with
  | some (some file) => [file]
  | some none => []
  | none => f.versions.filterMap fun v => v.join

/-- filesystem.rs:290-359 `scan_packages`. -/
def scan (s : State) (families : List Family) : State := (families.flatMap readFrom).foldl addFile s

/-- filesystem.rs:89-128 `initialize`; 134-136 `refresh` is the same. -/
def rescan (root : Root) (s : State) : State × Outcome Unit :=
  match root with
  | .missing => (s, .err)
  | .unreadable => ({ s with cache := [], variants := [] }, .err)
  | .dir families =>
    ({ scan { s with cache := [], variants := [], stats := ⟨0, 0, 0, 0⟩ } families with initialized := true }, .ok ())

/-- The orders in which the two maps are iterated. -/
structure Hash where
  outer : Cache → Cache
  inner : List (Str × Package) → List (Str × Package)

/-- repository.rs:43-54 `PackageSearchCriteria`. -/
structure Criteria where
  pattern : Option Str
  version : Option Str
  requirements : List PackageRequirement
  limit : Option Nat
  prerelease : Bool

/-- filesystem.rs:448-465 `matches_pattern`. -/
def matchesPattern (e : Engine) (text pattern : Str) : Bool :=
  if pattern = c!"*" then true
  else
    match e (c!"^" ++ RexShell.replaceChar '?' c!"." (RexShell.replaceChar '*' c!".*" pattern) ++ c!"$") with
    | some f => f text
    | none => text == pattern

/-- filesystem.rs:145-150. -/
def Criteria.takesName (e : Engine) (c : Criteria) (name : Str) : Bool :=
  match c.pattern with
  | some p => matchesPattern e name p
  | none => true

/-- filesystem.rs:153-161. -/
def Criteria.takesVersion (c : Criteria) (p : Package) : Bool :=
  match c.version, p.version with
  | some r, some v => r.isEmpty || v.asStr == r
  | _, _ => true

/-- filesystem.rs:163-169. -/
def Criteria.takesPrerelease (c : Criteria) (p : Package) : Bool :=
  c.prerelease || !(p.version.any Version.isPrerelease)

/-- filesystem.rs:171-181. -/
def Criteria.satisfied (c : Criteria) (p : Package) : Bool :=
  c.requirements.all fun r => !(r.name == p.name && p.version.any fun v => !r.satisfiedBy v)

/-- filesystem.rs:187-192: the limit is reached. -/
def full (limit : Option Nat) (n : Nat) : Bool :=
  match limit with
  | some l => decide (l ≤ n)
  | none => false

/-- filesystem.rs:152-193: the packages of the maps, in turn, with the results so far; packages passed over by `continue`
do not get to the test of the limit. -/
def collect (c : Criteria) : List Package → List Package → List Package
  | [], res => res
  | p :: ps, res =>
    if !c.takesVersion p || !c.takesPrerelease p then collect c ps res
    else
      let res' := if c.satisfied p then res ++ [p] else res
      if full c.limit res'.length then res' else collect c ps res'

/-- filesystem.rs:138-197 `find_packages`. -/
def find (h : Hash) (e : Engine) (s : State) (c : Criteria) : List Package :=
  collect c (((h.outer s.cache).filter fun f => c.takesName e f.1).flatMap fun f => (h.inner f.2).map Prod.snd) []

/-- filesystem.rs:199-227 `get_package`. -/
def get (h : Hash) (srt : Sorting) (s : State) (name : Str) (version : Option Version) : Outcome (Option Package) :=
  match mget s.cache name with
  | none => .ok none
  | some versions =>
    match version with
    | some v => .ok (mget versions v.asStr)
    | none => Repository.latest srt ((h.inner versions).map Prod.snd)

/-- filesystem.rs:229-243 `get_package_versions`: the versions are sorted by the comparison by which packages with a version
are sorted. -/
def versions (h : Hash) (srt : Sorting) (s : State) (name : Str) : Outcome (List Version) :=
  match mget s.cache name with
  | none => .ok []
  | some vs =>
    match srt.sort (sortedCmp true) (((h.inner vs).map Prod.snd).filter fun p => p.version.isSome) with
    | .ok l => .ok (l.filterMap Package.version)
    | .err => .err
    | .panic => .panic

/-- filesystem.rs:245-258 `get_package_variants`. -/
def variants (s : State) (name : Str) (version : Option Version) : List Str :=
  let k := match version with
    | some v => name ++ c!"-" ++ v.asStr
    | none => name
  (mget s.variants k).getD []

/-- filesystem.rs:260-275 `package_exists`. -/
def exists_ (s : State) (name : Str) (version : Option Version) : Bool :=
  match mget s.cache name with
  | none => false
  | some versions =>
    match version with
    | some v => (mget versions v.asStr).isSome
    | none => !versions.isEmpty

/-- filesystem.rs:277-282 `get_package_names`; `sort` stands for sorting strings. -/
def names (sort : List Str → List Str) (h : Hash) (s : State) : List Str := sort (mkeys (h.outer s.cache))

/-! ## `deduplicate_packages` -/

/-- repository.rs:131-143: the comparison. -/
def dedupCmp (a b : Package) : Ordering :=
  match cmpStr a.name b.name with
  | .eq => sortedCmp true a b
  | o => o

/-- repository.rs:150-153. -/
def dedupKey (p : Package) : Str :=
  match p.version with
  | some v => p.name ++ c!"-" ++ v.asStr
  | none => p.name

/-- repository.rs:146-158: the first package with each key. -/
def firsts : List Str → List Package → List Package
  | _, [] => []
  | seen, p :: ps => if dedupKey p ∈ seen then firsts seen ps else p :: firsts (dedupKey p :: seen) ps

/-- repository.rs:129-161 `deduplicate_packages`. -/
def dedup (srt : Sorting) (ps : List Package) : Outcome (List Package) :=
  match srt.sort dedupCmp ps with
  | .ok l => .ok (firsts [] l)
  | .err => .err
  | .panic => .panic

end Rez.DirRepo
