import Verif.Model.Repository
import Verif.Model.Range
import Mathlib.Data.List.Sort
/-!
# Searching: /repo/crates/rez-next-search/src and /repo/crates/rez-next-repository/src/package_search.rs
-/
namespace Rez.Search
open Rez Rez.Repository Rez.PackageOrder

/-- Sorting of strings, as `Vec<String>::sort` does. -/
def sortStr (l : List Str) : List Str := l.insertionSort fun a b => cmpStr a b ≠ .gt

/-! ## rez-next-search -/

/-- filter.rs:5-15 `enum FilterMode`. -/
inductive Mode where
  | exact | prefixed | contains | regex
deriving DecidableEq

/-- filter.rs:19-30 `struct SearchFilter`; `all_repos` is never read. -/
structure Filter where
  pattern : Str
  mode : Mode
  range : Option Str
  limit : Nat

/-- filter.rs:59-73 `matches_name`; `lower` stands for `to_lowercase`, `regex` for compiling and running a regex. -/
def Filter.matches (lower : Str → Str) (regex : Str → Option (Str → Bool)) (f : Filter) (name : Str) : Bool :=
  if f.pattern.isEmpty then true
  else match f.mode with
    | .exact => lower name == lower f.pattern
    | .prefixed => (lower f.pattern).isPrefixOf (lower name)
    | .contains => containsStr (lower name) (lower f.pattern)
    | .regex =>
      match regex f.pattern with
      | some run => run name
      | none => false

/-- searcher.rs:113-120: the package is left out for its version. -/
def Filter.outside (f : Filter) (p : Package) : Bool :=
  match f.range, p.version with
  | some text, some v =>
    match VersionRange.parse text with
    | some r => !r.contains v
    | none => false
  | _, _ => false

/-- searcher.rs:122-127: the version text of a result. -/
def versionText (p : Package) : Str :=
  match p.version with
  | some v => v.asStr
  | none => c!"unknown"

/-- searcher.rs:107-132: the families with their version texts. -/
def families (keep : Package → Bool) : List Package → List (Str × List Str) → List (Str × List Str)
  | [], m => m
  | p :: ps, m =>
    if keep p then families keep ps (mset m p.name ((mget m p.name).getD [] ++ [versionText p]))
    else families keep ps m

/-- `Vec::dedup`: equal neighbours become one. -/
def dedup : List Str → List Str
  | [] => []
  | [a] => [a]
  | a :: b :: rest => if a = b then dedup (b :: rest) else a :: dedup (b :: rest)

/-- result.rs:7-16 `struct SearchResult`. -/
structure Result where
  name : Str
  versions : List Str
  repo : Str
  latest : Option Str
deriving DecidableEq

/-- result.rs:19-27 `new`. -/
def Result.new (name : Str) (versions : List Str) (repo : Str) : Result := ⟨name, versions, repo, versions.getLast?⟩

/-- searcher.rs:136-146: the result for one family. -/
def toResult (latestOnly : Bool) (repo : Str) (e : Str × List Str) : Result :=
  let versions := dedup (sortStr e.2)
  if latestOnly then Result.new e.1 versions.getLast?.toList repo else Result.new e.1 versions repo

/-- searcher.rs:136-153: the results of one repository; the flag says that the limit was reached. -/
def addAll (limit : Nat) (make : Str × List Str → Result) : List (Str × List Str) → List Result → List Result × Bool
  | [], acc => (acc, false)
  | e :: es, acc =>
    let acc := acc ++ [make e]
    if limit > 0 && acc.length ≥ limit then (acc, true) else addAll limit make es acc

/-- What the search is given: the filter, the scope, and what other code decides. -/
structure Setup where
  lower : Str → Str
  regex : Str → Option (Str → Bool)
  srt : Sorting
  iter : List (Str × List Str) → List (Str × List Str)
  filter : Filter
  latestOnly : Bool

/-- searcher.rs:109-120: does the package pass the filter? -/
def Setup.keep (u : Setup) (p : Package) : Bool := u.filter.matches u.lower u.regex p.name && !u.filter.outside p

/-- searcher.rs:107-153: what the packages of one repository add to the results. -/
def Setup.report (u : Setup) (repo : Str) (ps : List Package) (acc : List Result) : List Result × Bool :=
  addAll u.filter.limit (toResult u.latestOnly repo) (u.iter (families u.keep ps [])) acc

/-- searcher.rs:86-154: the loop over the repositories, given as path and directory (`none` if the path does not exist).
Each has a new manager with a new repository.  Reaching the limit returns at once, unsorted. -/
def Setup.loop (u : Setup) : List (Str × Option Root) → List Result → Outcome (List Result × Bool)
  | [], acc => .ok (acc, false)
  | (_, none) :: rest, acc => u.loop rest acc
  | (path, some root) :: rest, acc =>
    match (managerFind u.srt [(root, State.new)] []).2 with
    | .err => u.loop rest acc
    | .panic => .panic
    | .ok ps =>
      match u.report path ps acc with
      | (acc', true) => .ok (acc', true)
      | (acc', false) => u.loop rest acc'

/-- searcher.rs:73-159 `search_async`. -/
def Setup.search (u : Setup) (repos : List (Str × Option Root)) : Outcome (List Result) :=
  match u.loop repos [] with
  | .ok (acc, true) => .ok acc
  | .ok (acc, false) => .ok (acc.insertionSort fun a b => cmpStr a.name b.name ≠ .gt)
  | .err => .err
  | .panic => .panic

/-! ## package_search.rs -/

/-- What `package_search.rs` reads of a package. -/
structure Descr where
  requires : List Str
  buildRequires : List Str
  pluginFor : List Str

/-- A family directory: its name and, in the order of `read_dir`, its version directories with the package if it can be
loaded. -/
structure Family where
  name : Str
  versions : List (Option Descr)

/-- package_search.rs:107-132, 276-310: only the first version directory is looked at. -/
def firstInfo (f : Family) : Option Descr := f.versions.head?.bind id

/-- package_search.rs:270-313 `package_depends_on`. -/
def dependsOn (target : Str) (build : Bool) (f : Family) : Bool :=
  match firstInfo f with
  | some i => i.requires.any (fun r => containsStr r target) || (build && i.buildRequires.any fun r => containsStr r target)
  | none => false

/-- package_search.rs:106-133 `is_plugin_for`. -/
def isPluginFor (target : Str) (f : Family) : Bool :=
  match firstInfo f with
  | some i => i.pluginFor.any fun p => p == target
  | none => false

/-- package_search.rs:68-99, 230-264: the names of the families that pass, each once. -/
def gather (pass : Family → Bool) : List Family → List Str → List Str
  | [], acc => acc
  | f :: fs, acc =>
    if acc.contains f.name then gather pass fs acc
    else if pass f then gather pass fs (acc ++ [f.name])
    else gather pass fs acc

/-- package_search.rs:65-102 `get_plugins`; a path that cannot be read is `none`. -/
def plugins (paths : List (Option (List Family))) (target : Str) : List Str :=
  sortStr (gather (isPluginFor target) (paths.flatMap fun p => p.getD []) [])

/-- package_search.rs:223-267 `find_dependents`. -/
def dependents (paths : List (Option (List Family))) (build : Bool) (target : Str) : List Str :=
  sortStr (gather (dependsOn target build) (paths.flatMap fun p => p.getD []) [])

/-- What the loops of `get_reverse_dependency_tree` change. -/
structure Bfs where
  visited : List Str
  next : List Str
  graph : List (Str × List Str)

/-- package_search.rs:198-207: one dependent. -/
def visit (parent : Str) (b : Bfs) (d : Str) : Bfs :=
  if b.visited.contains d then b
  else ⟨b.visited ++ [d], b.next ++ [d], mset b.graph parent ((mget b.graph parent).getD [] ++ [d])⟩

/-- package_search.rs:194-208: one layer. -/
def expand (deps : Str → List Str) (b : Bfs) (layer : List Str) : Bfs :=
  layer.foldl (fun b p => (deps p).foldl (visit p) b) b

/-- package_search.rs:191-216: the loop; `none` if the fuel runs out.  `depth` counts down. -/
def bfs (deps : Str → List Str) : Nat → Option Nat → List Str → List Str → List (List Str) → List (Str × List Str) →
    Option (List (List Str) × List (Str × List Str))
  | fuel, depth, layer, visited, layers, graph =>
    if layer.isEmpty || depth == some 0 then some (layers, graph)
    else match fuel with
      | 0 => none
      | fuel + 1 =>
        let b := expand deps ⟨visited, [], graph⟩ layer
        bfs deps fuel (depth.map (· - 1)) b.next b.visited (if b.next.isEmpty then layers else layers ++ [b.next]) b.graph

/-- package_search.rs:168-219 `get_reverse_dependency_tree`. -/
def reverseTree (deps : Str → List Str) (fuel : Nat) (depth : Option Nat) (name : Str) :
    Option (List (List Str) × List (Str × List Str)) :=
  bfs deps fuel depth [name] [name] [[name]] []

/-- package_search.rs:316-324 `get_default_package_paths`. -/
def defaultPaths (var : Option Str) : List Str :=
  match var with
  | some text => ((splitChar ';' text).map trim).filter fun s => !s.isEmpty
  | none => [c!"./packages", c!"~/.rez/packages"]

end Rez.Search
