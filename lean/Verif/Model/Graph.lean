import Verif.Base.Map
import Verif.Model.Requirement
import Verif.Model.Range
/-!
# `rez-next-solver/src/graph.rs` and `conflict.rs`: the dependency graph
-/
namespace Rez

/-- rez-next-package/src/package/types.rs:8-84 `struct Package`, restricted to the fields that the modelled code
reads. -/
structure Package where
  name : Str
  version : Option Version
  requires : List Str
  variants : List (List Str)
  tools : List Str
  timestamp : Option Int

/-- graph.rs:11-20 `struct GraphNode` (the metadata map is never read and is omitted). -/
structure GraphNode where
  package : Package
  deps : List Str
  dependents : List Str

/-- graph.rs:37-42 and 154-157: the key of a package. -/
def Package.key (p : Package) : Str :=
  match p.version with
  | some v => p.name ++ c!"-" ++ v.asStr
  | none => p.name

/-- graph.rs:106-117 `struct DependencyGraph` (metadata omitted). -/
structure Graph where
  nodes : List (Str × GraphNode)
  requirements : List (Str × List PackageRequirement)
  constraints : List PackageRequirement
  exclusions : List Str

namespace Graph

/-- graph.rs:121-129 `new`; also the state left by `clear` (144-150). -/
def new : Graph := ⟨[], [], [], []⟩

/-- graph.rs:153-171 `add_package`: the new state and whether the result is `Ok`. -/
def addPackage (g : Graph) (p : Package) : Graph × Bool :=
  if p.name ∈ g.exclusions then (g, false)
  else ({ g with nodes := mset g.nodes p.key ⟨p, [], []⟩ }, true)

/-- graph.rs:174-181 `add_requirement`. -/
def addRequirement (g : Graph) (r : PackageRequirement) : Graph :=
  { g with requirements := mset g.requirements r.name ((mget g.requirements r.name).getD [] ++ [r]) }

/-- graph.rs:184-187 `add_constraint`. -/
def addConstraint (g : Graph) (r : PackageRequirement) : Graph :=
  { g with constraints := g.constraints ++ [r] }

/-- graph.rs:190-193 `add_exclusion`. -/
def addExclusion (g : Graph) (name : Str) : Graph := { g with exclusions := sadd g.exclusions name }

/-- graph.rs:39-60, 202-203: `from_node.add_dependency(to)`. -/
def linkDep (g : Graph) (fromKey toKey : Str) : Graph :=
  { g with nodes := mupd g.nodes fromKey fun n => { n with deps := sadd n.deps toKey } }
/-- graph.rs:212-213: `to_node.add_dependent(from)`. -/
def linkDependent (g : Graph) (fromKey toKey : Str) : Graph :=
  { g with nodes := mupd g.nodes toKey fun n => { n with dependents := sadd n.dependents fromKey } }

/-- graph.rs:196-222 `add_dependency_edge`: the first half is applied even when the second fails. -/
def addEdge (g : Graph) (fromKey toKey : Str) : Graph × Bool :=
  match mget g.nodes fromKey with
  | none => (g, false)
  | some _ =>
    match mget (linkDep g fromKey toKey).nodes toKey with
    | none => (linkDep g fromKey toKey, false)
    | some _ => (linkDependent (linkDep g fromKey toKey) fromKey toKey, true)

/-- graph.rs:228-232: drop `key` from the dependents of each dependency. -/
def unlinkDependents (key : Str) (nodes : List (Str × GraphNode)) (deps : List Str) : List (Str × GraphNode) :=
  deps.foldl (fun ns d => mupd ns d fun n => { n with dependents := sdel n.dependents key }) nodes
/-- graph.rs:234-238: drop `key` from the dependencies of each dependent. -/
def unlinkDeps (key : Str) (nodes : List (Str × GraphNode)) (dependents : List Str) : List (Str × GraphNode) :=
  dependents.foldl (fun ns d => mupd ns d fun n => { n with deps := sdel n.deps key }) nodes

/-- graph.rs:225-242 `remove_package` (always `Ok`). -/
def removePackage (g : Graph) (key : Str) : Graph :=
  match mget g.nodes key with
  | none => g
  | some n =>
    { g with nodes := unlinkDeps key (unlinkDependents key (mdel g.nodes key) n.deps) n.dependents }

/-- graph.rs:597-614 `requirements_compatible`. -/
def requirementsCompatible (a b : PackageRequirement) : Bool :=
  let s1 := a.spec.getD []
  let s2 := b.spec.getD []
  if s1.isEmpty || s2.isEmpty then true
  else match VersionRange.parse s1, VersionRange.parse s2 with
    | some r1, some r2 => (r1.intersect r2).isSome
    | _, _ => true

/-- graph.rs:255-261: is some pair of the list incompatible? -/
def anyIncompatible : List PackageRequirement → Bool
  | [] => false
  | r :: rs => (rs.any fun s => !requirementsCompatible r s) || anyIncompatible rs

/-- graph.rs:61-72 `struct DependencyConflict` (the severity is not used by the modelled code). -/
structure Conflict where
  name : Str
  requirements : List PackageRequirement
  sources : List Str

/-- graph.rs:316-318: does the package require the family? A requirement that does not parse is skipped; one
on which the parser panics is treated as skipped too (see C77). -/
def requiresFamily (p : Package) (name : Str) : Bool :=
  p.requires.any fun s => match PackageRequirement.parse s with
    | .ok r => r.name == name
    | _ => false

/-- graph.rs:309-324 `find_requirement_sources`. -/
def requirementSources (g : Graph) (name : Str) : List Str :=
  (g.nodes.filter fun kn => requiresFamily kn.2.package name).map fun kn => kn.2.package.key

/-- graph.rs:245-277 `detect_conflicts`. -/
def detectConflicts (g : Graph) : List Conflict :=
  (g.requirements.filter fun p => decide (p.2.length > 1) && anyIncompatible p.2).map fun p =>
    ⟨p.1, p.2, g.requirementSources p.1⟩

/-- graph.rs:84-95 `struct ConflictResolution`. -/
structure Resolution where
  name : Str
  selected : Option Version
  modified : List Str

/-- graph.rs:327-350 `apply_conflict_resolution`. -/
def applyResolution (g : Graph) (r : Resolution) : Graph :=
  let g1 := r.modified.foldl removePackage g
  match mget g1.requirements r.name, r.selected with
  | some _, some v => { g1 with requirements := mset g1.requirements r.name [⟨r.name, some v.asStr, false, false⟩] }
  | _, _ => g1

/-- The versions that `conflict.rs:76-79` can read from the requirements. -/
def specVersions (c : Conflict) : List Version :=
  c.requirements.filterMap fun r => r.spec.bind Version.parse

/-- conflict.rs:68-94 `resolve_latest_wins`. -/
def latestWins (c : Conflict) : Resolution :=
  ⟨c.name, (specVersions c).foldl (fun acc v => match acc with
    | none => some v
    | some cur => if v.gt cur then some v else some cur) none, c.sources⟩

/-- conflict.rs:97-122 `resolve_earliest_wins`. -/
def earliestWins (c : Conflict) : Resolution :=
  ⟨c.name, (specVersions c).foldl (fun acc v => match acc with
    | none => some v
    | some cur => if v.lt cur then some v else some cur) none, c.sources⟩

/-- conflict.rs:139-146: do all requirements have this very text? -/
def sameSpec (c : Conflict) (spec : Str) : Bool :=
  c.requirements.all fun o => match o.spec with
    | some t => t == spec || t.isEmpty
    | none => true

/-- conflict.rs:125-166 `resolve_find_compatible`. -/
def findCompatible (c : Conflict) : Resolution :=
  match c.requirements.findSome? fun r => r.spec.bind fun s =>
      (Version.parse s).bind fun v => if sameSpec c s then some v else none with
  | some v => ⟨c.name, some v, c.sources⟩
  | none => latestWins c

/-! ## Topological sort -/

/-- `*degree -= 1` on a `usize` in a release build: wraps at zero. -/
def wrapDec (n : Nat) : Nat := (n + (2 ^ 64 - 1)) % 2 ^ 64

/-- graph.rs:390-396: one dependency of the node just taken from the queue. -/
def relaxOne (s : List (Str × Nat) × List Str) (d : Str) : List (Str × Nat) × List Str :=
  match mget s.1 d with
  | none => s
  | some n => (mset s.1 d (wrapDec n), if wrapDec n = 0 then s.2 ++ [d] else s.2)

/-- graph.rs:384-399: the loop; `none` is "not finished within the fuel". -/
def topoLoop (g : Graph) : Nat → List (Str × Nat) → List Str → List Str → Option (List Str)
  | _, _, [], result => some result
  | 0, _, _ :: _, _ => none
  | fuel + 1, deg, k :: queue, result =>
    let s := match mget g.nodes k with
      | some n => n.deps.foldl relaxOne (deg, queue)
      | none => (deg, queue)
    topoLoop g fuel s.1 s.2 (result ++ [k])

/-- graph.rs:373-375: the in-degrees. -/
def inDegrees (g : Graph) : List (Str × Nat) := g.nodes.map fun kn => (kn.1, kn.2.dependents.length)

/-- graph.rs:367-409 `topological_sort`.  `order` is the order in which the `in_degree` map is iterated.
`none`: not finished within the fuel; `some none`: `Err`; `some (some l)`: `Ok(l)`. -/
def topologicalSort (g : Graph) (order : List Str) : Option (Option (List Str)) :=
  match topoLoop g (g.nodes.length + 1) g.inDegrees (order.filter fun k => mget g.inDegrees k == some 0) [] with
  | none => none
  | some result => some (if result.length = g.nodes.length then some result else none)

/-- graph.rs:353-364 `get_resolved_packages`. -/
def resolvedPackages (g : Graph) (order : List Str) : Option (Option (List Package)) :=
  (g.topologicalSort order).map fun r => r.map fun keys => keys.filterMap fun k => (mget g.nodes k).map (·.package)

/-! ## Reachability -/

/-- The dependencies of a key; a key without a node has none (graph.rs:472). -/
def depsOf (g : Graph) (k : Str) : List Str :=
  match mget g.nodes k with
  | some n => n.deps
  | none => []

/-- graph.rs:471-478 `dfs_reachable`.  `fuel` bounds the depth of the recursion. -/
def dfsReachable (g : Graph) : Nat → Str → List Str → List Str
  | 0, _, visited => visited
  | fuel + 1, k, visited =>
    (g.depsOf k).foldl (fun v d => if d ∈ v then v else dfsReachable g fuel d (d :: v)) visited

/-- All keys that occur as a node or a dependency: a bound for the depth of a search. -/
def allKeys (g : Graph) : List Str := mkeys g.nodes ++ g.nodes.flatMap fun kn => kn.2.deps

/-- graph.rs:452-468 `accessibility`, one entry; the sorting is left out (the entry is a set). -/
def accessibleFrom (g : Graph) (k : Str) : List Str :=
  sadd (g.dfsReachable (g.allKeys.length + 1) k []) k

/-- graph.rs:452-468 `accessibility`. -/
def accessibility (g : Graph) : List (Str × List Str) := (mkeys g.nodes).map fun k => (k, g.accessibleFrom k)

/-! ## Cycles -/

/-- graph.rs:98-102 `enum Color`. -/
inductive Color where
  | gray | black
deriving DecidableEq

/-- The two maps of graph.rs:489-490. -/
structure ColorState where
  color : List (Str × Color)
  parent : List (Str × Str)

/-- graph.rs:520-527: from `current` back to `target` along the parents; the outer `none` is the panic of
`unwrap` (or the fuel). -/
def walkBack (parent : List (Str × Str)) (target : Str) : Nat → Str → List Str → Option (List Str)
  | 0, _, _ => none
  | fuel + 1, current, cycle =>
    if current = target then some (cycle ++ [current])
    else match mget parent current with
      | none => none
      | some p => walkBack parent target fuel p (cycle ++ [current])

/-- Result of a search: no cycle and the new state, a cycle, or a panic. -/
inductive CycleResult where
  | clear (s : ColorState)
  | found (cycle : List Str)
  | panic

/-- graph.rs:512-538: one dependency `d` of `k`; `rec` is the recursive call.  A result other than `clear` ends
the loop. -/
def cycleStep (bound : Nat) (k : Str) (rec : Str → ColorState → CycleResult) (r : CycleResult) (d : Str) :
    CycleResult :=
  match r with
  | .clear s =>
    match mget s.color d with
    | some .gray =>
      match walkBack s.parent d bound k [] with
      | none => .panic
      | some c => .found c.reverse
    | none => rec d { s with parent := mset s.parent d k }
    | some .black => .clear s
  | r => r

/-- graph.rs:541: colour the node black when the loop ended without a cycle. -/
def finishNode (k : Str) : CycleResult → CycleResult
  | .clear s => .clear { s with color := mset s.color k .black }
  | r => r

/-- graph.rs:503-543 `dfs_find_cycle`, with the recursion depth bounded by `fuel`. -/
def dfsFindCycle (g : Graph) (bound : Nat) : Nat → Str → ColorState → CycleResult
  | 0, _, _ => .panic
  | fuel + 1, k, s =>
    finishNode k ((g.depsOf k).foldl (cycleStep bound k (dfsFindCycle g bound fuel))
      (.clear { s with color := mset s.color k .gray }))

/-- graph.rs:488-500 `find_cycle`: over the nodes in iteration order. -/
def findCycleLoop (g : Graph) (bound : Nat) : List Str → ColorState → CycleResult
  | [], s => .clear s
  | k :: ks, s =>
    match mget s.color k with
    | some _ => findCycleLoop g bound ks s
    | none =>
      match dfsFindCycle g bound bound k s with
      | .clear s => findCycleLoop g bound ks s
      | r => r

/-- graph.rs:488-500 `find_cycle`. -/
def findCycle (g : Graph) : CycleResult :=
  findCycleLoop g (g.allKeys.length + 1) (mkeys g.nodes) ⟨[], []⟩

/-! ## Depth -/

/-- graph.rs:552-569 `calculate_depth_recursive`: the depth and the visited set. -/
def depthRec (g : Graph) : Nat → Str → List Str → Nat × List Str
  | 0, _, visited => (0, visited)
  | fuel + 1, k, visited =>
    if k ∈ visited then (0, visited)
    else match mget g.nodes k with
      | none => (0, k :: visited)
      | some n =>
        let r := n.deps.foldl (fun acc d =>
          let q := depthRec g fuel d acc.2
          (max acc.1 q.1, q.2)) (0, k :: visited)
        (r.1 + 1, r.2)

/-- graph.rs:546-549 `calculate_node_depth`. -/
def nodeDepth (g : Graph) (k : Str) : Nat := (g.depthRec (g.allKeys.length + 1) k []).1

end Graph
end Rez
