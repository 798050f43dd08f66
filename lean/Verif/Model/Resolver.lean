import Verif.Model.Graph
/-!
# `rez-next-solver/src/dependency_resolver.rs` and `resolution_state.rs`: the resolver
-/
namespace Rez

/-! ## Equality of requirements (`#[derive(PartialEq)]`, requirement/types.rs:9 and 60)

Versions are compared with `compare_rez` (rez-next-version/src/version.rs, `impl PartialEq for Version`). -/

/-- Equality of two lists of versions. -/
def eqvVersions : List Version → List Version → Bool
  | [], [] => true
  | a :: as, b :: bs => a.eqv b && eqvVersions as bs
  | _, _ => false

mutual
/-- Derived equality of `VersionConstraint` (requirement/types.rs:60). -/
def VersionConstraint.eqv : VersionConstraint → VersionConstraint → Bool
  | .exact a, .exact b => a.eqv b
  | .greaterThan a, .greaterThan b => a.eqv b
  | .greaterThanOrEqual a, .greaterThanOrEqual b => a.eqv b
  | .lessThan a, .lessThan b => a.eqv b
  | .lessThanOrEqual a, .lessThanOrEqual b => a.eqv b
  | .compatible a, .compatible b => a.eqv b
  | .range a b, .range c d => a.eqv c && b.eqv d
  | .multiple as, .multiple bs => VersionConstraint.eqvAll as bs
  | .alternative as, .alternative bs => VersionConstraint.eqvAll as bs
  | .exclude as, .exclude bs => eqvVersions as bs
  | .wildcard a, .wildcard b => a == b
  | .prefixOf a, .prefixOf b => a.eqv b
  | .any, .any => true
  | _, _ => false
/-- Derived equality of lists of constraints. -/
def VersionConstraint.eqvAll : List VersionConstraint → List VersionConstraint → Bool
  | [], [] => true
  | a :: as, b :: bs => a.eqv b && VersionConstraint.eqvAll as bs
  | _, _ => false
end

/-- Equality of optional constraints. -/
def eqvConstraint : Option VersionConstraint → Option VersionConstraint → Bool
  | none, none => true
  | some a, some b => a.eqv b
  | _, _ => false

/-- Derived equality of `Requirement` (requirement/types.rs:9). -/
def Requirement.eqv (a b : Requirement) : Bool :=
  a.name == b.name && eqvConstraint a.constraint b.constraint && a.weak == b.weak && a.conflict == b.conflict &&
    decide (a.platforms = b.platforms) && decide (a.envs = b.envs) && decide (a.ns = b.ns)

/-- Equality of optional versions (`candidate.version == current.package.version`). -/
def eqvVersion : Option Version → Option Version → Bool
  | none, none => true
  | some a, some b => a.eqv b
  | _, _ => false

/-- `Vec::contains` on requirements. -/
def hasReq (l : List Requirement) (r : Requirement) : Bool := l.any fun e => e.eqv r

/-! ## The surroundings of the resolver -/

/-- What the resolver is given: its configuration (solver.rs `SolverConfig`, the three fields read by the
resolver), the repositories, and the choices of the standard library that the language leaves open. -/
structure Env where
  strict : Bool
  allowPrerelease : Bool
  preferLatest : Bool
  /-- `repo name` is what `RepositoryManager::find_packages(name)` answers the first time it is asked (`none` is an
  error, which ends the resolve); dependency_resolver.rs:394-396 and 405-406 repeat that answer. -/
  repo : Str → Option (List Package)
  /-- The order in which a `HashMap` is iterated, at each iteration of the main loop. -/
  order : Nat → List (Str × List Requirement) → List (Str × List Requirement)
  /-- The order in which the keys of the dependency graph are iterated. -/
  keyOrder : List Str → List Str
  /-- `slice::sort_by`. -/
  sort : (Package → Package → Ordering) → List Package → List Package
  /-- Membership in a `HashSet<Version>`. -/
  inSet : List Version → Version → Bool

/-- dependency_resolver.rs:41-57 `struct ResolvedPackageInfo`. -/
structure Info where
  package : Package
  variantIndex : Option Nat
  requested : Bool
  requiredBy : List Str
  satisfying : Option Requirement

/-- dependency_resolver.rs:84-95 `struct ResolutionConflict` as the resolver fills it in. -/
structure RConflict where
  name : Str
  requirement : Requirement

/-- resolution_state.rs:12-53 `struct ResolutionState`; the statistics and the never-read
`satisfied_requirements` are omitted. -/
structure RState where
  original : List Requirement
  queue : List Requirement
  resolved : List Info
  failed : List Requirement
  conflicts : List RConflict
  conflictReqs : List Requirement
  active : List (Str × List Requirement)
  pkgReqs : List (Str × List Requirement)
  pkgConflicts : List (Str × List Requirement)
  rejected : List (Str × List Version)
  depGraph : List (Str × List Str)

namespace RState

/-- resolution_state.rs:231-239 `insert_active_requirement`. -/
def insertActive (m : List (Str × List Requirement)) (r : Requirement) : List (Str × List Requirement) :=
  let l := (mget m r.name).getD []
  mset m r.name (if hasReq l r then l else l ++ [r])

/-- resolution_state.rs:87-92 `record_dependency`. -/
def recordDependency (m : List (Str × List Str)) (src tgt : Str) : List (Str × List Str) :=
  mset m src ((mget m src).getD [] ++ [tgt])

/-- resolution_state.rs:224-228. -/
def insertConflict (l : List Requirement) (r : Requirement) : List Requirement := if hasReq l r then l else l ++ [r]

/-- resolution_state.rs:202-229 `rebuild_constraints`, in iteration `t` of the main loop. -/
def rebuild (env : Env) (t : Nat) (s : RState) : RState :=
  let ps := env.order (2 * t) s.pkgReqs
  { s with
    active := (ps.flatMap Prod.snd).foldl insertActive ((s.original.filter fun r => !r.conflict).foldl insertActive [])
    depGraph := (ps.flatMap fun p => p.2.map fun r => (p.1, r.name)).foldl (fun m e => recordDependency m e.1 e.2) []
    conflictReqs := ((env.order (2 * t + 1) s.pkgConflicts).flatMap Prod.snd).foldl insertConflict
      (s.original.filter fun r => r.conflict) }

/-- resolution_state.rs:57-84 `new`. -/
def new (env : Env) (reqs : List Requirement) : RState :=
  rebuild env 0 ⟨reqs, reqs.filter fun r => !r.conflict, [], [], [], [], [], [], [], [], []⟩

/-- resolution_state.rs:179-183 `is_requirement_active`. -/
def isActive (s : RState) (r : Requirement) : Bool := hasReq ((mget s.active r.name).getD []) r

/-- resolution_state.rs:143-150 `get_next_requirement`. -/
def getNext (s : RState) : Option (Requirement × RState) :=
  match s.queue.dropWhile fun r => !s.isActive r with
  | [] => none
  | r :: q => some (r, { s with queue := q })

/-- resolution_state.rs:270-274: the names a step of the search adds to `reachable` and `pending`. -/
def reachStep (s : List Str × List Str) (n : Str) : List Str × List Str :=
  if n ∈ s.1 then s else (n :: s.1, n :: s.2)

/-- resolution_state.rs:267-276: the search; the head of `pending` is the top of the stack. -/
def reachLoop (pkgReqs : List (Str × List Requirement)) : Nat → List Str → List Str → List Str
  | 0, reach, _ => reach
  | _ + 1, reach, [] => reach
  | fuel + 1, reach, n :: pending =>
    let q := ((((mget pkgReqs n).getD []).filter fun r => !r.weak).map fun r => r.name).foldl reachStep (reach, pending)
    reachLoop pkgReqs fuel q.1 q.2

/-- resolution_state.rs:259-264: the names the request itself needs. -/
def roots (s : RState) : List Str :=
  (((s.original.filter fun r => !r.weak && !r.conflict).map fun r => r.name).foldl reachStep ([], [])).1

/-- resolution_state.rs:258-276: all names needed.  Each name is pushed at most once, so the number of names
bounds the number of iterations.  The order in which the roots are taken does not matter. -/
def reachable (s : RState) : List Str :=
  reachLoop s.pkgReqs (s.original.length + (s.pkgReqs.flatMap Prod.snd).length + 1) s.roots s.roots

/-- resolution_state.rs:258-283 `prune_orphaned_packages`. -/
def prune (s : RState) : RState :=
  let reach := s.reachable
  { s with
    resolved := s.resolved.filter fun i => decide (i.package.name ∈ reach)
    pkgReqs := s.pkgReqs.filter fun p => decide (p.1 ∈ reach)
    pkgConflicts := s.pkgConflicts.filter fun p => decide (p.1 ∈ reach) }

/-- resolution_state.rs:241-256 `requeue_active_requirements`. -/
def requeue (s : RState) : RState :=
  { s with queue := (s.original.filter fun r => !r.conflict) ++
      s.resolved.flatMap fun i => (mget s.pkgReqs i.package.name).getD [] }

/-- resolution_state.rs:171-176: keep the failures that are still required. -/
def refilterFailed (s : RState) : RState := { s with failed := s.failed.filter s.isActive }

/-- resolution_state.rs:157-177 `set_package_requirements`. -/
def setRequirements (env : Env) (t : Nat) (s : RState) (name : Str) (deps conflicts : List Requirement) : RState :=
  let s1 := { s with pkgReqs := mset s.pkgReqs name deps, pkgConflicts := mset s.pkgConflicts name conflicts }
  refilterFailed (requeue (rebuild env t (prune s1)))

/-- resolution_state.rs:185-192 `reject_package`. -/
def reject (env : Env) (s : RState) (p : Package) : RState :=
  match p.version with
  | none => s
  | some v =>
    let old := (mget s.rejected p.name).getD []
    { s with rejected := mset s.rejected p.name (if env.inSet old v then old else v :: old) }

/-- resolution_state.rs:194-200 `is_package_rejected`. -/
def isRejected (env : Env) (s : RState) (p : Package) : Bool :=
  match p.version, mget s.rejected p.name with
  | some v, some l => env.inSet l v
  | _, _ => false

/-- Does the version of the package, if it has one, satisfy the requirement? -/
def versionOk (r : Requirement) (p : Package) : Bool :=
  match p.version with
  | none => true
  | some v => r.satisfiedBy v

/-- resolution_state.rs:302-314 `find_satisfying_package`. -/
def findSatisfying (s : RState) (r : Requirement) : Option Info :=
  s.resolved.find? fun i => i.package.name == r.name && versionOk r i.package

/-- resolution_state.rs:341-359 `check_explicit_conflicts`. -/
def checkExplicit (s : RState) (p : Package) : Option RConflict :=
  (s.conflictReqs.find? fun c => c.name == p.name && versionOk c p).map fun c => ⟨p.name, c⟩

/-- resolution_state.rs:324-336: an active requirement the candidate does not satisfy. -/
def unsatisfied (s : RState) (p : Package) : Option Requirement :=
  match p.version, mget s.active p.name with
  | some v, some l => l.find? fun r => !r.satisfiedBy v
  | _, _ => none

/-- resolution_state.rs:316-339 `check_conflicts`. -/
def checkConflicts (s : RState) (p : Package) : Option RConflict :=
  match s.checkExplicit p with
  | some c => some c
  | none => (s.unsatisfied p).map fun r => ⟨p.name, r⟩

/-- resolution_state.rs:361-371 `add_resolved_package`. -/
def replaceFirst : List Info → Info → List Info
  | [], i => [i]
  | j :: js, i => if j.package.name = i.package.name then i :: js else j :: replaceFirst js i

/-- resolution_state.rs:361-371 `add_resolved_package`. -/
def addResolved (s : RState) (i : Info) : RState := { s with resolved := replaceFirst s.resolved i }

/-- resolution_state.rs:373-377 `is_original_requirement`. -/
def isOriginal (s : RState) (r : Requirement) : Bool := s.original.any fun o => o.name == r.name

/-- `resolved_packages.iter().any(|resolved| resolved.package.name == name)`. -/
def hasFamily (s : RState) (name : Str) : Bool := s.resolved.any fun i => i.package.name == name

/-! ### Cycles -/

/-- The three mutable variables of resolution_state.rs:97-99. -/
structure Dfs where
  visited : List Str
  onStack : List Str
  path : List Str

/-- Result of the search: the cycle found, or the state to go on with. -/
inductive DfsResult where
  | found (cycle : List Str)
  | clear (d : Dfs)

/-- resolution_state.rs:120-136: one neighbour; `rec` is the recursive call. -/
def dfsStep (rec : Str → Dfs → DfsResult) (r : DfsResult) (n : Str) : DfsResult :=
  match r with
  | .found c => .found c
  | .clear d =>
    if n ∉ d.visited then rec n d
    else if n ∈ d.onStack then .found (d.path.drop (if n ∈ d.path then d.path.idxOf n else 0) ++ [n])
    else .clear d

/-- resolution_state.rs:138-140. -/
def dfsLeave (n : Str) : DfsResult → DfsResult
  | .found c => .found c
  | .clear d => .clear { d with onStack := sdel d.onStack n, path := d.path.dropLast }

/-- resolution_state.rs:110-141 `dfs_cycle`; `fuel` bounds the depth of the recursion. -/
def dfsCycle (graph : List (Str × List Str)) : Nat → Str → Dfs → DfsResult
  | 0, _, d => .clear d
  | fuel + 1, n, d =>
    dfsLeave n (((mget graph n).getD []).foldl (dfsStep (dfsCycle graph fuel))
      (.clear ⟨n :: d.visited, n :: d.onStack, d.path ++ [n]⟩))

/-- resolution_state.rs:101-107: over the keys in iteration order. -/
def detectLoop (graph : List (Str × List Str)) (fuel : Nat) : List Str → Dfs → Option (List Str)
  | [], _ => none
  | k :: ks, d =>
    if k ∈ d.visited then detectLoop graph fuel ks d
    else match dfsCycle graph fuel k d with
      | .found c => some c
      | .clear d => detectLoop graph fuel ks d

/-- All names in the dependency graph: a bound for the depth. -/
def graphNames (graph : List (Str × List Str)) : List Str := mkeys graph ++ graph.flatMap Prod.snd

/-- resolution_state.rs:96-108 `detect_cycle`. -/
def detectCycle (env : Env) (graph : List (Str × List Str)) : Option (List Str) :=
  detectLoop graph ((graphNames graph).length + 1) (env.keyOrder (mkeys graph)) ⟨[], [], []⟩

end RState

/-! ## The resolver -/
namespace Resolver
open RState

/-- dependency_resolver.rs:421-429: is the package acceptable for the requirement? -/
def acceptable (env : Env) (r : Requirement) (p : Package) : Bool :=
  match p.version with
  | none => true
  | some v => if !env.allowPrerelease && v.isPrerelease then false else r.satisfiedBy v

/-- dependency_resolver.rs:436-441: latest first. -/
def cmpLatest (a b : Package) : Ordering :=
  match b.version, a.version with
  | some bv, some av => bv.cmp av
  | some _, none => .lt
  | none, some _ => .gt
  | none, none => .eq

/-- dependency_resolver.rs:444-449: oldest first. -/
def cmpOldest (a b : Package) : Ordering :=
  match a.version, b.version with
  | some av, some bv => av.cmp bv
  | some _, none => .lt
  | none, some _ => .gt
  | none, none => .eq

/-- dependency_resolver.rs:412-452 `filter_and_sort_candidates`. -/
def filterSort (env : Env) (ps : List Package) (r : Requirement) : List Package :=
  env.sort (if env.preferLatest then cmpLatest else cmpOldest) (ps.filter (acceptable env r))

/-- dependency_resolver.rs:389-409 `find_candidate_packages`. -/
def candidates (env : Env) (r : Requirement) : Option (List Package) :=
  (env.repo r.name).map fun ps => filterSort env ps r

/-- dependency_resolver.rs:617-624 `parse_variant_requirement`. -/
def parseVariantReq (raw : Str) : Option (Bool × Requirement) :=
  match raw with
  | '!' :: r => (Requirement.parse r).map fun q => (true, q)
  | r => (Requirement.parse r).map fun q => (false, q)

/-- dependency_resolver.rs:603-612: may the variant be chosen beside what is resolved for the name? -/
def variantReqOk (s : RState) (conflict : Bool) (r : Requirement) : Bool :=
  match conflict, s.resolved.find? fun i => i.package.name == r.name with
  | true, some i =>
    match i.package.version with
    | some v => !r.satisfiedBy v
    | none => false
  | _, _ => true

/-- dependency_resolver.rs:593-615 `variant_is_compatible`. -/
def variantCompatible (s : RState) (reqs : List Str) : Bool :=
  reqs.all fun raw => match parseVariantReq raw with
    | none => false
    | some (c, r) => variantReqOk s c r

/-- The larger of two versions as `Iterator::max` picks it: the later one unless the earlier is greater. -/
def maxVersion (acc : Option Version) (v : Version) : Option Version :=
  match acc with
  | none => some v
  | some a => if a.cmp v = .gt then some a else some v

mutual
/-- dependency_resolver.rs:572-591 `constraint_version_floor`. -/
def floorVersion : VersionConstraint → Option Version
  | .exact v => some v
  | .greaterThan v => some v
  | .greaterThanOrEqual v => some v
  | .compatible v => some v
  | .range v _ => some v
  | .prefixOf v => some v
  | .multiple cs => (floorVersions cs).foldl maxVersion none
  | .alternative cs => (floorVersions cs).foldl maxVersion none
  | _ => none
/-- `iter().filter_map(constraint_version_floor)`. -/
def floorVersions : List VersionConstraint → List Version
  | [] => []
  | c :: cs => (match floorVersion c with | some v => [v] | none => []) ++ floorVersions cs
end

/-- The key by which `select_variant` compares (dependency_resolver.rs:549-556). -/
structure VariantKey where
  matched : Nat
  shared : Nat
  size : Nat
  priority : List (Option Version × Str)
  index : Nat

/-- dependency_resolver.rs:516-521: the requirements of the variant that are not conflicts. -/
def positive (reqs : List Str) : List Requirement :=
  reqs.filterMap fun raw => match parseVariantReq raw with
    | some (false, r) => some r
    | _ => none

/-- dependency_resolver.rs:525-533: does a resolved package (with a version) satisfy the requirement? -/
def resolvedMatch (s : RState) (r : Requirement) : Bool :=
  s.resolved.any fun i => i.package.name == r.name && (match i.package.version with
    | some v => r.satisfiedBy v
    | none => false)

/-- dependency_resolver.rs:515-557: the key of a variant. -/
def variantKey (s : RState) (index : Nat) (reqs : List Str) : VariantKey :=
  let pos := positive reqs
  { matched := (pos.filter (resolvedMatch s)).length
    shared := (pos.filter fun r => s.original.any fun o => o.name == r.name).length
    size := pos.length
    priority := (pos.filter fun r => s.hasFamily r.name).map fun r => (r.constraint.bind floorVersion, r.name)
    index := index }

/-- `Option<Version>::cmp`: `None` is least. -/
def cmpOptVersion : Option Version → Option Version → Ordering
  | none, none => .eq
  | none, some _ => .lt
  | some _, none => .gt
  | some a, some b => a.cmp b

/-- `Vec<(Option<Version>, String)>::cmp`. -/
def cmpPriority : List (Option Version × Str) → List (Option Version × Str) → Ordering
  | [], [] => .eq
  | [], _ :: _ => .lt
  | _ :: _, [] => .gt
  | a :: as, b :: bs => ((cmpOptVersion a.1 b.1).then (cmpStr a.2 b.2)).then (cmpPriority as bs)

/-- The order of the keys: `Reverse` swaps the arguments. -/
def cmpKey (a b : VariantKey) : Ordering :=
  (compare a.matched b.matched).then ((compare a.shared b.shared).then ((compare b.size a.size).then
    ((cmpPriority a.priority b.priority).then (compare b.index a.index))))

/-- `Iterator::max_by_key`: the later one unless the earlier is greater. -/
def maxKey (acc : Option VariantKey) (k : VariantKey) : Option VariantKey :=
  match acc with
  | none => some k
  | some a => if cmpKey a k = .gt then some a else some k

/-- The compatible variants with their index (`enumerate` then `filter`), as keys. -/
def variantKeys (s : RState) : Nat → List (List Str) → List VariantKey
  | _, [] => []
  | i, v :: vs => (if variantCompatible s v then [variantKey s i v] else []) ++ variantKeys s (i + 1) vs

/-- dependency_resolver.rs:504-570 `select_variant`. -/
def selectVariant (s : RState) (p : Package) : Option Nat :=
  if p.variants.isEmpty then none
  else ((variantKeys s 0 p.variants).foldl maxKey none).map fun k => k.index

/-- dependency_resolver.rs:627-646 `get_effective_requires`. -/
def effectiveRequires (p : Package) (variant : Option Nat) : List Str :=
  match variant with
  | none => p.requires
  | some i => (p.variants.getD i []).foldl (fun l v => if v ∈ l then l else l ++ [v]) p.requires

/-- dependency_resolver.rs:484-498: sort the requirements into dependencies and conflicts. -/
def splitRequires : List Str → Option (List Requirement × List Requirement)
  | [] => some ([], [])
  | raw :: rs =>
    match parseVariantReq raw with
    | none => none
    | some (c, r) =>
      (splitRequires rs).map fun q => if c then (q.1, r :: q.2) else (r :: q.1, q.2)

/-- dependency_resolver.rs:455-501 `try_resolve_with_candidate`; `none` is `Err`. -/
def tryCandidate (s : RState) (p : Package) (r : Requirement) : Option (Info × List Requirement × List Requirement) :=
  let variant := selectVariant s p
  if !p.variants.isEmpty && variant.isNone then none
  else (splitRequires (effectiveRequires p variant)).map fun q =>
    (⟨p, variant, s.isOriginal r, [r.name], some r⟩, q.1, q.2)

/-- dependency_resolver.rs:243-246: take the package and what it requires into the solve. -/
def select (env : Env) (t : Nat) (s : RState) (name : Str) (c : Info × List Requirement × List Requirement) : RState :=
  setRequirements env t (s.addResolved c.1) name c.2.1 c.2.2

/-- dependency_resolver.rs:221-250: try each candidate; the new state, whether one was taken, and the best
effort candidate. -/
def tryCandidates (env : Env) (t : Nat) (r : Requirement) :
    List Package → RState → Option Package → RState × Bool × Option Package
  | [], s, best => (s, false, best)
  | c :: cs, s, best =>
    if s.isRejected env c then tryCandidates env t r cs s best
    else
      let best := if best.isNone && (s.checkExplicit c).isNone then some c else best
      match s.checkConflicts c with
      | some k => tryCandidates env t r cs { s with conflicts := s.conflicts ++ [k] } best
      | none =>
        match tryCandidate s c r with
        | some q => (select env t s q.1.package.name q, true, best)
        | none => tryCandidates env t r cs s best

/-- dependency_resolver.rs:357-367: is the candidate passed over when backtracking? -/
def skipBacktrack (env : Env) (s : RState) (current : Package) (reqs : List Requirement) (c : Package) : Bool :=
  s.isRejected env c || eqvVersion c.version current.version ||
    (match c.version with
     | some v => reqs.any fun r => !r.satisfiedBy v
     | none => false) ||
    (s.checkExplicit c).isSome

/-- dependency_resolver.rs:356-383: the candidates in turn. -/
def backtrackCandidates (env : Env) (t : Nat) (name : Str) (current : Info) (reqs : List Requirement)
    (primary : Requirement) : List Package → RState → RState × Bool
  | [], s => (s, false)
  | c :: cs, s =>
    if skipBacktrack env s current.package reqs c then backtrackCandidates env t name current reqs primary cs s
    else match tryCandidate s c (current.satisfying.getD primary) with
      | some q => (select env t s name q, true)
      | none => backtrackCandidates env t name current reqs primary cs s

/-- dependency_resolver.rs:335-386 `backtrack_package`; `none` is `Err`. -/
def backtrackPackage (env : Env) (t : Nat) (s : RState) (name : Str) : Option (RState × Bool) :=
  match s.resolved.find? fun i => i.package.name == name with
  | none => some (s, false)
  | some current =>
    match mget s.active name with
    | none => some (s, false)
    | some [] => some (s, false)
    | some (primary :: rest) =>
      (candidates env primary).map fun cs =>
        backtrackCandidates env t name current (primary :: rest) primary cs (s.reject env current.package)

/-- dependency_resolver.rs:311-318: is one of the requirements met by none of the candidates? -/
def incompatible (targets : List Package) (reqs : List Requirement) : Bool :=
  reqs.any fun r => !targets.any fun p => match p.version with
    | some v => r.satisfiedBy v
    | none => false

/-- dependency_resolver.rs:295-322: which of the three lists a resolved package goes to (0 exact, 1 incompatible,
2 other), if any. -/
def sourceClass (s : RState) (targets : List Package) (r : Requirement) (i : Info) : Option Nat :=
  match mget s.pkgReqs i.package.name with
  | none => none
  | some reqs =>
    let mine := reqs.filter fun q => q.name == r.name
    if mine.isEmpty then none
    else if hasReq mine r then some 0
    else if incompatible targets mine then some 1
    else some 2

/-- dependency_resolver.rs:295-325: the sources in the order in which they are tried. -/
def sources (s : RState) (targets : List Package) (r : Requirement) : List Str :=
  let cls := fun (n : Nat) => (s.resolved.filter fun i => sourceClass s targets r i == some n).map fun i => i.package.name
  cls 0 ++ cls 1 ++ cls 2

/-- dependency_resolver.rs:326-332: try the sources in turn. -/
def backtrackLoop (env : Env) (t : Nat) : List Str → RState → Option (RState × Bool)
  | [], s => some (s, false)
  | n :: ns, s =>
    match backtrackPackage env t s n with
    | none => none
    | some (s, true) => some (s, true)
    | some (s, false) => backtrackLoop env t ns s

/-- dependency_resolver.rs:285-333 `backtrack_dependency_source`. -/
def backtrackSource (env : Env) (t : Nat) (s : RState) (r : Requirement) : Option (RState × Bool) :=
  match candidates env r with
  | none => none
  | some targets => backtrackLoop env t (sources s targets r) s

/-- dependency_resolver.rs:277-279: record the failure. -/
def fail (s : RState) (r : Requirement) : RState := { s with failed := s.failed ++ [r] }

/-- dependency_resolver.rs:252-264: the best effort candidate, outside strict mode. -/
def bestEffort (env : Env) (s : RState) (has : Bool) (best : Option Package) (r : Requirement) :
    Option (Info × List Requirement × List Requirement) :=
  if env.strict || has then none else best.bind fun c => tryCandidate s c r

/-- dependency_resolver.rs:252-280: what happens when no candidate was taken. -/
def afterCandidates (env : Env) (t : Nat) (s : RState) (has : Bool) (best : Option Package) (r : Requirement) :
    Option RState :=
  match bestEffort env s has best r with
  | some q => some (select env t s q.1.package.name q)
  | none =>
    if env.strict then
      match backtrackSource env t s r with
      | none => none
      | some (s, true) => some s
      | some (s, false) => some (fail s r)
    else some (fail s r)

/-- dependency_resolver.rs:192-281: one iteration of the loop, for the requirement just taken from the queue;
`none` is `Err`. -/
def process (env : Env) (t : Nat) (s : RState) (r : Requirement) : Option RState :=
  if (s.findSatisfying r).isSome then some s
  else if r.weak && !s.hasFamily r.name then some s
  else match candidates env r with
    | none => none
    | some cs =>
      if cs.isEmpty then some (fail s r)
      else
        let q := tryCandidates env t r cs s none
        if q.2.1 then some q.1 else afterCandidates env t q.1 (s.hasFamily r.name) q.2.2 r

/-- dependency_resolver.rs:186-283 `resolve_recursive`, from iteration `t` on.  `none`: not finished after `fuel`
iterations; `some none`: `Err`. -/
def run (env : Env) : Nat → Nat → RState → Option (Option RState)
  | 0, _, _ => none
  | fuel + 1, t, s =>
    match s.getNext with
    | none => some (some s)
    | some (r, s) =>
      match process env t s r with
      | none => some none
      | some s => run env fuel (t + 1) s

/-- dependency_resolver.rs:26-39 `struct DetailedResolutionResult` (without the statistics). -/
structure Result where
  resolved : List Info
  failed : List Requirement
  conflicts : List RConflict

/-- dependency_resolver.rs:156-165: the failures that count. -/
def finalFailed (s : RState) : List Requirement :=
  s.failed.filter fun r => s.isActive r && (s.findSatisfying r).isNone

/-- dependency_resolver.rs:139-182: after the loop. -/
def finish (env : Env) (s : RState) : Option Result :=
  match detectCycle env s.depGraph with
  | some _ => none
  | none =>
    if env.strict && !(finalFailed s).isEmpty then none
    else some ⟨s.resolved, finalFailed s, s.conflicts⟩

/-- dependency_resolver.rs:127-183 `resolve`.  `none`: not finished after `fuel` iterations; `some none`: `Err`. -/
def resolve (env : Env) (fuel : Nat) (reqs : List Requirement) : Option (Option Result) :=
  (run env fuel 1 (RState.new env reqs)).map fun o => o.bind (finish env)

end Resolver
end Rez
