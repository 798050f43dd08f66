import Verif.Model.Requirement
import Verif.Model.RexShell
import Verif.Model.EnvCommand
import Verif.Model.Search
import Verif.Model.Scanner
/-!
# Asking for packages: `rez-next-solver/src/{solver,resolution}.rs`, `src/cli/commands/solve.rs` and
`rez-next-python/src/{context,env,solver}_bindings.rs`

The resolver itself is a parameter (it is modelled in `Model/Resolver.lean`), given the repositories and the fields of its
configuration that it reads.  So are the configured paths, whether a path exists, `to_lowercase`, the debug format of a version,
the validity of a package and the order in which a map is iterated.  Left out: statistics and times, reading and writing context
files, running a command.
-/
namespace Rez.SolveApi
open Rez

/-- The fields of a package that this code reads. -/
structure Pkg where
  name : Str
  version : Option Version
  description : Option Str
  requires : List Str
  tools : List Str
  commands : Option Str
  base : Option Str
deriving DecidableEq

/-- dependency_resolver.rs:41-57 `struct ResolvedPackageInfo`. -/
structure Entry where
  package : Pkg
  requested : Bool
  requiredBy : List Str
  satisfying : Option Requirement

/-- dependency_resolver.rs:84-95 `struct ResolutionConflict`. -/
structure Conflict where
  name : Str
  requirements : List Requirement
  sources : List Str

/-- dependency_resolver.rs:26-39 `struct DetailedResolutionResult`. -/
structure Answer where
  resolved : List Entry
  failed : List Requirement
  conflicts : List Conflict

/-- solver.rs:14-38 `struct SolverConfig`. -/
structure Config where
  maxAttempts : Nat
  maxTime : Nat
  parallel : Bool
  workers : Nat
  caching : Bool
  cacheTtl : Nat
  preferLatest : Bool
  allowPrerelease : Bool
  strategy : Nat
  strict : Bool

/-- solver.rs:40-54 `SolverConfig::default`. -/
def Config.default : Config := ⟨1000, 300, true, 4, true, 3600, true, false, 0, false⟩

/-- What the rest of the program answers. -/
structure World where
  /-- `DependencyResolver::new(repositories, config).resolve(requirements)`; of the configuration it reads `strict_mode`,
  `allow_prerelease` and `prefer_latest`. -/
  solve : (strict allowPrerelease preferLatest : Bool) → List Str → List Requirement → Option Answer
  /-- The configured package paths, the home directory put in. -/
  packagesPath : List Str
  exists_ : Str → Bool
  debug : Version → Str
  valid : Pkg → Bool
  iter : List (Str × Str) → List (Str × Str)

/-- The resolver with a configuration. -/
def World.resolver (w : World) (c : Config) (repos : List Str) (reqs : List Requirement) : Option Answer :=
  w.solve c.strict c.allowPrerelease c.preferLatest repos reqs

/-- requirement/types.rs `Requirement::new`. -/
def bare (name : Str) : Requirement := ⟨name, none, false, false, [], [], none⟩

/-- solver.rs:212-222, context_bindings.rs:66-75, env_bindings.rs:97-106: a requirement as the resolver is given it. -/
def toResolver (p : PackageRequirement) : Requirement := (Requirement.parse p.display).getD (bare p.name)

/-- `iter().map(parse).collect::<Result<_, _>>()`: the first that cannot be read ends it. -/
def readAll : List Str → Outcome (List PackageRequirement)
  | [] => .ok []
  | t :: ts =>
    match PackageRequirement.parse t with
    | .err => .err
    | .panic => .panic
    | .ok p =>
      match readAll ts with
      | .ok ps => .ok (p :: ps)
      | .err => .err
      | .panic => .panic

/-- context_bindings.rs:36-64, env_bindings.rs:55-94: the repositories. -/
def World.repos (w : World) (paths : Option (List Str)) : List Str := (paths.getD w.packagesPath).filter w.exists_

/-! ## context_bindings.rs -/

/-- context.rs `enum ContextStatus`. -/
inductive Status | resolving | resolved | failed | cached
deriving DecidableEq

/-- context_bindings.rs:14-18 `struct PyResolvedContext`. -/
structure Ctx where
  requirements : List PackageRequirement
  packages : List Pkg
  status : Status
  paths : List Str

/-- context_bindings.rs:24-96 `new`. -/
def newContext (w : World) (packages : List Str) (paths : Option (List Str)) : Outcome Ctx :=
  match readAll packages with
  | .err => .err
  | .panic => .panic
  | .ok reqs =>
    match w.resolver .default (w.repos paths) (reqs.map toResolver) with
    | none => .err
    | some a => .ok ⟨reqs, a.resolved.map Entry.package, .resolved, paths.getD w.packagesPath⟩

/-- context_bindings.rs:120-123 `success`. -/
def Ctx.success (c : Ctx) : Bool := c.status == .resolved

/-- context_bindings.rs:360-367 `failure_description`. -/
def Ctx.failure (c : Ctx) : Option Str := if c.status = .failed then some c!"Resolution failed" else none

/-- context_bindings.rs:142-148 `get_resolved_package`. -/
def Ctx.get (c : Ctx) (name : Str) : Option Pkg := c.packages.find? fun p => p.name == name

/-- The version, or `unknown`. -/
def Pkg.shown (p : Pkg) : Str := match p.version with | some v => v.asStr | none => c!"unknown"

/-- context_bindings.rs:311-330: where a tool is. -/
def toolPath (p : Pkg) (tool : Str) : Str :=
  match p.base with
  | some b => b ++ c!"/bin/" ++ tool
  | none => p.name ++ c!"-" ++ p.shown ++ c!"/bin/" ++ tool

/-- context_bindings.rs:308-333 `get_tools`. -/
def Ctx.tools (c : Ctx) : List (Str × Str) :=
  (c.packages.flatMap fun p => p.tools.map fun t => (t, toolPath p t)).foldl (fun m e => mset m e.1 e.2) []

/-- context_bindings.rs:336-356 `to_dict`: the packages. -/
def Ctx.dictPackages (c : Ctx) : List Str := c.packages.map fun p => p.name ++ c!"-" ++ p.shown

/-- context_bindings.rs:370-391 `get_resolved_packages_info`. -/
def Ctx.info (c : Ctx) : List (Str × Str) := c.packages.map fun p => (p.name, p.shown)

/-! ## solver_bindings.rs -/

/-- solver_bindings.rs:551-554 `struct PySolver`. -/
structure PySolver where
  config : Config
  paths : List Str

/-- solver_bindings.rs:562-602 `new`. -/
def PySolver.new (w : World) (packagesPath : Option (List Str)) (maxAttempts : Option Nat) (preferLatest parallel : Option Bool)
    (workers : Option Nat) : PySolver where
  config := { Config.default with
    maxAttempts := maxAttempts.getD Config.default.maxAttempts
    preferLatest := preferLatest.getD Config.default.preferLatest
    parallel := parallel.getD Config.default.parallel
    workers := workers.getD Config.default.workers }
  paths := packagesPath.getD w.packagesPath

/-- solver_bindings.rs:664-675 `solve`. -/
def PySolver.solve (w : World) (s : PySolver) (packages : List Str) : Outcome Ctx := newContext w packages (some s.paths)

/-! ## env_bindings.rs -/

/-- env_bindings.rs:27-40 `struct PyRezEnv`. -/
structure RezEnv where
  packages : List Str
  scripts : List (Str × Str)
  vars : List (Str × Str)
  success : Bool
  failed : Bool
  resolved : List Pkg

/-- env_bindings.rs:76-84, 113-121: nothing could be resolved. -/
def RezEnv.failure (packages : List Str) : RezEnv := ⟨packages, [], [], false, true, []⟩

/-- env_bindings.rs:136-140: the root that is assumed. -/
def root (p : Pkg) : Str :=
  match p.version with
  | some v => c!"/opt/" ++ p.name ++ c!"/" ++ v.asStr
  | none => c!"/opt/" ++ p.name

/-- env_bindings.rs:134-149: the variables of one package; none if its commands cannot be read. -/
def ownVars (w : World) (p : Pkg) : List (Str × Str) :=
  match p.commands with
  | none => []
  | some cmds =>
    match (Rex.Executor.new.execute w.iter cmds p.name (some (root p)) (p.version.map Version.asStr)).2 with
    | some e => e.vars
    | none => []

/-- env_bindings.rs:130-155: the variables of all packages. -/
def allVars (w : World) (ps : List Pkg) : List (Str × Str) :=
  ps.foldl (fun m p => (w.iter (ownVars w p)).foldl (fun m e => mset m e.1 e.2) m) []

/-- env_bindings.rs:157-168: the shells. -/
def shells : Option Str → List Str
  | some s => [s]
  | none => [c!"bash", c!"powershell", c!"fish", c!"cmd"]

/-- env_bindings.rs:170-178: the scripts. -/
def scripts (vars : List (Str × Str)) (names : List Str) : List (Str × Str) :=
  names.foldl (fun m s =>
    match EnvCmd.parseShell s with
    | some sh => mset m s (RexShell.script { Rex.Env.new with vars := vars } sh)
    | none => m) []

/-- env_bindings.rs:44-188 `new`. -/
def rezEnv (w : World) (packages : List Str) (shell : Option Str) (paths : Option (List Str)) : Outcome RezEnv :=
  match readAll packages with
  | .panic => .panic
  | .err => .ok (.failure packages)
  | .ok reqs =>
    match w.resolver .default (w.repos paths) (reqs.map toResolver) with
    | none => .ok (.failure packages)
    | some a =>
      let ps := a.resolved.map Entry.package
      let vars := allVars w ps
      .ok ⟨packages, scripts vars (shells shell), vars, true, false, ps⟩

/-- env_bindings.rs:245-249 `available_shells`. -/
def RezEnv.shells (e : RezEnv) : List Str := Search.sortStr (mkeys e.scripts)

/-- env_bindings.rs:281-297 `get_activation_script`. -/
def activationScript (w : World) (packages : List Str) (shell : Str) (paths : Option (List Str)) : Outcome Str :=
  match rezEnv w packages (some shell) paths with
  | .panic => .panic
  | .err => .err
  | .ok e => if e.success then .ok ((mget e.scripts shell).getD []) else .err

/-- env_bindings.rs:318-385 `PackageFamily`: the packages, in the order in which they were added. -/
abbrev Family := List Pkg

/-- env_bindings.rs:354-361 `versions`. -/
def Family.versions (f : Family) : List Str := f.filterMap fun p => p.version.map Version.asStr

/-- env_bindings.rs:367-372: the comparison. -/
def byVersion (a b : Pkg) : Ordering :=
  match b.version, a.version with
  | some bv, some av => av.cmp bv
  | _, _ => .eq

/-- env_bindings.rs:364-374 `latest_version`; `sort` is `slice::sort_by`. -/
def Family.latest (sort : (Pkg → Pkg → Ordering) → List Pkg → Outcome (List Pkg)) (f : Family) : Outcome (Option Pkg) :=
  match sort byVersion f with
  | .ok l => .ok l.head?
  | .err => .err
  | .panic => .panic

/-! ## solver.rs and resolution.rs -/

/-- solver.rs:72-86 `struct SolverRequest`. -/
structure Request where
  requirements : List PackageRequirement
  constraints : List PackageRequirement
  excludes : List Str
  platform : Option Str
  arch : Option Str

/-- resolution.rs:9-18 `struct ResolutionResult`. -/
structure Resolution where
  packages : List Pkg
  conflictsResolved : Bool

/-- solver.rs:204-246 `DependencySolver::resolve`; `repos` are the repositories of the manager, if one is set. -/
def depSolve (w : World) (c : Config) (repos : Option (List Str)) (r : Request) : Option Resolution :=
  match repos with
  | some rs => (w.resolver c rs (r.requirements.map toResolver)).map fun a =>
      ⟨a.resolved.map Entry.package, !a.conflicts.isEmpty⟩
  | none => some ⟨[], false⟩

/-- resolution.rs:54-56 `get_package`. -/
def Resolution.get (r : Resolution) (name : Str) : Option Pkg := r.packages.find? fun p => p.name == name

/-- resolution.rs:64-66 `contains_package`. -/
def Resolution.contains (r : Resolution) (name : Str) : Bool := r.packages.any fun p => p.name == name

/-- resolution.rs:84: `*` becomes `.*`; and `.` is any character already.  Of the other characters with a meaning in expressions,
none is in the pattern. -/
def tokens : Str → List Scanner.Tok
  | [] => []
  | '*' :: s => .all :: tokens s
  | '.' :: s => .any :: tokens s
  | c :: s => .lit c :: tokens s

/-- resolution.rs:77-92 `matches_pattern`. -/
def fits (text pattern : Str) : Bool :=
  if pattern = c!"*" then true
  else if pattern.contains '*' then Scanner.hits (tokens pattern) text
  else text == pattern

/-- resolution.rs:69-74 `find_packages`. -/
def Resolution.find (r : Resolution) (pattern : Str) : List Pkg := r.packages.filter fun p => fits p.name pattern

/-- resolution.rs:95-118 `get_summary`: the versions by name. -/
def Resolution.versions (r : Resolution) : List (Str × Str) :=
  r.packages.foldl (fun m p => mset m p.name (match p.version with | some v => v.asStr | none => c!"latest")) []

/-- resolution.rs:125-128: the key of a package. -/
def Pkg.key (p : Pkg) : Str := match p.version with | some v => p.name ++ c!"-" ++ v.asStr | none => p.name

/-- resolution.rs:123-134: no key twice. -/
def noTwice (seen : List Str) : List Pkg → Bool
  | [] => true
  | p :: ps => if seen.contains p.key then false else noTwice (p.key :: seen) ps

/-- resolution.rs:121-145 `validate`. -/
def Resolution.validate (w : World) (r : Resolution) : Bool := noTwice [] r.packages && r.packages.all w.valid

/-- resolution.rs:148-178 `to_environment_spec`: the variables; `upper` is `to_uppercase`. -/
def Resolution.specVars (upper : Str → Str) (r : Resolution) : List (Str × Str) :=
  r.packages.foldl (fun m p =>
    match p.commands with
    | some c => mset m (upper p.name ++ c!"_COMMANDS") c
    | none => m) []

/-- resolution.rs:236-244 `get_all_tools`. -/
def Resolution.allTools (r : Resolution) : List Str := Search.dedup (Search.sortStr (r.packages.flatMap Pkg.tools))

/-! ## solve.rs -/

/-- solve.rs:12-41 `SolveArgs`. -/
structure Args where
  requirements : List Str
  repository : List Str
  verbose : Bool
  timeout : Nat
  stats : Bool
  format : Str
  strict : Bool

/-- solve.rs:101-112 `parse_requirements`. -/
def parseAll : List Str → Option (List Requirement)
  | [] => some []
  | t :: ts =>
    match Requirement.parse t with
    | none => none
    | some r => (parseAll ts).map (r :: ·)

/-- What the command does. -/
inductive Act
  | line (s : Str)
  | warn (s : Str)
  | solve (strict : Bool) (repos : List Str) (reqs : List Requirement)
  /-- solve.rs:289-321 `display_json`: name, version, requested, required by; the failed requirements; name, requirements and
  sources of the conflicts. -/
  | json (resolved : List (Str × Option Str × Bool × List Str)) (failed : List Str) (conflicts : List (Str × List Str × List Str))

/-- solve.rs:171-188. -/
def entryLine (e : Entry) : Str :=
  c!"  " ++ e.package.name ++ c!" " ++ e.package.shown ++ c!" (" ++ (if e.requested then c!"requested" else c!"dependency") ++ c!")"

/-- solve.rs:170-193: the lines of a resolved package. -/
def entryLines (verbose : Bool) (e : Entry) : List Str :=
  entryLine e :: (if verbose && !e.requiredBy.isEmpty then [c!"    Required by: " ++ joinWith c!", " e.requiredBy] else [])

/-- solve.rs:208-226: the lines of a conflict. -/
def conflictLines (c : Conflict) : List Str :=
  [c!"  Package: " ++ c.name, c!"    Conflicting requirements: " ++ joinWith c!", " (c.requirements.map Requirement.display)] ++
    (if c.sources.isEmpty then [] else [c!"    Source packages: " ++ joinWith c!", " c.sources])

/-- solve.rs:160-241 `display_summary`, without the statistics. -/
def summary (verbose : Bool) (a : Answer) : List Str :=
  c!"\n=== Resolution Summary ===" ::
  (if a.resolved.isEmpty && a.failed.isEmpty then [c!"No packages to resolve."]
  else
    (if a.resolved.isEmpty then []
      else (c!"✅ Resolved packages (" ++ decimal a.resolved.length ++ c!"):") :: a.resolved.flatMap (entryLines verbose)) ++
    (if a.failed.isEmpty then []
      else (c!"\n❌ Failed requirements (" ++ decimal a.failed.length ++ c!"):") ::
        a.failed.map fun r => c!"  " ++ r.display) ++
    (if a.conflicts.isEmpty then []
      else (c!"\n⚠️  Conflicts encountered (" ++ decimal a.conflicts.length ++ c!"):") :: a.conflicts.flatMap conflictLines))

/-- solve.rs:250-274: the details of a package. -/
def detailLines (w : World) (e : Entry) : List Str :=
  [c!"\n--- " ++ e.package.name ++ c!" ---"] ++
  (match e.package.version with | some v => [c!"Version: " ++ w.debug v] | none => []) ++
  (match e.package.description with | some d => [c!"Description: " ++ d] | none => []) ++
  (if e.package.requires.isEmpty then [] else [c!"Requires: " ++ joinWith c!", " e.package.requires]) ++
  (if e.package.tools.isEmpty then [] else [c!"Tools: " ++ joinWith c!", " e.package.tools]) ++
  (match e.satisfying with | some r => [c!"Satisfies: " ++ r.display] | none => [])

/-- solve.rs:244-285 `display_detailed`. -/
def detailed (w : World) (verbose : Bool) (a : Answer) : List Str :=
  summary verbose a ++
    (if a.resolved.isEmpty then [] else c!"\n=== Package Details ===" :: a.resolved.flatMap (detailLines w))

/-- solve.rs:141-157 `display_resolution_result`. -/
def display (w : World) (args : Args) (a : Answer) : List Act :=
  if args.format = c!"summary" then (summary args.verbose a).map .line
  else if args.format = c!"detailed" then (detailed w args.verbose a).map .line
  else if args.format = c!"json" then
    [.json (a.resolved.map fun e => (e.package.name, e.package.version.map w.debug, e.requested, e.requiredBy))
      (a.failed.map Requirement.display)
      (a.conflicts.map fun c => (c.name, c.requirements.map Requirement.display, c.sources))]
  else [.warn (c!"Unknown format: " ++ args.format ++ c!". Available formats: summary, detailed, json")]

/-- solve.rs:61-71, 114-138: the repositories. -/
def solveRepos (w : World) (args : Args) : List Str :=
  if args.repository.isEmpty then w.packagesPath.filter w.exists_ else args.repository

/-- solve.rs:75-87: the configuration. -/
def solveConfig (args : Args) : Config := { Config.default with maxTime := args.timeout, strict := args.strict }

/-- solve.rs:51-98 `solve_async`; `false` is `Err`. -/
def solveCmd (w : World) (args : Args) : Bool × List Act :=
  let first : Act := .line (c!"Resolving dependencies for: " ++ joinWith c!", " args.requirements)
  match parseAll args.requirements with
  | none => (false, [first])
  | some reqs =>
    let rs := solveRepos w args
    let before := [first, .line (c!"Using " ++ decimal rs.length ++ c!" repositories"),
      .line c!"Starting dependency resolution...", .solve args.strict rs reqs]
    match w.resolver (solveConfig args) rs reqs with
    | none => (false, before)
    | some a => (true, before ++ display w args a)

end Rez.SolveApi
