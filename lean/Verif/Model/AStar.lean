import Verif.Model.Graph
/-!
# `rez-next-solver/src/astar/search_state.rs` and `astar_search.rs`: the A* search
-/
namespace Rez

/-- search_state.rs:49-59 `enum ConflictType`, the two kinds the search itself produces. -/
inductive AConflictType where
  | version
  | circular
deriving DecidableEq

/-- search_state.rs:62-89 `struct SearchState`.  Costs, depth and the ids of the state and its parent are omitted:
they only serve the order of the open set, which is a parameter, and statistics.  A conflict is its package name and
type.  `state_hash` is a function of the fields (`Search.hashOf`): search_state.rs:93-120 and 160-174 recompute it
after every change. -/
structure SState where
  resolved : List (Str × Package)
  pending : List PackageRequirement
  conflicts : List (Str × AConflictType)

/-- What is fed to the hasher by search_state.rs:177-211, item by item. -/
inductive HashItem where
  | text (s : Str)
  | tag (t : AConflictType)
deriving DecidableEq

/-- What the search is given. -/
structure AEnv where
  /-- `RepositoryManager::find_packages`; `none` is `Err`. -/
  find : Str → Option (List Package)
  allowPrerelease : Bool
  maxStates : Nat
  /-- `DefaultHasher` -/
  hash : List HashItem → Nat
  /-- Which element of the open set the heap yields (taken modulo its size), by iteration: the costs and the
  heuristic decide this. -/
  pick : Nat → List SState → Nat
  /-- Has the time limit passed in this iteration? -/
  late : Nat → Bool

namespace SState

/-- search_state.rs:93-109 `new_initial`. -/
def initial (reqs : List PackageRequirement) : SState := ⟨[], reqs, []⟩

/-- search_state.rs:112-140 `new_from_parent`. -/
def fromParent (parent : SState) (p : Package) (reqs : List PackageRequirement) : SState :=
  ⟨mset parent.resolved p.name p, parent.pending ++ reqs, parent.conflicts⟩

/-- search_state.rs:143-145 `is_goal`. -/
def isGoal (s : SState) : Bool := s.pending.isEmpty && s.conflicts.isEmpty

/-- search_state.rs:148-157 `is_valid`; a missing package is never reported by the search. -/
def isValid (s : SState) : Bool := s.conflicts.all fun c => c.2 != .circular

/-- search_state.rs:171-175 `remove_requirement`. -/
def removeRequirement (s : SState) (r : PackageRequirement) : SState :=
  { s with pending := s.pending.filter fun q => q.name != r.name }

end SState

namespace Search

/-- Insertion into a sorted list of texts. -/
def insertText (x : Str) : List Str → List Str
  | [] => [x]
  | y :: l => if cmpStr y x = .lt then y :: insertText x l else x :: y :: l

/-- `sort` on a `Vec<String>`. -/
def sortTexts (l : List Str) : List Str := l.foldr insertText []

/-- search_state.rs:177-211 `update_hash`: the items hashed, in order. -/
def hashItems (s : SState) : List HashItem :=
  ((sortTexts (mkeys s.resolved)).flatMap fun n => .text n :: (match mget s.resolved n with
    | some p => match p.version with
      | some v => [.text v.asStr]
      | none => []
    | none => [])) ++
  (sortTexts (s.pending.map PackageRequirement.display)).map .text ++
  s.conflicts.flatMap fun c => [.text c.1, .tag c.2]

/-- search_state.rs:213-216 `get_hash`. -/
def hashOf (env : AEnv) (s : SState) : Nat := env.hash (hashItems s)

/-- astar_search.rs:193-199 and 282-285: does the specification exclude the package?  A text that is no range
excludes nothing. -/
def specExcludes (r : PackageRequirement) (p : Package) : Bool :=
  match r.spec, p.version with
  | some spec, some v =>
    match VersionRange.parse spec with
    | some range => !range.contains v
    | none => false
  | _, _ => false

/-- astar_search.rs:201-207. -/
def prereleaseExcludes (env : AEnv) (p : Package) : Bool :=
  match p.version with
  | some v => !env.allowPrerelease && v.isPrerelease
  | none => false

/-- astar_search.rs:230-241: what the package requires, leaving out texts that are no requirement and families that
the parent state has resolved. -/
def newRequirements (parent : SState) : List Str → Outcome (List PackageRequirement)
  | [] => .ok []
  | raw :: rs =>
    match PackageRequirement.parse raw with
    | .panic => .panic
    | .err => newRequirements parent rs
    | .ok r =>
      match newRequirements parent rs with
      | .ok l => .ok (if r.name ∈ mkeys parent.resolved then l else r :: l)
      | e => e

/-- `s.split('-').next()`. -/
def untilDash (s : Str) : Str := s.takeWhile fun c => c != '-'

/-- astar_search.rs:279-297: version conflicts. -/
def versionConflicts (s : SState) : List (Str × AConflictType) :=
  s.pending.flatMap fun r => match mget s.resolved r.name with
    | some p => if specExcludes r p then [(r.name, .version)] else []
    | none => []

/-- astar_search.rs:306-327: the dependencies of a package that depend on `name` in turn. -/
def circularThrough (s : SState) (name : Str) (p : Package) : List (Str × AConflictType) :=
  p.requires.flatMap fun dep => match mget s.resolved (untilDash dep) with
    | some d => if d.requires.any fun r => untilDash r == name then [(name, .circular)] else []
    | none => []

/-- astar_search.rs:299-328: circular dependencies. -/
def circularConflicts (s : SState) : List (Str × AConflictType) :=
  s.pending.flatMap fun r => match mget s.resolved r.name with
    | some p => circularThrough s r.name p
    | none => []

/-- astar_search.rs:276-335 `detect_conflicts`. -/
def detectConflicts (s : SState) : SState :=
  { s with conflicts := s.conflicts ++ (versionConflicts s ++ circularConflicts s) }

/-- astar_search.rs:221-251 `create_successor_state`. -/
def createSuccessor (parent : SState) (p : Package) (r : PackageRequirement) : Outcome SState :=
  match newRequirements parent p.requires with
  | .ok reqs => .ok (detectConflicts ((parent.fromParent p reqs).removeRequirement r))
  | .err => .err
  | .panic => .panic

/-- astar_search.rs:191-215: over the candidates. -/
def successorsOf (env : AEnv) (s : SState) (r : PackageRequirement) : List Package → Outcome (List SState)
  | [] => .ok []
  | p :: ps =>
    if specExcludes r p || prereleaseExcludes env p then successorsOf env s r ps
    else match createSuccessor s p r with
      | .panic => .panic
      | .err => successorsOf env s r ps
      | .ok x =>
        match successorsOf env s r ps with
        | .ok l => .ok (x :: l)
        | e => e

/-- astar_search.rs:174-218 `generate_successors`. -/
def successors (env : AEnv) (s : SState) : Outcome (List SState) :=
  match s.pending with
  | [] => .ok []
  | r :: _ =>
    match env.find r.name with
    | none => .err
    | some ps => successorsOf env s r ps

/-- The mutable part of `struct AStarSearch` (astar_search.rs:18-39); of the statistics the list of the states
explored by the current search is kept, whose length is `states_explored`. -/
structure Searcher where
  openSet : List SState
  closed : List Nat
  explored : List SState

/-- What a search returns. -/
inductive SearchResult where
  | found (s : SState)
  | none
  | err
  | panic

/-- The states that are pushed (astar_search.rs:148-158). -/
def fresh (env : AEnv) (closed : List Nat) (l : List SState) : List SState :=
  l.filter fun s => !closed.contains (hashOf env s)

/-- astar_search.rs:114-171: the loop, from iteration `t` on; `none` when it has not ended after `fuel` iterations. -/
def loop (env : AEnv) : Nat → Nat → Searcher → Option (Searcher × SearchResult)
  | 0, _, _ => Option.none
  | fuel + 1, t, s =>
    match s.openSet[env.pick t s.openSet % s.openSet.length]? with
    | Option.none => some (s, .none)
    | some cur =>
      let rest := s.openSet.eraseIdx (env.pick t s.openSet % s.openSet.length)
      let s := { s with openSet := rest }
      if env.late t then some (s, .err)
      else if s.explored.length ≥ env.maxStates then some (s, .err)
      else if s.closed.contains (hashOf env cur) then loop env fuel (t + 1) s
      else
        let s := { s with closed := hashOf env cur :: s.closed, explored := s.explored ++ [cur] }
        if cur.isGoal then some (s, .found cur)
        else if !cur.isValid then loop env fuel (t + 1) s
        else match successors env cur with
          | .err => some (s, .err)
          | .panic => some (s, .panic)
          | .ok l => loop env fuel (t + 1) { s with openSet := s.openSet ++ fresh env s.closed l }

/-- astar_search.rs:68-83 `new`, and the state left by `clear` (343-347). -/
def Searcher.new : Searcher := ⟨[], [], []⟩

/-- astar_search.rs:343-347 `clear`. -/
def Searcher.clear (_ : Searcher) : Searcher := Searcher.new

/-- astar_search.rs:101-171 `search`. -/
def search (env : AEnv) (fuel : Nat) (s : Searcher) (reqs : List PackageRequirement) :
    Option (Searcher × SearchResult) :=
  loop env fuel 0 { s with openSet := s.openSet ++ [SState.initial reqs], explored := [] }

end Search
end Rez
