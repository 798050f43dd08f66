import Verif.Model.AStar
import Mathlib.Data.Rat.Lemmas
import Mathlib.Algebra.Order.Ring.Rat
/-!
# Costs, heuristics and the priority queue of the A* search

`astar/astar_search.rs`, `astar/search_state.rs` and `astar/heuristics.rs`.  Numbers are exact (`f64` in the code).  A heuristic is
a function of the packages, the pending requirements and the conflicts of a state; all those of the code are.
-/
namespace Rez.AStarQueue
open Rez Search

/-- search_state.rs:62-89 `struct SearchState` with its costs. -/
structure Node where
  state : SState
  /-- `cost_so_far` -/
  cost : ℚ
  /-- `estimated_total_cost` -/
  estimate : ℚ

/-- What the search is given; `env.pick` is not used. -/
structure Queue where
  env : AEnv
  heuristic : SState → ℚ
  /-- which element the heap yields (an index, taken modulo the size) -/
  pick : Nat → List Node → Nat

/-- astar_search.rs:257-267: the first of the parts between dots that is a number. -/
def majorOf (v : Version) : Nat := ((splitChar '.' v.asStr).filterMap parseU64).head?.getD 0

/-- astar_search.rs:256-270. -/
def discount : Option Version → ℚ
  | some v => -(min (majorOf v) 100 : Nat) * (1 / 1000)
  | none => 0

/-- astar_search.rs:251-273 `calculate_package_cost`. -/
def packageCost (p : Package) : ℚ := max (1 + p.requires.length * (1 / 10) + discount p.version) (1 / 1000)

/-- search_state.rs:277-288: `to_bits` as an order: the sign is the highest bit, so numbers below zero come behind all others, and
among each other in reverse.  (No zero with a sign and no NaN.) -/
def cmpBits (a b : ℚ) : Ordering :=
  if a < 0 then (if b < 0 then (if b < a then .lt else if b = a then .eq else .gt) else .gt)
  else if b < 0 then .lt
  else if a < b then .lt else if a = b then .eq else .gt

/-- search_state.rs:276-289 `OrdByEstimatedCost::cmp`. -/
def cmpNode (env : AEnv) (a b : Node) : Ordering :=
  (cmpBits b.estimate a.estimate).then (compare (hashOf env a.state) (hashOf env b.state))

/-- astar_search.rs:191-250: successors with `cost_so_far`; `new_from_parent` (search_state.rs:132) adds the cost. -/
def childrenOf (env : AEnv) (s : SState) (cost : ℚ) (r : PackageRequirement) : List Package → Outcome (List (SState × ℚ))
  | [] => .ok []
  | p :: ps =>
    if specExcludes r p || prereleaseExcludes env p then childrenOf env s cost r ps
    else match createSuccessor s p r with
      | .panic => .panic
      | .err => childrenOf env s cost r ps
      | .ok x =>
        match childrenOf env s cost r ps with
        | .ok l => .ok ((x, cost + packageCost p) :: l)
        | e => e

/-- astar_search.rs:174-218 `generate_successors`. -/
def children (env : AEnv) (n : Node) : Outcome (List (SState × ℚ)) :=
  match n.state.pending with
  | [] => .ok []
  | r :: _ =>
    match env.find r.name with
    | none => .err
    | some ps => childrenOf env n.state n.cost r ps

/-- astar_search.rs:148-158: what is pushed. -/
def pushed (q : Queue) (closed : List Nat) (l : List (SState × ℚ)) : List Node :=
  (l.filter fun e => !closed.contains (hashOf q.env e.1)).map fun e => ⟨e.1, e.2, e.2 + q.heuristic e.1⟩

/-- The mutable part of `struct AStarSearch`, as in `Search.Searcher`. -/
structure Searching where
  openSet : List Node
  closed : List Nat
  explored : List SState

/-- What a search returns. -/
inductive Result where
  | found (n : Node)
  | none
  | err
  | panic

/-- astar_search.rs:114-171: the loop, from iteration `t` on. -/
def loop (q : Queue) : Nat → Nat → Searching → Option (Searching × Result)
  | 0, _, _ => Option.none
  | fuel + 1, t, s =>
    match s.openSet[q.pick t s.openSet % s.openSet.length]? with
    | Option.none => some (s, .none)
    | some cur =>
      let rest := s.openSet.eraseIdx (q.pick t s.openSet % s.openSet.length)
      let s := { s with openSet := rest }
      if q.env.late t then some (s, .err)
      else if s.explored.length ≥ q.env.maxStates then some (s, .err)
      else if s.closed.contains (hashOf q.env cur.state) then loop q fuel (t + 1) s
      else
        let s := { s with closed := hashOf q.env cur.state :: s.closed, explored := s.explored ++ [cur.state] }
        if cur.state.isGoal then some (s, .found cur)
        else if !cur.state.isValid then loop q fuel (t + 1) s
        else match children q.env cur with
          | .err => some (s, .err)
          | .panic => some (s, .panic)
          | .ok l => loop q fuel (t + 1) { s with openSet := s.openSet ++ pushed q s.closed l }

/-- astar_search.rs:101-113: the first state; its cost is zero. -/
def first (q : Queue) (reqs : List PackageRequirement) : Node := ⟨SState.initial reqs, 0, q.heuristic (SState.initial reqs)⟩

/-- astar_search.rs:101-171 `search` of a new searcher. -/
def search (q : Queue) (fuel : Nat) (reqs : List PackageRequirement) : Option (Searching × Result) :=
  loop q fuel 0 ⟨[first q reqs], [], []⟩

/-! ## Heuristics -/

/-- heuristics.rs:20-42 `HeuristicConfig`. -/
structure Config where
  remaining : ℚ
  conflict : ℚ
  depth : ℚ
  preference : ℚ
  latest : Bool
  multiplier : ℚ
  maxDepth : Nat

/-- heuristics.rs:44-56 `default`. -/
def Config.default : Config := ⟨1, 10, 1 / 2, 1 / 10, true, 100, 10⟩

/-- heuristics.rs:297-308 `new_fast`. -/
def Config.fast : Config := ⟨1, 20, 1 / 5, 1 / 20, true, 50, 5⟩

/-- heuristics.rs:311-323 `new_thorough`. -/
def Config.thorough : Config := ⟨1, 100, 1, 1 / 2, true, 200, 15⟩

/-- heuristics.rs:82-85 `RemainingRequirementsHeuristic`. -/
def remaining (c : Config) (s : SState) : ℚ := s.pending.length * c.remaining

/-- heuristics.rs:109-118: the severity of the conflicts that the search makes is one. -/
def penaltyOf (c : Config) (k : AConflictType) : ℚ := (match k with | .version => 50 | .circular => 1000) * 1 * c.multiplier

/-- heuristics.rs:122-130 `ConflictPenaltyHeuristic`. -/
def penalty (c : Config) (s : SState) : ℚ := (s.conflicts.map fun e => penaltyOf c e.2).sum * c.conflict

/-- heuristics.rs:159-180 `estimate_dependency_depth`; the cache of depths is never filled. -/
def depthOf (c : Config) (name : Str) : Nat :=
  min (if containsStr name c!"core" || containsStr name c!"base" then 1
    else if containsStr name c!"plugin" || containsStr name c!"extension" then 3
    else if containsStr name c!"app" || containsStr name c!"tool" then 5
    else 2) c.maxDepth

/-- heuristics.rs:184-193 `DependencyDepthHeuristic`. -/
def depth (c : Config) (s : SState) : ℚ := (s.pending.map fun r => (depthOf c r.name : ℚ)).sum * c.depth

/-- heuristics.rs:222-226: what makes a version a pre-release here. -/
def looksPre (t : Str) : Bool :=
  containsStr t c!"alpha" || containsStr t c!"beta" || containsStr t c!"rc" || containsStr t c!"dev" || containsStr t c!"pre"

/-- heuristics.rs:237-243: the first part as a number. -/
def firstPart (t : Str) : Nat := ((splitChar '.' t).head?.bind parseU64).getD 0

/-- heuristics.rs:214-254 `calculate_version_preference_cost`. -/
def preferenceOf (c : Config) (p : Package) : ℚ :=
  match p.version with
  | none => 1
  | some v =>
    if looksPre v.asStr then (if c.latest then 5 else 2)
    else if c.latest then 1 / ((firstPart v.asStr : ℚ) + 1)
    else min ((firstPart v.asStr : ℚ) * (1 / 20)) 1

/-- heuristics.rs:258-266 `VersionPreferenceHeuristic`. -/
def preference (c : Config) (s : SState) : ℚ := (s.resolved.map fun e => preferenceOf c e.2).sum * c.preference

/-- heuristics.rs:328-336 `CompositeHeuristic`, made by `new` (282-292). -/
def composite (c : Config) (s : SState) : ℚ := remaining c s + penalty c s + depth c s + preference c s

/-- heuristics.rs:352-364 `create_for_complexity`. -/
def forComplexity (n : Nat) : SState → ℚ :=
  if n < 10 then composite .fast else if n < 50 then composite .default else composite .thorough

/-- heuristics.rs:367-380 `create_for_scenario`. -/
def forScenario (t : Str) : SState → ℚ :=
  if t = c!"fast" then composite .fast
  else if t = c!"thorough" then composite .thorough
  else if t = c!"conflict_heavy" then composite { Config.default with conflict := 50, multiplier := 500 }
  else composite .default

/-- heuristics.rs:390-396 `AdaptiveStats`. -/
structure Stats where
  states : Nat
  conflicts : Nat
  branching : ℚ
  searchDepth : Nat

/-- heuristics.rs:421-440 `adapt_weights`. -/
def adapt (c : Config) (s : Stats) : Config :=
  { c with
    conflict := if s.conflicts > 5 then c.conflict * 2 else c.conflict
    depth := if s.branching > 10 then c.depth * (3 / 2) else c.depth
    remaining := if s.searchDepth > 10 then c.remaining * (6 / 5) else c.remaining }

/-- heuristics.rs:444-449 `AdaptiveHeuristic`. -/
def adaptive (c : Config) (stats : Stats) (s : SState) : ℚ := composite (adapt c stats) s

end Rez.AStarQueue
