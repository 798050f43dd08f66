import Verif.Model.Search
/-!
# `src/cli/commands/depends.rs`: which packages depend on a package

The repositories are those of Model/Repository.lean.  The command asks them for the family with the empty name again for
every package it looks at; the files are taken to stay as they are while it runs, so that every answer is the first one.
The requirements for building are no part of the model of a package and are parameters.  Left out: progress messages,
`--paths` and the configuration, writing the graph to a file (its text is modelled).
-/
namespace Rez.Depends
open Rez Rez.Repository Rez.PackageOrder

/-- What a package requires for building (types.rs `build_requires`, `private_build_requires`). -/
structure Fields where
  build : Package → List Str
  priv : Package → List Str

/-- depends.rs:15-53 `DependsArgs`: what the search reads. -/
structure Args where
  package : Str
  depth : Option Nat
  build : Bool
  priv : Bool
  quiet : Bool

/-- depends.rs:268-295: the package has the requirement `target`. -/
def needs (f : Fields) (a : Args) (target : Str) (p : Package) : Bool :=
  p.requires.contains target || (a.build && (f.build p).contains target) || (a.priv && (f.priv p).contains target)

/-- depends.rs:254-304 `find_package_dependents`, given all packages. -/
def dependents (f : Fields) (a : Args) (all : List Package) (target : Str) : List Str :=
  (all.filter (needs f a target)).map (·.name)

/-- depends.rs:64-71 `ReverseDependencyTree`: the levels, and under each package those that depend on it.  The version and
the depth kept with a node are never read. -/
structure RevTree where
  levels : List (List Str)
  nodes : List (Str × List Str)
deriving DecidableEq

/-- `Vec::push` unless it is there. -/
def pushNew (l : List Str) (x : Str) : List Str := if l.contains x then l else l ++ [x]

/-- depends.rs:86-89: enough levels for the index `depth`. -/
def padTo (levels : List (List Str)) (depth : Nat) : List (List Str) :=
  levels ++ List.replicate (depth + 1 - levels.length) []

/-- depends.rs:85-111 `add_dependency`. -/
def RevTree.add (t : RevTree) (dependent dependency : Str) (depth : Nat) : RevTree :=
  { levels := (padTo t.levels depth).modify depth (pushNew · dependent)
    nodes := mset t.nodes dependency (pushNew ((mget t.nodes dependency).getD []) dependent) }

/-- What the search has seen. -/
structure Seen where
  queue : List (Str × Nat)
  visited : List Str
  tree : RevTree

/-- depends.rs:243-248: one dependent of `current`. -/
def visit (current : Str) (depth : Nat) (s : Seen) (d : Str) : Seen :=
  if s.visited.contains d then s
  else ⟨s.queue ++ [(d, depth + 1)], s.visited ++ [d], s.tree.add d current (depth + 1)⟩

/-- depends.rs:220-224. -/
def tooDeep (limit : Option Nat) (depth : Nat) : Bool :=
  match limit with
  | some m => decide (m ≤ depth)
  | none => false

/-- depends.rs:218-250: the loop.  It ends by itself (C162_ends); `none` says that `fuel` rounds were not enough. -/
def loop (deps : Str → List Str) (limit : Option Nat) : Nat → Seen → Option RevTree
  | 0, _ => none
  | fuel + 1, s =>
    match s.queue with
    | [] => some s.tree
    | (current, depth) :: rest =>
      if tooDeep limit depth then loop deps limit fuel { s with queue := rest }
      else loop deps limit fuel ((deps current).foldl (visit current depth) { s with queue := rest })

/-- depends.rs:198-251 `build_reverse_dependency_tree`, given the dependents of every package. -/
def tree (deps : Str → List Str) (limit : Option Nat) (package : Str) (fuel : Nat) : Option RevTree :=
  loop deps limit fuel ⟨[(package, 0)], [package], ⟨[], []⟩⟩

/-- depends.rs:349-357: one line, for a level that is not empty; `numbered` are the levels with their depths. -/
def levelLine (quiet : Bool) (e : List Str × Nat) : Option Str :=
  if e.1.isEmpty then none
  else if quiet then some (joinWith c!" " (Search.sortStr e.1))
  else some (c!"#" ++ decimal e.2 ++ c!": " ++ joinWith c!" " (Search.sortStr e.1))

/-- depends.rs:339-361 `print_dependency_tree`: the lines printed. -/
def printed (a : Args) (t : RevTree) : List Str :=
  if t.levels.isEmpty then [c!"No packages depend on '" ++ a.package ++ c!"'"]
  else t.levels.zipIdx.filterMap (levelLine a.quiet)

/-- depends.rs:317-331: the lines of the graph for one node; `quoted` puts a name in quotes as it is. -/
def quoted (s : Str) : Str := c!"\"" ++ s ++ c!"\""
def nodeLines (e : Str × List Str) : List Str :=
  (c!"  " ++ quoted e.1 ++ c!";") :: e.2.map fun d => c!"  " ++ quoted e.1 ++ c!" -> " ++ quoted d ++ c!";"

/-- depends.rs:307-335 `generate_dot_graph`: its lines; `iter` is the order in which the nodes are iterated. -/
def dot (iter : List (Str × List Str) → List (Str × List Str)) (root : Str) (t : RevTree) : List Str :=
  [c!"digraph dependencies {", c!"  rankdir=BT;",
   c!"  node [shape=box, style=filled, fillcolor=\"#F6F6F6\", fontsize=10];", c!"  edge [color=\"#666666\"];", [],
   c!"  " ++ quoted root ++ c!" [fillcolor=\"#AAFFAA\", fontweight=bold];"] ++
  (iter t.nodes).flatMap nodeLines ++ [c!"}"]

/-- depends.rs:123-195 `execute_depends` without a graph: the lines printed, `err` if a repository cannot be read, `none`
within `ok` if the fuel does not last. -/
def command (srt : Sorting) (f : Fields) (fuel : Nat) (roots : List Root) (a : Args) : Outcome (Option (List Str)) :=
  match (managerFind srt (roots.map fun r => (r, State.new)) []).2 with
  | .ok all => .ok ((tree (dependents f a all) a.depth a.package fuel).map (printed a))
  | .err => .err
  | .panic => .panic

end Rez.Depends
