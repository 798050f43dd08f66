import Verif.Model.Graph
import Mathlib.Logic.Relation
/-!
# Specification vocabulary for dependency graphs
-/
namespace Rez.Spec
open Rez

/-- `a` depends directly on `b`. -/
def Dep (g : Graph) (a b : Str) : Prop := ∃ n, mget g.nodes a = some n ∧ b ∈ n.deps

/-- No package depends on itself, directly or not. -/
def Acyclic (g : Graph) : Prop := ∀ k, ¬ Relation.TransGen (Dep g) k k

/-- The graph has one node per key, the edge sets have no duplicates, and `a` lists `b` as a dependency exactly
when `b` lists `a` as a dependent, both being in the graph. -/
structure Mirrored (g : Graph) : Prop where
  keys : (mkeys g.nodes).Nodup
  deps : ∀ a n, mget g.nodes a = some n → n.deps.Nodup
  dependents : ∀ a n, mget g.nodes a = some n → n.dependents.Nodup
  forth : ∀ a n b, mget g.nodes a = some n → b ∈ n.deps → ∃ m, mget g.nodes b = some m ∧ a ∈ m.dependents
  back : ∀ b m a, mget g.nodes b = some m → a ∈ m.dependents → ∃ n, mget g.nodes a = some n ∧ b ∈ n.deps

/-- The public operations that change a graph. -/
inductive GraphOp where
  | addPackage (p : Package)
  | addRequirement (r : PackageRequirement)
  | addConstraint (r : PackageRequirement)
  | addExclusion (name : Str)
  | addEdge (a b : Str)
  | removePackage (k : Str)
  | applyResolution (r : Graph.Resolution)
  | clear

/-- The effect of an operation. -/
def GraphOp.apply (g : Graph) : GraphOp → Graph
  | .addPackage p => (g.addPackage p).1
  | .addRequirement r => g.addRequirement r
  | .addConstraint r => g.addConstraint r
  | .addExclusion n => g.addExclusion n
  | .addEdge a b => (g.addEdge a b).1
  | .removePackage k => g.removePackage k
  | .applyResolution r => g.applyResolution r
  | .clear => Graph.new

/-- The graph after a history of operations. -/
def runOps (ops : List GraphOp) : Graph := ops.foldl GraphOp.apply Graph.new

/-- The operations the mirroring survives: a package is only added under a new key, and an edge is only added
to a package that is in the graph. -/
def GraphOp.Clean (g : Graph) : GraphOp → Prop
  | .addPackage p => p.key ∉ mkeys g.nodes
  | .addEdge _ b => b ∈ mkeys g.nodes
  | _ => True

/-- A history in which each operation is clean when it is applied. -/
def CleanFrom : Graph → List GraphOp → Prop
  | _, [] => True
  | g, op :: ops => op.Clean g ∧ CleanFrom (op.apply g) ops

/-- `g'` holds the same nodes and edges as `g`, in another iteration order. -/
structure SameGraph (g g' : Graph) : Prop where
  keys : (mkeys g'.nodes).Perm (mkeys g.nodes)
  nodes : ∀ k n, mget g.nodes k = some n → ∃ n', mget g'.nodes k = some n' ∧ n'.package = n.package ∧
    n'.deps.Perm n.deps ∧ n'.dependents.Perm n.dependents

/-- Each element of the list is related to the next. -/
def Linked {α : Type} (R : α → α → Prop) : List α → Prop
  | [] => True
  | [_] => True
  | a :: b :: l => R a b ∧ Linked R (b :: l)

/-- A cycle: a non-empty list of keys in which each depends on the next and the last on the first. -/
def IsCycle (g : Graph) (c : List Str) : Prop :=
  ∃ x xs, c = x :: xs ∧ Linked (Dep g) c ∧ Dep g (c.getLast?.getD x) x

/-- `a` stands before `b` in `l`. -/
def Before (l : List Str) (a b : Str) : Prop := ∃ l1 l2 l3, l = l1 ++ a :: (l2 ++ b :: l3)

end Rez.Spec
