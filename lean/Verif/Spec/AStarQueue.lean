import Verif.Model.AStarQueue
import Verif.Spec.AStar
/-!
# What the cheapest packages are
-/
namespace Rez.Spec.AStarQueue
open Rez Rez.Spec

/-- The cost of a package: one, a tenth for each requirement, less a thousandth for each major version up to a hundred. -/
def price (p : Package) : ℚ :=
  1 + p.requires.length / 10 - (match p.version with
    | some v => min (((splitChar '.' v.asStr).filterMap parseU64).headD 0) 100
    | none => 0 : Nat) / 1000

/-- The cost of packages. -/
def total (pkgs : List Package) : ℚ := (pkgs.map price).sum

/-- From one state packages lead to another: the first requirement that is pending is met by a listed package, and so on.  `k` is
what these packages cost. -/
inductive Leads (env : AEnv) : SState → SState → ℚ → Prop
  | here {s} : Leads env s s 0
  | step {s s' g r rest ps p k} : s.pending = r :: rest → env.find r.name = some ps → p ∈ ps →
      Search.specExcludes r p = false → Search.prereleaseExcludes env p = false → Search.createSuccessor s p r = .ok s' →
      Leads env s' g k → Leads env s g (price p + k)

/-- The heuristic never exceeds what is still to be paid. -/
def Admissible (env : AEnv) (reqs : List PackageRequirement) (h : SState → ℚ) : Prop :=
  ∀ s g k, Reached env reqs s → Leads env s g k → g.isGoal = true → h s ≤ k

/-- What the heap yields is not below any other element (`BinaryHeap::pop`). -/
def Pops (q : AStarQueue.Queue) : Prop :=
  ∀ t l n, l[q.pick t l % l.length]? = some n → ∀ m ∈ l, AStarQueue.cmpNode q.env m n ≠ .gt

/-- No requirement of the request or of a listed package is weak, a conflict, or a text that stops the program. -/
def Plain (env : AEnv) (reqs : List PackageRequirement) : Prop :=
  (∀ q, (q ∈ reqs ∨ ∃ p, AListed env p ∧ ∃ raw ∈ p.requires, PackageRequirement.parse raw = .ok q) →
    q.conflict = false ∧ q.weak = false) ∧
  ∀ p, AListed env p → ∀ raw ∈ p.requires, PackageRequirement.parse raw ≠ .panic

end Rez.Spec.AStarQueue
