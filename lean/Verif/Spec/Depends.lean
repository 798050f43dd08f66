import Verif.Model.Depends
import Verif.Spec.Search
/-!
# What the command that lists dependents promises
-/
namespace Rez.Depends.Spec
open Rez Rez.Repository

/-- A package of the repositories is named `x` and lists the name `target` among its requirements, or among those for
building that were asked for. -/
def DependsOn (f : Fields) (a : Args) (all : List Package) (target x : Str) : Prop :=
  ∃ p ∈ all, p.name = x ∧ (target ∈ p.requires ∨ (a.build = true ∧ target ∈ f.build p) ∨ (a.priv = true ∧ target ∈ f.priv p))

/-- `x` is at the distance `k` from `a`: a chain of `k` dependents leads there, and no shorter one. -/
inductive Chain (dep : Str → Str → Prop) (a : Str) : Nat → Str → Prop where
  | start : Chain dep a 0 a
  | step {k p x} : Chain dep a k p → dep p x → Chain dep a (k + 1) x

/-- The shortest chain has `k` steps. -/
def Distance (dep : Str → Str → Prop) (a : Str) (k : Nat) (x : Str) : Prop :=
  Chain dep a k x ∧ ∀ j < k, ¬ Chain dep a j x

/-- The limit, if there is one, is not passed. -/
def Within (limit : Option Nat) (k : Nat) : Prop := ∀ m, limit = some m → k ≤ m

end Rez.Depends.Spec
