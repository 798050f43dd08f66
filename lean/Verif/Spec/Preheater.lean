import Verif.Model.Preheater
import Mathlib.Algebra.Order.Group.Unbundled.Int
/-!
# Specification: which predictions are made

Written from the English description, in terms of the history of operations.
-/
namespace Rez.Preheater.Spec
open Rez Rez.Preheater

/-- The accesses to a key in a history, the oldest first. -/
def accesses {K : Type} [DecidableEq K] (k : K) : List (Op K) → List Int
  | [] => []
  | .access k' t :: ops => if k' = k then t :: accesses k ops else accesses k ops
  | _ :: ops => accesses k ops

/-- The accesses of the 24 hours before the last one, in nanoseconds. -/
def lastDay (times : List Int) : List Int :=
  match times.getLast? with
  | none => []
  | some last => times.filter fun t => decide (last - 24 * 60 * 60 * 1000000000 ≤ t)

/-- The clock never went back. -/
def Forward (times : List Int) : Prop := times.Pairwise (· ≤ ·)

/-- A square root, as far as it is needed. -/
structure Root (root : ℚ → ℚ) : Prop where
  nonneg : ∀ x, 0 ≤ root x
  zero : root 0 = 0
  pos : ∀ x, 0 < x → 0 < root x

/-- No further apart than so many seconds, and what is left of one. -/
def Near (window : Nat) (a b : Int) : Prop := |a - b| < (window + 1) * 1000000000

instance (window : Nat) (a b : Int) : Decidable (Near window a b) := by unfold Near; infer_instance

/-- The keys that were accessed. -/
def accessed {K : Type} (ops : List (Op K)) : List K := ops.filterMap fun | .access k _ => some k | _ => none

/-- How often an outcome was told. -/
def told {K : Type} (hit : Bool) (ops : List (Op K)) : Nat := ops.countP fun | .outcome h => h == hit | _ => false

/-- All the same. -/
def AllEqual (l : List Nat) : Prop := ∀ a ∈ l, ∀ b ∈ l, a = b

end Rez.Preheater.Spec
