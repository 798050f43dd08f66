import Verif.Model.Monitor
/-!
# What a performance monitor should say
-/
namespace Rez.Spec.Monitor
open Rez Rez.Monitor

/-- The latencies of the recorded operations of one kind, in order. -/
def latencies (k : Kind) (calls : List Call) : List Nat :=
  calls.filterMap fun c => match c with
    | .record j us => if j = k then some us else none
    | _ => none

/-- The latencies of all recorded operations, in order. -/
def samples (calls : List Call) : List Nat :=
  calls.filterMap fun c => match c with
    | .record _ us => some us
    | _ => none

/-- The memory usages reported, in order. -/
def usages (calls : List Call) : List Nat :=
  calls.filterMap fun c => match c with
    | .memory u => some u
    | _ => none

/-- The events of the recorded operations, oldest first; `now` is the memory usage at the beginning. -/
def events : Nat → List Call → List Event
  | _, [] => []
  | now, .record k us :: calls => ⟨k, us, now⟩ :: events now calls
  | _, .memory u :: calls => events u calls
  | now, _ :: calls => events now calls

/-- The calls since the last `reset`. -/
def Since (calls before since : List Call) : Prop :=
  calls = before ++ since ∧ (before = [] ∨ ∃ b, before = b ++ [.reset]) ∧ .reset ∉ since

/-- `b` is the least bucket of a sample such that at least `t` samples are in it or below. -/
def IsPercentile (samples : List Nat) (t b : Nat) : Prop :=
  (∃ s ∈ samples, bucket s = b) ∧ t ≤ samples.countP (fun s => bucket s ≤ b) ∧
  ∀ s ∈ samples, bucket s < b → samples.countP (fun s' => bucket s' ≤ bucket s) < t

end Rez.Spec.Monitor
