import Verif.Model.SolverCache
/-!
# What a cache should do
-/
namespace Rez.Spec
open Rez Rez.SolverCache
variable {V : Type}

/-- The value last put for the key and the time of the put, unless the key was removed since; the latest operation is
the last of the list. -/
def lastPut (key : Str) : List (Op V) → Option (V × Nat) :=
  List.foldl (fun acc o => match o with
    | .put m k v => if k = key then (m.now k).map fun t => (v, t) else acc
    | .remove k => if k = key then none else acc
    | .clear => none
    | .get _ _ => acc) none

/-- The clock was readable at every put. -/
def ClockOk (h : List (Op V)) : Prop := ∀ m k v, Op.put m k v ∈ h → (m.now k).isSome = true

/-- The hash map yields each of its entries once. -/
def ScanOk (m : Moment V) : Prop := ∀ l, (m.scan l).Perm l

/-- Every put scans the hash map properly. -/
def ScansOk (h : List (Op V)) : Prop := ∀ m k v, Op.put m k v ∈ h → ScanOk m

/-- The keys put or found, in the order of use. -/
def uses (cfg : Config) (h : List (Op V)) : List Str :=
  (h.foldl (fun (s : Cache V × List Str) o => (o.run cfg s.1, s.2 ++ (match o with
    | .put m k _ => if (m.now k).isSome then [k] else []
    | .get now k => if (get now s.1 k).2.isSome then [k] else []
    | _ => []))) (Cache.new, [])).2

/-- The cache after a history, and how often the key was found since it was last put. -/
def hitState (cfg : Config) (key : Str) (h : List (Op V)) : Cache V × Nat :=
  h.foldl (fun (s : Cache V × Nat) o => (o.run cfg s.1, (match o with
    | .put m k _ => if k = key ∧ (m.now k).isSome then 0 else s.2
    | .get now k => if k = key ∧ (get now s.1 k).2.isSome then s.2 + 1 else s.2
    | _ => s.2))) (Cache.new, 0)

/-- How often the key was found since it was last put. -/
def hits (cfg : Config) (key : Str) (h : List (Op V)) : Nat := (hitState cfg key h).2

/-- `b` was used after the last use of `a`. -/
def UsedAfter (l : List Str) (a b : Str) : Prop := ∃ pre post, l = pre ++ b :: post ∧ a ∉ post

/-- The lookups since the cache was made or cleared. -/
def lookups (h : List (Op V)) : Nat :=
  h.foldl (fun n o => match o with
    | .get _ _ => n + 1
    | .clear => 0
    | _ => n) 0

end Rez.Spec
