import Verif.Model.TwoLevel
/-!
# What a two-level cache should do
-/
namespace Rez.Spec.TwoLevel
open Rez Rez.TwoLevel
variable {K V : Type} [DecidableEq K]

/-- The puts of a key since it was last removed, the latest first: the value and the time. -/
def putsSince (key : K) (h : List (Op K V)) : List (V × Nat) :=
  h.foldl (fun acc o => match o with
    | .put m k v => if k = key then (v, m.now) :: acc else acc
    | .remove k => if k = key then [] else acc
    | .clear => []
    | .get _ _ => acc) []

/-- The last put of a key, unless it was removed since. -/
def lastPut (key : K) (h : List (Op K V)) : Option (V × Nat) := (putsSince key h).head?

/-- What was put at `t` has not expired. -/
def Fresh (cfg : Config) (t now : Nat) : Prop := cfg.ttl = 0 ∨ t ≤ now ∧ now < t + cfg.ttl * 10 ^ 9

/-- A key is put only when it has never been put or was removed since. -/
def NoOverwrite (h : List (Op K V)) : Prop := ∀ pre m k v post, h = pre ++ .put m k v :: post → lastPut k pre = none

/-- At every put and lookup the first level has room. -/
def Roomy (cfg : Config) (h : List (Op K V)) : Prop :=
  ∀ pre o post, h = pre ++ o :: post → (run cfg pre).l1.length < cfg.max1

/-- Every key of the map is listed once. -/
def MomentOk (m : Moment K V) : Prop := ∀ l, (m.order l).Perm (mkeys l)

/-- All moments of a history are so. -/
def MomentsOk (h : List (Op K V)) : Prop :=
  (∀ m k v, Op.put m k v ∈ h → MomentOk m) ∧ ∀ m k, Op.get m k ∈ h → MomentOk m

/-- The operation does not put the key. -/
def NotPut (key : K) : Op K V → Prop
  | .put _ k _ => k ≠ key
  | _ => True

end Rez.Spec.TwoLevel
