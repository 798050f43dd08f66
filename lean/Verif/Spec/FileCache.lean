import Verif.Model.FileCache
/-!
# What a package cache should do
-/
namespace Rez.Spec.FileCache
open Rez Rez.FileCache
variable {D : Type}

/-- The completed puts of a path since it was last removed, the latest first. -/
def putsSince (path : Str) (h : List (Op D)) : List (Cached D) :=
  h.foldl (fun acc o => match o with
    | .put p e => if p = path then e :: acc else acc
    | .remove p => if p = path then [] else acc
    | .clear => []
    | _ => acc) []

/-- No process died inside an operation. -/
def NoCrash (h : List (Op D)) : Prop := ∀ o ∈ h, (∀ p e a, o ≠ .crashPut p e a) ∧ ∀ g, o ≠ .crashClear g

/-- The entry is not expired, and the source is there with a modification time within a second of the recorded one. -/
def Current (w : World) (path : Str) (e : Cached D) : Prop :=
  (∃ t, w.mtime path = some t ∧ t < e.mtime + 10 ^ 9 ∧ e.mtime < t + 10 ^ 9) ∧
    ∀ ttl, e.ttl = some ttl → e.cachedAt ≤ w.now ∧ w.now ≤ e.cachedAt + ttl

/-- The operation neither puts nor removes the path. -/
def Leaves (path : Str) : Op D → Prop
  | .put p _ => p ≠ path
  | .remove p => p ≠ path
  | .crashPut p _ _ => p ≠ path
  | .get _ _ => True
  | .restart => True
  | .clear => False
  | .crashClear _ => False

end Rez.Spec.FileCache
