import Verif.Model.RepoCache
/-!
# What a repository cache should do
-/
namespace Rez.Spec.RepoCache
open Rez Rez.RepoCache
variable {P : Type}

/-- A put that succeeded: the world it met, the package and the source. -/
structure Put (P : Type) where
  world : World
  package : P
  path : Str

/-- A put succeeds when the clock and the source can be read. -/
def putSucceeds (w : World) (path : Str) : Bool := w.now.isSome && (w.file path).isSome

/-- The last successful put of a key, unless it was removed since. -/
def lastPut (key : Str) (h : List (Op P)) : Option (Put P) :=
  h.foldl (fun acc o => match o with
    | .put w k package path => if k = key ∧ putSucceeds w path then some ⟨w, package, path⟩ else acc
    | .remove k => if k = key then none else acc
    | .clear => none
    | .get _ _ => acc
    | .cleanup _ => acc) none

/-- The time to live has not passed. -/
def Alive (cfg : Config) (then_ now : World) : Prop := now.now.getD 0 ≤ then_.now.getD 0 + cfg.ttl

/-- The source has the text it had. -/
def Unchanged (path : Str) (then_ now : World) : Prop := (now.file path).map File.content = (then_.file path).map File.content

/-- A changed source is still there, and shows a modification time at least one second later. -/
def ChangesShow (path : Str) (then_ now : World) : Prop :=
  Unchanged path then_ now ∨
    ∃ f g, then_.file path = some f ∧ now.file path = some g ∧ f.mtime / 10 ^ 9 < g.mtime / 10 ^ 9

/-- The number of lookups since the last clear. -/
def lookups (h : List (Op P)) : Nat :=
  h.foldl (fun n o => match o with
    | .get _ _ => n + 1
    | .clear => 0
    | _ => n) 0

end Rez.Spec.RepoCache
