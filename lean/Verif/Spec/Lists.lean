import Verif.Model.Lists
/-!
# Specification vocabulary for the small collections
-/
namespace Rez.Spec.Lists
open Rez Rez.Lists

/-- The calls that change a list. -/
inductive Op (α : Type) where
  | add (x : α)
  | remove (name : Str)

variable {α : Type}

/-- The list after a sequence of calls on a new one. -/
def after (name : α → Str) (ops : List (Op α)) : Multi α :=
  ops.foldl (fun m op => match op with | .add x => m.add name x | .remove n => m.remove n) Multi.new

/-- The entries that a user expects to be there, oldest first: those added and not removed since. -/
def kept (name : α → Str) : List (Op α) → List α
  | [] => []
  | .add x :: ops => (if ops.any (fun op => match op with | .remove n => n == name x | _ => false) then [] else [x]) ++ kept name ops
  | .remove _ :: ops => kept name ops

/-- The factory registered last under a name. -/
def lastRegistered {Hook : Type} : List (Str × (Str → Option Hook)) → Str → Option (Str → Option Hook)
  | [], _ => none
  | (m, f) :: before, n => if m = n then some f else lastRegistered before n

/-- The registry after registrations, the latest first. -/
def registered {Hook : Type} : List (Str × (Str → Option Hook)) → Registry Hook
  | [] => []
  | (m, f) :: before => (registered before).register m f

end Rez.Spec.Lists
