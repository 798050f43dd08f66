import Verif.Base.Map
/-!
# The small collections: `rez-next-solver/src/requirement_list.rs`, `dependency_conflicts.rs`,
`rez-next-release-hook/src/registry.rs`
-/
namespace Rez.Lists
open Rez

/-- requirement_list.rs:14-17, dependency_conflicts.rs:15-18: the entries by package name.  The two files are the same
but for the type of the entries, here `α`. -/
abbrev Multi (α : Type) := List (Str × List α)

variable {α : Type}

/-- requirement_list.rs:21-25, dependency_conflicts.rs:22-26 `new`. -/
def Multi.new : Multi α := []

/-- requirement_list.rs:28-33, dependency_conflicts.rs:29-34 `add_requirement`, `add_conflict`; `name` is the name that
the entry carries. -/
def Multi.add (name : α → Str) (m : Multi α) (x : α) : Multi α := mset m (name x) ((mget m (name x)).getD [] ++ [x])

/-- requirement_list.rs:36-38, dependency_conflicts.rs:37-39 `remove_requirements`, `remove_conflicts`. -/
def Multi.remove (m : Multi α) (n : Str) : Multi α := mdel m n

/-- requirement_list.rs:41-46, dependency_conflicts.rs:42-47 `get_requirements`, `get_conflicts`. -/
def Multi.get (m : Multi α) (n : Str) : List α := (mget m n).getD []

/-- requirement_list.rs:49-51, dependency_conflicts.rs:50-52 `all_requirements`, `all_conflicts`; `iter` is the order of
the hash map. -/
def Multi.all (iter : Multi α → Multi α) (m : Multi α) : List α := (iter m).flatMap Prod.snd

/-- requirement_list.rs:54-56, dependency_conflicts.rs:55-57 `is_empty`. -/
def Multi.isEmpty (m : Multi α) : Bool := List.isEmpty m

/-- requirement_list.rs:59-61, dependency_conflicts.rs:60-62 `len`. -/
def Multi.len (m : Multi α) : Nat := List.length m

/-! ## Release hooks -/

/-- registry.rs:10-18: the factories by name.  A factory gives a hook for a source path, or an error. -/
abbrev Registry (Hook : Type) := List (Str × (Str → Option Hook))

variable {Hook : Type}

/-- registry.rs:34-40 `register`. -/
def Registry.register (r : Registry Hook) (name : Str) (factory : Str → Option Hook) : Registry Hook := mset r name factory

/-- registry.rs:43-46 `get_hook_types`, up to the order of the hash map. -/
def Registry.types (r : Registry Hook) : List Str := mkeys r

/-- registry.rs:58-67 `create_hook`. -/
def Registry.create (r : Registry Hook) (name path : Str) : Option Hook :=
  match mget r name with
  | some factory => factory path
  | none => none

/-- registry.rs:73-86 `create_hooks`. -/
def Registry.createAll (r : Registry Hook) (path : Str) : List Str → List Hook
  | [] => []
  | n :: ns =>
    match r.create n path with
    | some h => h :: r.createAll path ns
    | none => r.createAll path ns

end Rez.Lists
