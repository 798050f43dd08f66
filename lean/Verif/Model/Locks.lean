import Mathlib.Logic.Relation
import Mathlib.Logic.Function.Basic
/-!
# Tasks and read-write locks

`tokio::sync::RwLock`: many readers or one writer; waiting tasks are served first come, first served, so a reader
waits behind a writer that came before it.  A task is the list of lock operations it still has to make; what it does
with the data in between is left out, since it does not block.
-/
namespace Rez.Locks

/-- `read()` or `write()`. -/
inductive Mode where
  | read
  | write
deriving DecidableEq

/-- Waiting for a lock, and dropping its guard. -/
inductive Instr (L : Type) where
  | acquire (l : L) (m : Mode)
  | release (l : L) (m : Mode)
deriving DecidableEq

/-- The guards a task holds and what it has still to do. -/
structure Task (L : Type) where
  held : List (L × Mode)
  todo : List (Instr L)

/-- All tasks, and the tasks that wait for each lock, first come first. -/
structure State (ι L : Type) where
  task : ι → Task L
  queue : L → List ι

variable {ι L : Type} [DecidableEq ι] [DecidableEq L]

/-- May the lock be granted? -/
def Grantable (s : State ι L) (l : L) : Mode → Prop
  | .write => ∀ j m, (l, m) ∉ (s.task j).held
  | .read => ∀ j, (l, Mode.write) ∉ (s.task j).held

/-- One step of one task. -/
inductive Step (s : State ι L) : State ι L → Prop
  | wait {i l m rest} : (s.task i).todo = .acquire l m :: rest → i ∉ s.queue l →
      Step s { s with queue := Function.update s.queue l (s.queue l ++ [i]) }
  | grant {i l m rest q} : (s.task i).todo = .acquire l m :: rest → s.queue l = i :: q → Grantable s l m →
      Step s ⟨Function.update s.task i ⟨(l, m) :: (s.task i).held, rest⟩, Function.update s.queue l q⟩
  | release {i l m rest} : (s.task i).todo = .release l m :: rest →
      Step s { s with task := Function.update s.task i ⟨(s.task i).held.erase (l, m), rest⟩ }

/-- Tasks about to run their programs. -/
def start (prog : ι → List (Instr L)) : State ι L := ⟨fun i => ⟨[], prog i⟩, fun _ => []⟩

/-- Everything that can come up. -/
def Reachable (prog : ι → List (Instr L)) (s : State ι L) : Prop := Relation.ReflTransGen Step (start prog) s

/-- Some task has not finished and no task can make a step. -/
def Deadlocked (s : State ι L) : Prop := (∃ i, (s.task i).todo ≠ []) ∧ ∀ s', ¬ Step s s'

end Rez.Locks
