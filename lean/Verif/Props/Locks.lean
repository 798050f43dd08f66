import Verif.Lemmas.LocksExec
import Verif.Model.CacheLocks
/-!
# C41: the caches and their locks
-/
namespace Rez.Props
open Rez.Locks

/-- C41, refuted: a `put` that evicts nothing and a `get`, on the solver cache: the `put` holds the statistics and
waits for the entries, the `get` the other way round. -/
theorem C41_put_get_false :
    ∃ s, Reachable (fun b : Bool => sProg (if b then .put else .get true)) s ∧ Deadlocked s :=
  deadlocks_sound (all := [true, false]) (by decide)
    (sched := [true, true, true, true, true, true, true, true, false, false, false, true]) (by decide)

/-- C41, refuted: the same for a `put` and a `remove`. -/
theorem C41_put_remove_false :
    ∃ s, Reachable (fun b : Bool => sProg (if b then .put else .remove true)) s ∧ Deadlocked s :=
  deadlocks_sound (all := [true, false]) (by decide)
    (sched := [true, true, true, true, true, true, true, true, false, false, false, false, false, false, true]) (by decide)

/-- C41, refuted: two `put`s, of which one evicts. -/
theorem C41_put_put_false :
    ∃ s, Reachable (fun b : Bool => sProg (if b then .put else .putLru 1)) s ∧ Deadlocked s :=
  deadlocks_sound (all := [true, false]) (by decide)
    (sched := [true, true, true, true, true, true, true, true, false, false, false, false, false, false, false, false, false, true])
    (by decide)

/-- C41, refuted: `cleanup` waits for the entries, which it holds itself: alone in the world it never returns. -/
theorem C41_cleanup_false : ∃ s, Reachable (fun _ : Unit => sProg (.cleanup 0)) s ∧ Deadlocked s :=
  deadlocks_sound (all := [()]) (fun _ => List.mem_singleton.mpr rfl) (sched := [(), (), (), (), ()]) (by decide)

theorem times_brief_mem (n : Nat) : Instr.release SLock.entries Mode.write ∉ times n (brief SLock.order Mode.write) := by
  induction n with
  | zero => exact List.not_mem_nil
  | succ n ih =>
    intro h
    rcases List.mem_append.mp h with h | h
    · simp [brief] at h
    · exact ih h

/-- C41, refuted: in any company, a `cleanup` of the solver cache never returns. -/
theorem C41_cleanup_never_false {ι : Type} [DecidableEq ι] (ops : ι → List SOp) (i : ι) (n : Nat) (rest : List SOp)
    (hi : ops i = .cleanup n :: rest) {s : State ι SLock} (hs : Reachable (fun i => (ops i).flatMap sProg) s) :
    (s.task i).todo ≠ [] := by
  refine doomed_never (l := .entries) (.inr ⟨times n (brief .order .write) ++ [.acquire .stats .write], .read,
    [.release .entries .read] ++ [.release .stats .write, .release .entries .write] ++ rest.flatMap sProg, ?_, ?_⟩) hs
  · simp only [hi, List.flatMap_cons, sProg, brief, List.append_assoc, List.cons_append, List.nil_append]
  · intro h
    rcases List.mem_append.mp h with h | h
    · exact times_brief_mem n h
    · simp at h

/-- C41, refuted: a `put` and a `get` on the repository cache. -/
theorem C41_repository_false :
    ∃ s, Reachable (fun b : Bool => rProg (if b then .put false else .get)) s ∧ Deadlocked s :=
  deadlocks_sound (all := [true, false]) (by decide)
    (sched := [true, true, true, true, true, false, false, false, true]) (by decide)

/-- C41, refuted: two `put`s on the repository cache, of which one cleans up. -/
theorem C41_repository_puts_false :
    ∃ s, Reachable (fun b : Bool => rProg (.put b)) s ∧ Deadlocked s :=
  deadlocks_sound (all := [true, false]) (by decide)
    (sched := List.replicate 12 true ++ List.replicate 5 false ++ [true, true, true, false]) (by decide)

/-- The operations of the solver cache that look up and remove. -/
def lookupOp : SOp → Bool
  | .get _ | .remove _ | .clear | .getStats => true
  | _ => false

/-- The operations of the solver cache that insert below capacity. -/
def insertOp : SOp → Bool
  | .put | .clear | .getStats => true
  | _ => false

/-- C41, partial: any number of tasks, each running any sequence of `get`, `remove`, `clear` and `get_stats`, never
deadlock.  Missing: mixing them with `put`, and `cleanup`, where the claim is false. -/
theorem C41_lookups_partial {ι : Type} [DecidableEq ι] (ops : ι → List SOp) (h : ∀ i, ∀ o ∈ ops i, lookupOp o = true)
    {s : State ι SLock} (hs : Reachable (fun i => (ops i).flatMap sProg) s) : ¬ Deadlocked s := by
  refine no_deadlock (rank := fun | .entries => 0 | .stats => 1 | .order => 2) (bound := 3)
    (fun l => by cases l <;> decide) (fun i => ordered_flatMap fun o ho => ?_) hs
  have := h i o ho
  match o with
  | .get true | .get false | .remove true | .remove false | .clear | .getStats => decide
  | .put | .putLru _ | .putEvict _ | .cleanup _ => cases this

/-- C41, partial: any number of tasks, each running any sequence of `put` without eviction, `clear` and `get_stats`,
never deadlock. -/
theorem C41_inserts_partial {ι : Type} [DecidableEq ι] (ops : ι → List SOp) (h : ∀ i, ∀ o ∈ ops i, insertOp o = true)
    {s : State ι SLock} (hs : Reachable (fun i => (ops i).flatMap sProg) s) : ¬ Deadlocked s := by
  refine no_deadlock (rank := fun | .stats => 0 | .entries => 1 | .order => 2) (bound := 3)
    (fun l => by cases l <;> decide) (fun i => ordered_flatMap fun o ho => ?_) hs
  have := h i o ho
  match o with
  | .put | .clear | .getStats => decide
  | .get _ | .remove _ | .putLru _ | .putEvict _ | .cleanup _ => cases this

/-- The operations of the repository cache other than `put`. -/
def notPut : ROp → Bool
  | .put _ => false
  | _ => true

/-- C41, partial: without `put`, the operations of the repository cache never deadlock. -/
theorem C41_repository_partial {ι : Type} [DecidableEq ι] (ops : ι → List ROp) (h : ∀ i, ∀ o ∈ ops i, notPut o = true)
    {s : State ι RLock} (hs : Reachable (fun i => (ops i).flatMap rProg) s) : ¬ Deadlocked s := by
  refine no_deadlock (rank := fun | .index => 0 | .stats => 1) (bound := 2)
    (fun l => by cases l <;> decide) (fun i => ordered_flatMap fun o ho => ?_) hs
  have := h i o ho
  match o with
  | .get | .remove true | .remove false | .clear | .getStats | .cleanup | .load => decide
  | .put _ => cases this

/-- Tasks that meet the hypothesis and reach a state in which one holds the entries and the other waits for them. -/
example : let ops : Bool → List SOp := fun b => if b then [.get true, .remove true] else [.clear]
    (∀ i, ∀ o ∈ ops i, lookupOp o = true) ∧
    ∃ s, Reachable (fun i => (ops i).flatMap sProg) s ∧ (s.task true).held = [(.entries, .write)] ∧ s.queue .entries = [false] := by
  refine ⟨by decide, ?_⟩
  have ha : ∀ i : Bool, i ∈ [true, false] := by decide
  exact ⟨_, execAll_reachable ha [true, true, false] .refl rfl, rfl, rfl⟩

end Rez.Props
