import Verif.Lemmas.Locks
/-!
# Running schedules
-/
namespace Rez.Locks
variable {ι L : Type} [DecidableEq ι] [DecidableEq L]

/-- `Grantable`, computed for the tasks listed -/
def grantableB (all : List ι) (s : State ι L) (l : L) : Mode → Bool
  | .write => all.all fun j => (s.task j).held.all fun h => h.1 != l
  | .read => all.all fun j => (s.task j).held.all fun h => !(h.1 == l && h.2 == .write)

theorem grantableB_iff {all : List ι} (ha : ∀ i, i ∈ all) (s : State ι L) (l : L) (m : Mode) :
    grantableB all s l m = true ↔ Grantable s l m := by
  cases m with
  | write =>
    simp only [grantableB, List.all_eq_true, bne_iff_ne, ne_eq]
    constructor
    · intro h j m' hm; exact h j (ha j) _ hm rfl
    · rintro h j _ ⟨l', m'⟩ hm rfl; exact h j m' hm
  | read =>
    simp only [grantableB, List.all_eq_true, Bool.not_eq_true', Bool.and_eq_false_iff, beq_eq_false_iff_ne]
    constructor
    · intro h j hm
      rcases h j (ha j) _ hm with h | h <;> exact h rfl
    · rintro h j _ ⟨l', m'⟩ hm
      by_contra hc
      simp only [not_or, Classical.not_not] at hc
      rw [hc.1, hc.2] at hm
      exact h j hm

/-- the next step of a task, if it can make one -/
def execStep (all : List ι) (s : State ι L) (i : ι) : Option (State ι L) :=
  match (s.task i).todo with
  | [] => none
  | .release l m :: rest => some { s with task := Function.update s.task i ⟨(s.task i).held.erase (l, m), rest⟩ }
  | .acquire l m :: rest =>
    if i ∈ s.queue l then
      if (s.queue l).head? = some i ∧ grantableB all s l m = true then
        some ⟨Function.update s.task i ⟨(l, m) :: (s.task i).held, rest⟩, Function.update s.queue l (s.queue l).tail⟩
      else none
    else some { s with queue := Function.update s.queue l (s.queue l ++ [i]) }

theorem execStep_step {all : List ι} (ha : ∀ i, i ∈ all) {s s' : State ι L} {i : ι} (h : execStep all s i = some s') :
    Step s s' := by
  unfold execStep at h
  split at h
  · cases h
  · rename_i l m rest htodo
    cases h
    exact .release htodo
  · rename_i l m rest htodo
    split at h
    · split at h
      · rename_i hc
        cases h
        have hq : s.queue l = i :: (s.queue l).tail := by
          cases hl : s.queue l with
          | nil => rw [hl] at hc; simp at hc
          | cons a q => rw [hl] at hc; simp only [List.head?_cons, Option.some.injEq] at hc; rw [hc.1]; rfl
        exact .grant htodo hq ((grantableB_iff ha s l m).mp hc.2)
      · cases h
    · rename_i hq
      cases h
      exact .wait htodo hq

theorem step_execStep {all : List ι} (ha : ∀ i, i ∈ all) {s s' : State ι L} (hn : ∀ l, (s.queue l).Nodup)
    (h : Step s s') : ∃ i, execStep all s i ≠ none := by
  cases h with
  | @wait i l m rest htodo hq =>
    refine ⟨i, ?_⟩
    unfold execStep
    rw [htodo]
    simp only [hq, if_false]
    exact Option.some_ne_none _
  | @grant i l m rest q htodo hq hg =>
    refine ⟨i, ?_⟩
    unfold execStep
    rw [htodo]
    simp only [hq, List.mem_cons, true_or, if_true, List.head?_cons, (grantableB_iff ha s l m).mpr hg, and_self]
    exact Option.some_ne_none _
  | @release i l m rest htodo =>
    refine ⟨i, ?_⟩
    unfold execStep
    rw [htodo]
    exact Option.some_ne_none _

/-- a schedule: which task makes the next step -/
def execAll (all : List ι) : List ι → State ι L → Option (State ι L)
  | [], s => some s
  | i :: is, s => (execStep all s i).bind (execAll all is)

theorem execAll_reachable {all : List ι} (ha : ∀ i, i ∈ all) {prog : ι → List (Instr L)} (sched : List ι)
    {s s' : State ι L} (hs : Reachable prog s) (h : execAll all sched s = some s') : Reachable prog s' := by
  induction sched generalizing s with
  | nil => cases h; exact hs
  | cons i is ih =>
    unfold execAll at h
    cases he : execStep all s i with
    | none => rw [he] at h; cases h
    | some t =>
      rw [he] at h
      exact ih (hs.tail (execStep_step ha he)) h

theorem queue_nodup {prog : ι → List (Instr L)} {s : State ι L} (hs : Reachable prog s) (l : L) : (s.queue l).Nodup := by
  induction hs with
  | refl => exact List.nodup_nil
  | @tail b c _ hst ih =>
    cases hst with
    | @wait i l' m rest htodo hq =>
      simp only
      by_cases hl : l = l'
      · subst hl
        rw [Function.update_self]
        exact List.nodup_append.mpr ⟨ih, by simp, fun a ha b hb => by
          rw [List.mem_singleton.mp hb]; rintro rfl; exact hq ha⟩
      · rw [Function.update_of_ne hl]; exact ih
    | @grant i l' m rest q htodo hq hg =>
      simp only
      by_cases hl : l = l'
      · subst hl
        rw [hq, List.nodup_cons] at ih
        rw [Function.update_self]; exact ih.2
      · rw [Function.update_of_ne hl]; exact ih
    | release htodo => exact ih

/-- does the schedule lead to a deadlock? -/
def deadlocks (all : List ι) (prog : ι → List (Instr L)) (sched : List ι) : Bool :=
  match execAll all sched (start prog) with
  | none => false
  | some s => (all.any fun i => !(s.task i).todo.isEmpty) && all.all fun i => (execStep all s i).isNone

theorem deadlocks_sound {all : List ι} (ha : ∀ i, i ∈ all) {prog : ι → List (Instr L)} {sched : List ι}
    (h : deadlocks all prog sched = true) : ∃ s, Reachable prog s ∧ Deadlocked s := by
  unfold deadlocks at h
  split at h
  · cases h
  · rename_i s hs
    simp only [Bool.and_eq_true, List.any_eq_true, Bool.not_eq_true', List.isEmpty_eq_false_iff, List.all_eq_true,
      Option.isNone_iff_eq_none] at h
    have hr : Reachable prog s := execAll_reachable ha sched .refl hs
    refine ⟨s, hr, ⟨h.1.imp fun i hi => hi.2, fun s' hst => ?_⟩⟩
    obtain ⟨i, hi⟩ := step_execStep ha (queue_nodup hr) hst
    exact hi (h.2 i (ha i))

end Rez.Locks
