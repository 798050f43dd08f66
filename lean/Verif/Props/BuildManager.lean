import Verif.Spec.BuildManager
import Mathlib.Tactic.SplitIfs
import Mathlib.Data.List.Nodup
import Mathlib.Data.List.Perm.Subperm
/-!
# C144, C145, C146: builds that run at the same time
-/
namespace Rez.Props
open Rez Rez.Build Rez.Build.Spec

namespace BuildManagerLemmas
variable {W : Type} {exec : Nat → BuildStep → W → W × StepOutcome}

/-- What is known of a task and the steps that it ran. -/
structure TaskOk (log : List (BuildStep × Bool)) (t : Task) : Prop where
  steps : log.map Prod.fst ++ t.left = theSteps
  going : t.over = false → (∀ p ∈ log, p.2 = true) ∧ t.left ≠ []
  success : t.status = .success → t.left = [] ∧ ∀ p ∈ log, p.2 = true
  failed : t.status = .failed → ∃ l s, log = l ++ [(s, false)] ∧ ∀ p ∈ l, p.2 = true

/-- What is known of every state that is reached. -/
structure Inv (s : Sys W) : Prop where
  tasks : (mkeys s.tasks).Nodup
  task : ∀ id t, mget s.tasks id = some t → TaskOk (stepsOf s id) t
  fresh : ∀ id, mget s.tasks id = none → stepsOf s id = []
  active : s.active.Nodup
  known : ∀ id ∈ s.active, ∃ t, mget s.tasks id = some t ∧ t.status ≠ .cancelled
  toldOnce : (s.told.map Prod.fst).Nodup
  toldOut : ∀ p ∈ s.told, p.1 ∉ s.active ∧ (mget s.tasks p.1).isSome
  toldTrue : ∀ id, (id, true) ∈ s.told → AllWell (stepsOf s id) ∧ ∀ t, mget s.tasks id = some t → t.over = true
  toldFalse : ∀ id, (id, false) ∈ s.told → StoppedAt (stepsOf s id) ∧ ∀ t, mget s.tasks id = some t → t.over = true
  ended : ∀ id t, mget s.tasks id = some t → (t.status = .success ∨ t.status = .failed) → t.over = true

theorem sdel_nodup {l : List Nat} (h : l.Nodup) (k : Nat) : (sdel l k).Nodup := h.filter _

theorem mem_sdel {l : List Nat} {k x : Nat} : x ∈ sdel l k ↔ x ∈ l ∧ x ≠ k := by simp [sdel]

theorem nodup_set {α : Type} {m : List (Nat × α)} (h : (mkeys m).Nodup) (k : Nat) (v : α) : (mkeys (mset m k v)).Nodup :=
  nodup_mset h k v

theorem keys_upd {α : Type} (m : List (Nat × α)) (k : Nat) (f : α → α) : mkeys (mupd m k f) = mkeys m := by
  unfold mupd mkeys
  rw [List.map_map]
  apply List.map_congr_left
  intro p _
  simp only [Function.comp]
  split <;> rfl

theorem allWell_of {log : List (BuildStep × Bool)} (h : log.map Prod.fst = theSteps) (ht : ∀ p ∈ log, p.2 = true) :
    AllWell log := by
  unfold AllWell
  rw [← h, List.map_map]
  conv_lhs => rw [← List.map_id log]
  apply List.map_congr_left
  rintro ⟨a, b⟩ hp
  simp [← ht _ hp]

theorem map_true {l : List (BuildStep × Bool)} (ht : ∀ p ∈ l, p.2 = true) :
    l = (l.map Prod.fst).map fun s => (s, true) := by
  rw [List.map_map]
  conv_lhs => rw [← List.map_id l]
  apply List.map_congr_left
  rintro ⟨a, b⟩ hp
  simp [← ht _ hp]

theorem inv_new (max : Nat) (w : W) : Inv (Sys.new max w) := by
  constructor <;> simp [Sys.new, mkeys, stepsOf]

theorem inv_act {s s' : Sys W} {a : Act} (hi : Inv s) (h : s.act exec a = .ok s') : Inv s' := by
  cases a with
  | start id =>
    simp only [Sys.act, Sys.start] at h
    split at h
    · cases h
    · split at h
      · cases h
      · rename_i h1 h2
        have hnone : mget s.tasks id = none := by
          cases hx : mget s.tasks id with
          | none => rfl
          | some t => rw [hx] at h2; simp at h2
        have hnact : id ∉ s.active := by
          intro hc
          obtain ⟨t, ht, _⟩ := hi.known id hc
          rw [hnone] at ht; cases ht
        simp only [Outcome.ok.injEq] at h
        subst h
        have hsteps : ∀ j, stepsOf ({ s with
            tasks := mset s.tasks id ⟨allSteps, .running, false⟩
            active := id :: s.active
            stats := { s.stats with started := s.stats.started + 1, running := s.stats.running + 1 } } : Sys W) j =
            stepsOf s j := fun j => rfl
        constructor
        · exact nodup_set hi.tasks _ _
        · intro j t ht
          rw [hsteps]
          simp only [mget_mset] at ht
          split at ht
          · rename_i hj
            subst hj
            simp only [Option.some.injEq] at ht
            subst ht
            rw [hi.fresh _ hnone]
            exact ⟨rfl, fun _ => ⟨by simp, by simp [allSteps]⟩, by simp, by simp⟩
          · exact hi.task j t ht
        · intro j hj
          rw [hsteps]
          simp only [mget_mset] at hj
          split at hj
          · cases hj
          · exact hi.fresh j hj
        · exact List.nodup_cons.2 ⟨hnact, hi.active⟩
        · intro j hj
          simp only [mget_mset]
          rcases List.mem_cons.1 hj with hj | hj
          · subst hj; exact ⟨_, if_pos rfl, by simp⟩
          · obtain ⟨t, ht⟩ := hi.known j hj
            have : j ≠ id := fun hc => hnact (hc ▸ hj)
            exact ⟨t, by rw [if_neg this]; exact ht.1, ht.2⟩
        · exact hi.toldOnce
        · intro p hp
          obtain ⟨h3, h4⟩ := hi.toldOut p hp
          have hne : p.1 ≠ id := by
            intro hc; rw [hc, hnone] at h4; cases h4
          simp only [mget_mset, List.mem_cons, not_or, if_neg hne]
          exact ⟨⟨hne, h3⟩, h4⟩
        · intro j hj
          obtain ⟨h3, h4⟩ := hi.toldTrue j hj
          have hne : j ≠ id := by
            intro hc; have := (hi.toldOut _ hj).2; simp only [hc, hnone] at this; cases this
          refine ⟨h3, fun t ht => ?_⟩
          simp only [mget_mset, if_neg hne] at ht
          exact h4 t ht
        · intro j hj
          obtain ⟨h3, h4⟩ := hi.toldFalse j hj
          have hne : j ≠ id := by
            intro hc; have := (hi.toldOut _ hj).2; simp only [hc, hnone] at this; cases this
          refine ⟨h3, fun t ht => ?_⟩
          simp only [mget_mset, if_neg hne] at ht
          exact h4 t ht
        · intro j t ht hst
          simp only [mget_mset] at ht
          split at ht
          · simp only [Option.some.injEq] at ht; subst ht; simp at hst
          · exact hi.ended j t ht hst
  | step id =>
    simp only [Sys.act, Sys.step] at h
    split at h
    · rename_i b rest st hget
      simp only [Outcome.ok.injEq] at h
      have hok := hi.task id _ hget
      generalize hg : good (exec id b s.world).2 = g at h
      subst h
      have hlog : ∀ j, stepsOf ({ s with
            world := (exec id b s.world).1
            tasks := mset s.tasks id (if g = true then (if rest.isEmpty = true then ⟨[], .success, true⟩
              else ⟨rest, st, false⟩) else ⟨rest, .failed, true⟩)
            ran := s.ran ++ [(id, b, g)] } : Sys W) j = stepsOf s j ++ if id = j then [(b, g)] else [] := by
        intro j
        unfold stepsOf
        rw [List.filterMap_append]
        by_cases hj : id = j <;> simp [hj]
      have hnew : TaskOk (stepsOf s id ++ [(b, g)]) (if g = true then (if rest.isEmpty = true then ⟨[], .success, true⟩
              else ⟨rest, st, false⟩) else ⟨rest, .failed, true⟩) := by
        have h1 := hok.steps
        have h2 := (hok.going rfl).1
        simp only at h1
        by_cases hgt : g = true
        · subst hgt
          simp only [if_true]
          have hall : ∀ p ∈ stepsOf s id ++ [(b, true)], p.2 = true := by
            intro p hp
            rcases List.mem_append.1 hp with hp | hp
            · exact h2 p hp
            · simp at hp; rw [hp]
          by_cases hr : rest.isEmpty = true
          · rw [if_pos hr]
            have hr' : rest = [] := by simpa using hr
            subst hr'
            exact ⟨by simpa using h1, by simp, fun _ => ⟨rfl, hall⟩, by simp⟩
          · rw [if_neg hr]
            refine ⟨by simpa using h1, fun _ => ⟨hall, by simpa using hr⟩, fun hst => ?_, fun hst => ?_⟩
            · exact absurd (hok.success hst).1 (by simp)
            · obtain ⟨l, x, he, _⟩ := hok.failed hst
              have := h2 (x, false) (by rw [he]; simp)
              simp at this
        · rw [if_neg hgt]
          have hgf : g = false := by simpa using hgt
          subst hgf
          refine ⟨by simpa using h1, by simp, by simp, fun _ => ⟨_, _, rfl, h2⟩⟩
      have hnt : ∀ p ∈ s.told, p.1 ≠ id := by
        rintro ⟨j, ok⟩ hp hc
        simp only at hc
        subst hc
        cases ok with
        | true => have := (hi.toldTrue _ hp).2 _ hget; simp at this
        | false => have := (hi.toldFalse _ hp).2 _ hget; simp at this
      constructor
      · exact nodup_set hi.tasks _ _
      · intro j t ht
        rw [hlog]
        simp only [mget_mset] at ht
        split at ht
        · rename_i hj
          subst hj
          simp only [Option.some.injEq] at ht
          subst ht
          rw [if_pos rfl]
          exact hnew
        · rename_i hj
          rw [if_neg (Ne.symm hj), List.append_nil]
          exact hi.task j t ht
      · intro j hj
        rw [hlog]
        simp only [mget_mset] at hj
        split at hj
        · cases hj
        · rename_i hne
          rw [if_neg (Ne.symm hne), List.append_nil]
          exact hi.fresh j hj
      · exact hi.active
      · intro j hj
        simp only [mget_mset]
        by_cases hji : j = id
        · subst hji
          rw [if_pos rfl]
          refine ⟨_, rfl, ?_⟩
          obtain ⟨t, ht, hc⟩ := hi.known j hj
          rw [hget] at ht
          simp only [Option.some.injEq] at ht
          subst ht
          split
          · split
            · simp
            · exact hc
          · simp
        · rw [if_neg hji]; exact hi.known j hj
      · exact hi.toldOnce
      · intro p hp
        simp only [mget_mset, if_neg (hnt p hp)]
        exact hi.toldOut p hp
      · intro j hj
        have hne := hnt _ hj
        simp only at hne
        rw [hlog, if_neg (Ne.symm hne), List.append_nil]
        simp only [mget_mset, if_neg hne]
        exact hi.toldTrue j hj
      · intro j hj
        have hne := hnt _ hj
        simp only at hne
        rw [hlog, if_neg (Ne.symm hne), List.append_nil]
        simp only [mget_mset, if_neg hne]
        exact hi.toldFalse j hj
      · intro j t ht hst
        simp only [mget_mset] at ht
        split at ht
        · simp only [Option.some.injEq] at ht
          subst ht
          by_cases hgt : g = true
          · rw [if_pos hgt] at hst ⊢
            by_cases hr : rest.isEmpty = true
            · rw [if_pos hr]
            · rw [if_neg hr] at hst ⊢
              have := hi.ended id _ hget hst
              simp at this
          · rw [if_neg hgt]
        · exact hi.ended j t ht hst
    · cases h
  | dies id =>
    simp only [Sys.act, Sys.dies] at h
    split at h
    · rename_i t hget
      split at h
      · cases h
      · rename_i hov
        simp only [Outcome.ok.injEq] at h
        subst h
        have hok := hi.task id t hget
        constructor
        · exact nodup_set hi.tasks _ _
        · intro j u hu
          simp only [mget_mset] at hu
          split at hu
          · rename_i hj
            subst hj
            simp only [Option.some.injEq] at hu
            subst hu
            exact ⟨hok.steps, by simp, hok.success, hok.failed⟩
          · exact hi.task j u hu
        · intro j hj
          simp only [mget_mset] at hj
          split at hj
          · cases hj
          · exact hi.fresh j hj
        · exact hi.active
        · intro j hj
          simp only [mget_mset]
          by_cases hji : j = id
          · subst hji
            rw [if_pos rfl]
            obtain ⟨u, hu, hc⟩ := hi.known j hj
            rw [hget] at hu
            simp only [Option.some.injEq] at hu
            subst hu
            exact ⟨_, rfl, hc⟩
          · rw [if_neg hji]; exact hi.known j hj
        · exact hi.toldOnce
        · intro p hp
          refine ⟨(hi.toldOut p hp).1, ?_⟩
          simp only [mget_mset]
          split
          · rfl
          · exact (hi.toldOut p hp).2
        · intro j hj
          refine ⟨(hi.toldTrue j hj).1, fun u hu => ?_⟩
          simp only [mget_mset] at hu
          split at hu
          · simp only [Option.some.injEq] at hu; subst hu; rfl
          · exact (hi.toldTrue j hj).2 u hu
        · intro j hj
          refine ⟨(hi.toldFalse j hj).1, fun u hu => ?_⟩
          simp only [mget_mset] at hu
          split at hu
          · simp only [Option.some.injEq] at hu; subst hu; rfl
          · exact (hi.toldFalse j hj).2 u hu
        · intro j u hu hst
          simp only [mget_mset] at hu
          split at hu
          · simp only [Option.some.injEq] at hu; subst hu; rfl
          · exact hi.ended j u hu hst
    · cases h
  | wait id =>
    simp only [Sys.act, Sys.wait] at h
    split at h
    · cases h
    · rename_i hact
      have hact : id ∈ s.active := by simpa using hact
      split at h
      · cases h
      · rename_i t hget
        split at h
        · cases h
        · rename_i hrun
          split at h
          · cases h
          · simp only [Outcome.ok.injEq] at h
            subst h
            have hok := hi.task id t hget
            obtain ⟨u, hu, hcan⟩ := hi.known id hact
            rw [hget] at hu
            simp only [Option.some.injEq] at hu
            subst hu
            have hnt : id ∉ s.told.map Prod.fst := by
              intro hc
              obtain ⟨p, hp, he⟩ := List.mem_map.1 hc
              exact (hi.toldOut p hp).1 (he ▸ hact)
            have hover : t.over = true := by
              apply hi.ended id t hget
              cases hs : t.status with
              | running => exact absurd hs hrun
              | success => exact Or.inl rfl
              | failed => exact Or.inr rfl
              | cancelled => exact absurd hs hcan
            constructor
            · exact hi.tasks
            · exact hi.task
            · exact hi.fresh
            · exact sdel_nodup hi.active _
            · intro j hj
              exact hi.known j (mem_sdel.1 hj).1
            · simp only [List.map_append, List.map_cons, List.map_nil]
              rw [List.nodup_append]
              refine ⟨hi.toldOnce, by simp, ?_⟩
              intro a ha b hb
              simp only [List.mem_singleton] at hb
              subst hb
              intro hc
              exact hnt (hc ▸ ha)
            · intro p hp
              rcases List.mem_append.1 hp with hp | hp
              · obtain ⟨h1, h2⟩ := hi.toldOut p hp
                exact ⟨fun hc => h1 (mem_sdel.1 hc).1, h2⟩
              · simp only [List.mem_singleton] at hp
                subst hp
                exact ⟨fun hc => (mem_sdel.1 hc).2 rfl, by simp [hget]⟩
            · intro j hj
              rcases List.mem_append.1 hj with hj | hj
              · exact hi.toldTrue j hj
              · simp only [List.mem_singleton, Prod.mk.injEq] at hj
                obtain ⟨h1, h2⟩ := hj
                subst h1
                have hst : t.status = .success := by simpa using h2.symm
                obtain ⟨h3, h4⟩ := hok.success hst
                refine ⟨allWell_of (by have := hok.steps; rw [h3, List.append_nil] at this; exact this) h4, ?_⟩
                intro v hv
                rw [hget] at hv
                simp only [Option.some.injEq] at hv
                subst hv
                exact hover
            · intro j hj
              rcases List.mem_append.1 hj with hj | hj
              · exact hi.toldFalse j hj
              · simp only [List.mem_singleton, Prod.mk.injEq] at hj
                obtain ⟨h1, h2⟩ := hj
                subst h1
                have hst : t.status = .failed := by
                  cases hs : t.status with
                  | running => exact absurd hs hrun
                  | success => rw [hs] at h2; simp at h2
                  | failed => rfl
                  | cancelled => exact absurd hs hcan
                obtain ⟨l, x, h3, h4⟩ := hok.failed hst
                refine ⟨⟨l.map Prod.fst, x, t.left, ?_, ?_⟩, ?_⟩
                · have := hok.steps
                  rw [h3] at this
                  rw [← this]; simp
                · have h5 : stepsOf s j = (l.map Prod.fst).map (fun s => (s, true)) ++ [(x, false)] := by
                    rw [← map_true h4]; exact h3
                  exact h5
                · intro v hv
                  rw [hget] at hv
                  simp only [Option.some.injEq] at hv
                  subst hv
                  exact hover
            · exact hi.ended
  | giveUp id =>
    simp only [Sys.act, Sys.giveUp] at h
    split at h
    · cases h
    · simp only [Outcome.ok.injEq] at h
      subst h
      exact ⟨hi.tasks, hi.task, hi.fresh, sdel_nodup hi.active _, fun j hj => hi.known j (mem_sdel.1 hj).1, hi.toldOnce,
        fun p hp => ⟨fun hc => (hi.toldOut p hp).1 (mem_sdel.1 hc).1, (hi.toldOut p hp).2⟩, hi.toldTrue, hi.toldFalse, hi.ended⟩
  | cancel id =>
    simp only [Sys.act, Sys.cancel] at h
    split at h
    · cases h
    · rename_i hact
      have hact : id ∈ s.active := by simpa using hact
      split at h
      · cases h
      · simp only [Outcome.ok.injEq] at h
        subst h
        have hupd : ∀ j u, mget (mupd s.tasks id fun t => { t with status := .cancelled }) j = some u →
            ∃ t, mget s.tasks j = some t ∧ u.left = t.left ∧ u.over = t.over ∧
              (j ≠ id → u = t) ∧ (j = id → u.status = .cancelled) := by
          intro j u hu
          rw [mget_mupd] at hu
          split at hu
          · rename_i hj
            cases ht : mget s.tasks j with
            | none => rw [ht] at hu; simp at hu
            | some t =>
              rw [ht] at hu
              simp only [Option.map_some, Option.some.injEq] at hu
              subst hu
              exact ⟨t, rfl, rfl, rfl, fun h => absurd hj h, fun _ => rfl⟩
          · rename_i hj
            exact ⟨u, hu, rfl, rfl, fun _ => rfl, fun h => absurd h hj⟩
        constructor
        · simp only [keys_upd]; exact hi.tasks
        · intro j u hu
          obtain ⟨t, ht, h1, h2, h3, h4⟩ := hupd j u hu
          have hok := hi.task j t ht
          by_cases hj : j = id
          · exact ⟨by rw [h1]; exact hok.steps, fun h => by rw [h1]; exact hok.going (h2 ▸ h),
              fun h => (by rw [h4 hj] at h; exact absurd h (by simp)), fun h => (by rw [h4 hj] at h; exact absurd h (by simp))⟩
          · rw [h3 hj]; exact hok
        · intro j hj
          apply hi.fresh
          rw [mget_mupd] at hj
          split at hj
          · simpa using hj
          · exact hj
        · exact sdel_nodup hi.active _
        · intro j hj
          obtain ⟨h1, h2⟩ := mem_sdel.1 hj
          obtain ⟨t, ht, hc⟩ := hi.known j h1
          exact ⟨t, by rw [mget_mupd, if_neg h2]; exact ht, hc⟩
        · exact hi.toldOnce
        · intro p hp
          obtain ⟨h1, h2⟩ := hi.toldOut p hp
          refine ⟨fun hc => h1 (mem_sdel.1 hc).1, ?_⟩
          simp only [mget_mupd]
          split
          · rw [Option.isSome_map]; exact h2
          · exact h2
        · intro j hj
          refine ⟨(hi.toldTrue j hj).1, fun u hu => ?_⟩
          obtain ⟨t, ht, h1, h2, _⟩ := hupd j u hu
          rw [h2]; exact (hi.toldTrue j hj).2 t ht
        · intro j hj
          refine ⟨(hi.toldFalse j hj).1, fun u hu => ?_⟩
          obtain ⟨t, ht, h1, h2, _⟩ := hupd j u hu
          rw [h2]; exact (hi.toldFalse j hj).2 t ht
        · intro j u hu hst
          obtain ⟨t, ht, h1, h2, h3, h4⟩ := hupd j u hu
          by_cases hj : j = id
          · rw [h4 hj] at hst; simp at hst
          · rw [h3 hj] at hst ⊢; exact hi.ended j t ht hst
  | reset =>
    simp only [Sys.act, Outcome.ok.injEq] at h
    subst h
    exact ⟨hi.tasks, hi.task, hi.fresh, hi.active, hi.known, hi.toldOnce, hi.toldOut, hi.toldTrue, hi.toldFalse, hi.ended⟩
  | setMax n =>
    simp only [Sys.act, Outcome.ok.injEq] at h
    subst h
    exact ⟨hi.tasks, hi.task, hi.fresh, hi.active, hi.known, hi.toldOnce, hi.toldOut, hi.toldTrue, hi.toldFalse, hi.ended⟩

/-- A property that acts keep holds along a schedule of them. -/
theorem run_keeps {P : Sys W → Prop} {ok : Act → Prop} (hk : ∀ s s' a, ok a → P s → s.act exec a = .ok s' → P s')
    {acts : List Act} {s s' : Sys W} (hacts : ∀ a ∈ acts, ok a) (hs : P s) (h : s.run exec acts = .ok s') : P s' := by
  induction acts generalizing s with
  | nil => simp only [Sys.run, Outcome.ok.injEq] at h; subst h; exact hs
  | cons a acts ih =>
    unfold Sys.run at h
    cases ha : s.act exec a with
    | ok s1 =>
      rw [ha] at h
      exact ih (fun b hb => hacts b (List.mem_cons_of_mem _ hb)) (hk _ _ _ (hacts a List.mem_cons_self) hs ha) h
    | err => rw [ha] at h; exact ih (fun b hb => hacts b (List.mem_cons_of_mem _ hb)) hs h
    | panic => rw [ha] at h; cases h

theorem inv_run {acts : List Act} {max : Nat} {w : W} {s : Sys W} (h : Reached exec max w acts s) : Inv s :=
  run_keeps (P := Inv) (ok := fun _ => True) (fun _ _ _ _ hi h => inv_act hi h) (fun _ _ => trivial) (inv_new max w) h

/-- The acts that keep the limit. -/
theorem limit_act {n : Nat} {s s' : Sys W} {a : Act} (ha : ∀ m, a ≠ .setMax m) (hi : s.max ≤ n ∧ s.active.length ≤ n)
    (h : s.act exec a = .ok s') : s'.max ≤ n ∧ s'.active.length ≤ n := by
  have hdel : ∀ id, (sdel s.active id).length ≤ s.active.length := fun id => List.length_filter_le _ _
  cases a with
  | start id =>
    simp only [Sys.act, Sys.start] at h
    split at h
    · cases h
    · split at h
      · cases h
      · simp only [Outcome.ok.injEq] at h; subst h
        refine ⟨hi.1, ?_⟩
        simp only [List.length_cons]
        have := hi.1
        omega
  | step id =>
    simp only [Sys.act, Sys.step] at h
    split at h
    · simp only [Outcome.ok.injEq] at h; subst h; exact hi
    · cases h
  | dies id =>
    simp only [Sys.act, Sys.dies] at h
    split at h
    · split at h
      · cases h
      · simp only [Outcome.ok.injEq] at h; subst h; exact hi
    · cases h
  | wait id =>
    simp only [Sys.act, Sys.wait] at h
    split at h
    · cases h
    · split at h
      · cases h
      · split at h
        · cases h
        · split at h
          · cases h
          · simp only [Outcome.ok.injEq] at h; subst h; exact ⟨hi.1, le_trans (hdel id) hi.2⟩
  | giveUp id =>
    simp only [Sys.act, Sys.giveUp] at h
    split at h
    · cases h
    · simp only [Outcome.ok.injEq] at h; subst h; exact ⟨hi.1, le_trans (hdel id) hi.2⟩
  | cancel id =>
    simp only [Sys.act, Sys.cancel] at h
    split at h
    · cases h
    · split at h
      · cases h
      · simp only [Outcome.ok.injEq] at h; subst h; exact ⟨hi.1, le_trans (hdel id) hi.2⟩
  | reset => simp only [Sys.act, Outcome.ok.injEq] at h; subst h; exact hi
  | setMax m => exact absurd rfl (ha m)

/-- While nothing is cancelled or given up, a task that has not ended is an active build. -/
theorem alive_act {s s' : Sys W} {a : Act} (ha : ∀ id, a ≠ .cancel id ∧ a ≠ .giveUp id) (hinv : Inv s)
    (hi : ∀ id t, mget s.tasks id = some t → t.over = false → id ∈ s.active)
    (h : s.act exec a = .ok s') : ∀ id t, mget s'.tasks id = some t → t.over = false → id ∈ s'.active := by
  cases a with
  | start id =>
    simp only [Sys.act, Sys.start] at h
    split at h
    · cases h
    · split at h
      · cases h
      · simp only [Outcome.ok.injEq] at h; subst h
        intro j t ht ho
        simp only [mget_mset] at ht
        split at ht
        · rename_i hj; subst hj; exact List.mem_cons_self
        · exact List.mem_cons_of_mem _ (hi j t ht ho)
  | step id =>
    simp only [Sys.act, Sys.step] at h
    split at h
    · rename_i b rest st hget
      simp only [Outcome.ok.injEq] at h; subst h
      intro j t ht ho
      simp only [mget_mset] at ht
      split at ht
      · rename_i hj; subst hj; exact hi _ _ hget rfl
      · exact hi j t ht ho
    · cases h
  | dies id =>
    simp only [Sys.act, Sys.dies] at h
    split at h
    · split at h
      · cases h
      · simp only [Outcome.ok.injEq] at h; subst h
        intro j t ht ho
        simp only [mget_mset] at ht
        split at ht
        · simp only [Option.some.injEq] at ht; subst ht; cases ho
        · exact hi j t ht ho
    · cases h
  | wait id =>
    simp only [Sys.act, Sys.wait] at h
    split at h
    · cases h
    · rename_i hact
      have hact : id ∈ s.active := by simpa using hact
      split at h
      · cases h
      · rename_i t hget
        split at h
        · cases h
        · rename_i hrun
          split at h
          · cases h
          · simp only [Outcome.ok.injEq] at h; subst h
            intro j u hu ho
            refine mem_sdel.2 ⟨hi j u hu ho, fun hc => ?_⟩
            subst hc
            simp only [hget, Option.some.injEq] at hu
            subst hu
            obtain ⟨v, hv, hcan⟩ := hinv.known j hact
            rw [hget] at hv
            simp only [Option.some.injEq] at hv
            subst hv
            have := hinv.ended j t hget (by
              cases hs : t.status with
              | running => exact absurd hs hrun
              | success => exact Or.inl rfl
              | failed => exact Or.inr rfl
              | cancelled => exact absurd hs hcan)
            rw [ho] at this; cases this
  | giveUp id => exact absurd rfl (ha id).2
  | cancel id => exact absurd rfl (ha id).1
  | reset => simp only [Sys.act, Outcome.ok.injEq] at h; subst h; exact hi
  | setMax m => simp only [Sys.act, Outcome.ok.injEq] at h; subst h; exact hi

theorem alive_sub {s : Sys W} (hinv : Inv s)
    (hi : ∀ id t, mget s.tasks id = some t → t.over = false → id ∈ s.active) : (alive s).length ≤ s.active.length := by
  have hnd : (alive s).Nodup := by
    have h1 : List.Sublist (alive s) (mkeys s.tasks) := List.Sublist.map _ List.filter_sublist
    exact h1.nodup hinv.tasks
  refine (hnd.subperm ?_).length_le
  intro id hid
  unfold alive at hid
  obtain ⟨⟨j, t⟩, hp, rfl⟩ := List.mem_map.1 hid
  obtain ⟨h1, h2⟩ := List.mem_filter.1 hp
  exact hi j t (mget_of_mem hinv.tasks h1) (by simpa using h2)

/-- What the numbers say. -/
def Counted (s : Sys W) : Prop :=
  s.stats.running = s.active.length ∧ s.stats.started = s.tasks.length ∧
    s.stats.started = s.stats.successful + s.stats.failed + s.stats.running ∧
    s.stats.successful = (s.told.filter fun p => p.2).length

theorem length_sdel {l : List Nat} (h : l.Nodup) {k : Nat} (hk : k ∈ l) : (sdel l k).length + 1 = l.length := by
  induction l with
  | nil => simp at hk
  | cons x l ih =>
    obtain ⟨h1, h2⟩ := List.nodup_cons.1 h
    by_cases hx : x = k
    · subst hx
      have : sdel (x :: l) x = l := by
        unfold sdel
        rw [List.filter_cons_of_neg (by simp)]
        exact List.filter_eq_self.2 fun a ha => by
          have : a ≠ x := fun hc => h1 (hc ▸ ha)
          simpa using this
      rw [this]; rfl
    · have hk' : k ∈ l := by
        rcases List.mem_cons.1 hk with h3 | h3
        · exact absurd h3.symm hx
        · exact h3
      have : sdel (x :: l) k = x :: sdel l k := by
        unfold sdel
        rw [List.filter_cons_of_pos (by simpa using hx)]
      rw [this, List.length_cons, ih h2 hk', List.length_cons]

theorem length_del {α : Type} (m : List (Nat × α)) (k : Nat) : (mdel m k).length = (sdel (mkeys m) k).length := by
  have h := mkeys_mdel m k
  have : (mdel m k).length = (mkeys (mdel m k)).length := by simp [mkeys]
  rw [this, h]; rfl

theorem length_set_old {α : Type} {m : List (Nat × α)} (hn : (mkeys m).Nodup) {k : Nat} {x : α} (h : mget m k = some x) (v : α) :
    (mset m k v).length = m.length := by
  have h1 := length_sdel hn ((mget_isSome_iff m k).1 ⟨x, h⟩)
  have h2 : (mkeys m).length = m.length := by simp [mkeys]
  simp only [mset, List.length_cons, length_del]
  omega

theorem length_set_new {α : Type} {m : List (Nat × α)} {k : Nat} (h : mget m k = none) (v : α) :
    (mset m k v).length = m.length + 1 := by
  have h1 := (mget_none_iff m k).1 h
  have h2 : (mkeys m).length = m.length := by simp [mkeys]
  have h3 : sdel (mkeys m) k = mkeys m := List.filter_eq_self.2 fun a ha => by
    have : a ≠ k := fun hc => h1 (hc ▸ ha)
    simpa using this
  simp only [mset, List.length_cons, length_del, h3, h2]

theorem length_upd {α : Type} (m : List (Nat × α)) (k : Nat) (f : α → α) : (mupd m k f).length = m.length := by
  simp [mupd]

theorem counted_act {s : Sys W} {a : Act} (ha : a ≠ .reset ∧ ∀ id, a ≠ .giveUp id) (hinv : Inv s) (hc : Counted s) :
    s.act exec a ≠ .panic ∧ ∀ s', s.act exec a = .ok s' → Counted s' := by
  obtain ⟨h1, h2, h3, h4⟩ := hc
  cases a with
  | start id =>
    simp only [Sys.act, Sys.start]
    split
    · exact ⟨by simp, by simp⟩
    · split
      · exact ⟨by simp, by simp⟩
      · rename_i hn
        refine ⟨by simp, fun s' h => ?_⟩
        simp only [Outcome.ok.injEq] at h; subst h
        have hnone : mget s.tasks id = none := by
          cases hx : mget s.tasks id with
          | none => rfl
          | some t => rw [hx] at hn; simp at hn
        refine ⟨by simp [h1], ?_, ?_, h4⟩
        · simp only [length_set_new hnone, h2]
        · simp only; omega
  | step id =>
    simp only [Sys.act, Sys.step]
    split
    · rename_i hget
      refine ⟨by simp, fun s' h => ?_⟩
      simp only [Outcome.ok.injEq] at h; subst h
      exact ⟨h1, by simp only [length_set_old hinv.tasks hget, h2], h3, h4⟩
    · exact ⟨by simp, by simp⟩
  | dies id =>
    simp only [Sys.act, Sys.dies]
    split
    · rename_i hget
      split
      · exact ⟨by simp, by simp⟩
      · refine ⟨by simp, fun s' h => ?_⟩
        simp only [Outcome.ok.injEq] at h; subst h
        exact ⟨h1, by simp only [length_set_old hinv.tasks hget, h2], h3, h4⟩
    · exact ⟨by simp, by simp⟩
  | wait id =>
    simp only [Sys.act, Sys.wait]
    split
    · exact ⟨by simp, by simp⟩
    · rename_i hact
      have hact : id ∈ s.active := by simpa using hact
      have hlen := length_sdel hinv.active hact
      split
      · exact ⟨by simp, by simp⟩
      · rename_i t hget
        split
        · exact ⟨by simp, by simp⟩
        · rw [if_neg (by omega)]
          refine ⟨by simp, fun s' h => ?_⟩
          simp only [Outcome.ok.injEq] at h; subst h
          refine ⟨by simp only; omega, h2, ?_, ?_⟩
          · simp only
            split <;> omega
          · simp only [List.filter_append, List.length_append, ← h4]
            cases t.status == Status.success <;> simp
  | giveUp id => exact absurd rfl (ha.2 id)
  | cancel id =>
    simp only [Sys.act, Sys.cancel]
    split
    · exact ⟨by simp, by simp⟩
    · rename_i hact
      have hact : id ∈ s.active := by simpa using hact
      have hlen := length_sdel hinv.active hact
      rw [if_neg (by omega)]
      refine ⟨by simp, fun s' h => ?_⟩
      simp only [Outcome.ok.injEq] at h; subst h
      exact ⟨by simp only; omega, by simp only [length_upd, h2], by simp only; omega, h4⟩
  | reset => exact absurd rfl ha.1
  | setMax n =>
    refine ⟨by simp [Sys.act], fun s' h => ?_⟩
    simp only [Sys.act, Outcome.ok.injEq] at h; subst h
    exact ⟨h1, h2, h3, h4⟩

theorem counted_run {acts : List Act} {s : Sys W} (hacts : ∀ a ∈ acts, a ≠ .reset ∧ ∀ id, a ≠ .giveUp id) (hinv : Inv s)
    (hc : Counted s) : ∃ s', s.run exec acts = .ok s' ∧ Counted s' := by
  induction acts generalizing s with
  | nil => exact ⟨s, rfl, hc⟩
  | cons a acts ih =>
    unfold Sys.run
    obtain ⟨h1, h2⟩ := counted_act (exec := exec) (hacts a List.mem_cons_self) hinv hc
    have hr := fun b hb => hacts b (List.mem_cons_of_mem a hb)
    cases ha : s.act exec a with
    | ok s1 => exact ih hr (inv_act hinv ha) (h2 s1 ha)
    | err => exact ih hr hinv hc
    | panic => exact absurd ha h1

/-- How many more steps a build has at most. -/
def leftOf (s : Sys W) (id : Nat) : Nat :=
  match mget s.tasks id with
  | some t => if t.over then 0 else t.left.length
  | none => 0

/-- The task of the build did not die: if it ended then it set the status. -/
def Lives (s : Sys W) (id : Nat) : Prop := ∀ t, mget s.tasks id = some t → t.over = true → t.status ≠ .running

theorem lives_act {s s' : Sys W} {a : Act} {id : Nat} (ha : a ≠ .dies id) (hinv : Inv s) (hl : Lives s id)
    (h : s.act exec a = .ok s') : Lives s' id := by
  cases a with
  | start j =>
    simp only [Sys.act, Sys.start] at h
    split at h
    · cases h
    · split at h
      · cases h
      · simp only [Outcome.ok.injEq] at h; subst h
        intro t ht ho
        simp only [mget_mset] at ht
        split at ht
        · simp only [Option.some.injEq] at ht; subst ht; cases ho
        · exact hl t ht ho
  | step j =>
    simp only [Sys.act, Sys.step] at h
    split at h
    · simp only [Outcome.ok.injEq] at h; subst h
      intro t ht ho
      simp only [mget_mset] at ht
      split at ht
      · simp only [Option.some.injEq] at ht
        subst ht
        split at ho
        · split at ho
          · rw [if_pos (by assumption), if_pos (by assumption)]; simp
          · cases ho
        · rw [if_neg (by assumption)]; simp
      · exact hl t ht ho
    · cases h
  | dies j =>
    simp only [Sys.act, Sys.dies] at h
    split at h
    · split at h
      · cases h
      · simp only [Outcome.ok.injEq] at h; subst h
        intro t ht ho
        simp only [mget_mset] at ht
        split at ht
        · rename_i hj; subst hj; exact absurd rfl ha
        · exact hl t ht ho
    · cases h
  | wait j =>
    simp only [Sys.act, Sys.wait] at h
    split at h
    · cases h
    · split at h
      · cases h
      · split at h
        · cases h
        · split at h
          · cases h
          · simp only [Outcome.ok.injEq] at h; subst h; exact hl
  | giveUp j =>
    simp only [Sys.act, Sys.giveUp] at h
    split at h
    · cases h
    · simp only [Outcome.ok.injEq] at h; subst h; exact hl
  | cancel j =>
    simp only [Sys.act, Sys.cancel] at h
    split at h
    · cases h
    · split at h
      · cases h
      · simp only [Outcome.ok.injEq] at h; subst h
        intro t ht ho
        simp only [mget_mupd] at ht
        split at ht
        · cases hx : mget s.tasks id with
          | none => rw [hx] at ht; simp at ht
          | some u => rw [hx] at ht; simp only [Option.map_some, Option.some.injEq] at ht; subst ht; simp
        · exact hl t ht ho
  | reset => simp only [Sys.act, Outcome.ok.injEq] at h; subst h; exact hl
  | setMax n => simp only [Sys.act, Outcome.ok.injEq] at h; subst h; exact hl

/-- A build that is known stays known; steps of it bring it nearer to its end and nothing sends it back. -/
theorem left_act {s s' : Sys W} {a : Act} {id : Nat} (hk : (mget s.tasks id).isSome) (h : s.act exec a = .ok s') :
    (mget s'.tasks id).isSome ∧ leftOf s' id + (if a = .step id then 1 else 0) ≤ leftOf s id := by
  cases a with
  | start j =>
    simp only [Sys.act, Sys.start] at h
    split at h
    · cases h
    · split at h
      · cases h
      · rename_i hn
        simp only [Outcome.ok.injEq] at h; subst h
        have hne : id ≠ j := by rintro rfl; exact hn hk
        simp only [leftOf, mget_mset, if_neg hne]
        exact ⟨hk, by simp⟩
  | step j =>
    simp only [Sys.act, Sys.step] at h
    split at h
    · rename_i b rest st hget
      simp only [Outcome.ok.injEq] at h; subst h
      by_cases hj : id = j
      · subst hj
        simp only [leftOf, mget_mset, hget]
        refine ⟨by simp, ?_⟩
        simp only [if_true, Bool.false_eq_true, if_false, List.length_cons]
        split
        · split
          · simp
          · simp
        · simp
      · have hne : Act.step j ≠ Act.step id := fun hc => hj (by simpa using hc.symm)
        simp only [leftOf, mget_mset, if_neg hj, if_neg hne]
        exact ⟨hk, le_refl _⟩
    · cases h
  | dies j =>
    simp only [Sys.act, Sys.dies] at h
    split at h
    · split at h
      · cases h
      · simp only [Outcome.ok.injEq] at h; subst h
        by_cases hj : id = j
        · subst hj
          simp [leftOf, mget_mset]
        · simp only [leftOf, mget_mset, if_neg hj]
          exact ⟨hk, by simp⟩
    · cases h
  | wait j =>
    simp only [Sys.act, Sys.wait] at h
    split at h
    · cases h
    · split at h
      · cases h
      · split at h
        · cases h
        · split at h
          · cases h
          · simp only [Outcome.ok.injEq] at h; subst h; exact ⟨hk, by simp [leftOf]⟩
  | giveUp j =>
    simp only [Sys.act, Sys.giveUp] at h
    split at h
    · cases h
    · simp only [Outcome.ok.injEq] at h; subst h; exact ⟨hk, by simp [leftOf]⟩
  | cancel j =>
    simp only [Sys.act, Sys.cancel] at h
    split at h
    · cases h
    · split at h
      · cases h
      · simp only [Outcome.ok.injEq] at h; subst h
        simp only [leftOf, mget_mupd]
        cases hx : mget s.tasks id with
        | none => rw [hx] at hk; cases hk
        | some u => split <;> simp
  | reset => simp only [Sys.act, Outcome.ok.injEq] at h; subst h; exact ⟨hk, by simp [leftOf]⟩
  | setMax n => simp only [Sys.act, Outcome.ok.injEq] at h; subst h; exact ⟨hk, by simp [leftOf]⟩

theorem step_refused {s : Sys W} {id : Nat} (hinv : Inv s) (h : s.act exec (.step id) = .err) : leftOf s id = 0 := by
  simp only [Sys.act, Sys.step] at h
  split at h
  · cases h
  · rename_i hno
    unfold leftOf
    split
    · rename_i t ht
      rcases t with ⟨l, st, o⟩
      cases o with
      | true => rfl
      | false =>
        cases l with
        | nil => exact absurd rfl ((hinv.task id _ ht).going rfl).2
        | cons b rest => exact absurd ht (hno b rest st)
    · rfl

theorem left_run {acts : List Act} {s s' : Sys W} {id : Nat} (hinv : Inv s) (hk : (mget s.tasks id).isSome)
    (h : s.run exec acts = .ok s') :
    (mget s'.tasks id).isSome ∧ leftOf s' id ≤ leftOf s id - (acts.filter fun a => a = .step id).length := by
  induction acts generalizing s with
  | nil => simp only [Sys.run, Outcome.ok.injEq] at h; subst h; exact ⟨hk, by simp⟩
  | cons a acts ih =>
    unfold Sys.run at h
    cases ha : s.act exec a with
    | ok s1 =>
      rw [ha] at h
      obtain ⟨h1, h2⟩ := left_act hk ha
      obtain ⟨h3, h4⟩ := ih (inv_act hinv ha) h1 h
      refine ⟨h3, ?_⟩
      by_cases hs : a = .step id
      · rw [List.filter_cons_of_pos (by simpa using hs), List.length_cons]
        rw [if_pos hs] at h2
        omega
      · rw [List.filter_cons_of_neg (by simpa using hs)]
        rw [if_neg hs] at h2
        omega
    | err =>
      rw [ha] at h
      obtain ⟨h3, h4⟩ := ih hinv hk h
      refine ⟨h3, ?_⟩
      by_cases hs : a = .step id
      · subst hs
        have := step_refused hinv ha
        omega
      · rw [List.filter_cons_of_neg (by simpa using hs)]
        exact h4
    | panic => rw [ha] at h; cases h

theorem run_inv {acts : List Act} {s s' : Sys W} (hi : Inv s) (h : s.run exec acts = .ok s') : Inv s' :=
  run_keeps (P := Inv) (ok := fun _ => True) (fun _ _ _ _ hi h => inv_act hi h) (fun _ _ => trivial) hi h

theorem run_append (acts more : List Act) (s : Sys W) :
    s.run exec (acts ++ more) = match s.run exec acts with
      | .ok s' => s'.run exec more
      | .err => .err
      | .panic => .panic := by
  induction acts generalizing s with
  | nil => rfl
  | cons a acts ih =>
    simp only [List.cons_append, Sys.run]
    cases s.act exec a with
    | ok s1 => exact ih s1
    | err => exact ih s
    | panic => rfl

end BuildManagerLemmas
open BuildManagerLemmas

variable {W : Type} {exec : Nat → BuildStep → W → W × StepOutcome}

/-- **C144.** At every moment of every schedule, however calls and steps of the builds interleave, no more builds are
active than the limit. -/
theorem C144_limit {max : Nat} {w : W} {acts : List Act} {s : Sys W} (hmax : ∀ a ∈ acts, ∀ m, a ≠ .setMax m)
    (h : Reached exec max w acts s) : s.active.length ≤ max :=
  (run_keeps (P := fun s : Sys W => s.max ≤ max ∧ s.active.length ≤ max) (ok := fun a => ∀ m, a ≠ .setMax m)
    (fun _ _ _ ha hi h => limit_act ha hi h) hmax ⟨le_refl _, Nat.zero_le _⟩ h).2

/-- **C144.** After the limit was changed, no more builds are active than the new limit, or than were active then. -/
theorem C144_changed {max m : Nat} {w : W} {pre acts : List Act} {s s' : Sys W} (h : Reached exec max w pre s)
    (hmax : ∀ a ∈ acts, ∀ m, a ≠ .setMax m) (h' : Reached exec max w (pre ++ .setMax m :: acts) s') :
    s'.active.length ≤ Nat.max m s.active.length := by
  unfold Reached at h h'
  rw [run_append, h] at h'
  exact (run_keeps (P := fun s' : Sys W => s'.max ≤ Nat.max m s.active.length ∧ s'.active.length ≤ Nat.max m s.active.length)
    (ok := fun a => ∀ m, a ≠ .setMax m) (fun _ _ _ ha hi h => limit_act ha hi h) hmax
    (s := { s with max := m }) ⟨Nat.le_max_left _ _, Nat.le_max_right _ _⟩ h').2

/-- **C144, partial.** While no build is cancelled and no wait is dropped, no more builds run than the limit.  With a
cancellation this fails (below). -/
theorem C144_running_partial {max : Nat} {w : W} {acts : List Act} {s : Sys W}
    (hacts : ∀ a ∈ acts, (∀ m, a ≠ .setMax m) ∧ ∀ id, a ≠ .cancel id ∧ a ≠ .giveUp id)
    (h : Reached exec max w acts s) : (alive s).length ≤ max := by
  have h1 := C144_limit (fun a ha => (hacts a ha).1) h
  have h2 := (run_keeps
    (P := fun s : Sys W => Inv s ∧ ∀ id t, mget s.tasks id = some t → t.over = false → id ∈ s.active)
    (ok := fun a => ∀ id, a ≠ .cancel id ∧ a ≠ .giveUp id)
    (fun _ _ _ ha hi h => ⟨inv_act hi.1 h, alive_act ha hi.1 hi.2 h⟩) (fun a ha => (hacts a ha).2)
    ⟨inv_new max w, by simp [Sys.new]⟩ h).2
  exact le_trans (alive_sub (inv_run h) h2) h1

/-- Steps that all succeed, in a world that counts the builds that were installed. -/
def fine (_ : Nat) (b : BuildStep) (n : Nat) : Nat × StepOutcome :=
  (if b = .installing then n + 1 else n, .ok ⟨true, [], []⟩)

/-- Steps of which compiling fails. -/
def faulty (_ : Nat) (b : BuildStep) (n : Nat) : Nat × StepOutcome :=
  (if b = .installing then n + 1 else n, .ok ⟨b ≠ .compiling, [], []⟩)

/-- Two builds and a limit of two: both run; a third is refused. -/
example : ∃ s, Reached fine 2 0 [.start 1, .start 2, .start 3, .step 2] s ∧ (alive s).length = 2 := ⟨_, rfl, rfl⟩

/-- Two builds, then a limit of one: after one of them ended, no other is started beside the one that runs. -/
example : ∃ s, Reached fine 2 0 [.start 1, .start 2, .setMax 1, .giveUp 2, .start 3, .start 4] s ∧ s.active = [1] := ⟨_, rfl, rfl⟩

/-- **C144, false as first stated.** With a limit of one, a build that is cancelled goes on while the next one runs. -/
theorem C144_running_false : ∃ s, Reached fine 1 0 [.start 1, .cancel 1, .start 2, .step 1, .step 2] s ∧
    (alive s).length = 2 ∧ s.ran.map Prod.fst = [1, 2] := ⟨_, rfl, rfl, rfl⟩

/-- **C145.** In every schedule in which the numbers are not reset and no wait is dropped, nothing panics, and the numbers
are right: the running ones are the active builds, every build that was started is counted once, as running, successful or
failed, and the successful ones are those of which a wait said so. -/
theorem C145_numbers_partial (max : Nat) (w : W) {acts : List Act}
    (hacts : ∀ a ∈ acts, a ≠ .reset ∧ ∀ id, a ≠ .giveUp id) :
    ∃ s, Reached exec max w acts s ∧ s.stats.running = s.active.length ∧ s.stats.started = s.tasks.length ∧
      s.stats.started = s.stats.successful + s.stats.failed + s.stats.running ∧
      s.stats.successful = (s.told.filter fun p => p.2).length :=
  counted_run hacts (inv_new max w) ⟨rfl, rfl, rfl, rfl⟩

/-- One build fails, one succeeds, one is cancelled and one goes on. -/
example : ∃ s, Reached (fun id => if id = 1 then faulty id else fine id) 4 0 ([.start 1, .start 2, .start 3, .start 4] ++
    List.replicate 8 (.step 1) ++ List.replicate 8 (.step 2) ++ [.wait 1, .cancel 3, .wait 2]) s ∧
    s.stats = ⟨4, 1, 2, 1⟩ := ⟨_, rfl, by decide +kernel⟩

/-- **C145, false as first stated.** After a reset, waiting for a build that goes on makes the number of running builds
go below zero, which panics; so does cancelling it. -/
theorem C145_reset_false :
    (Sys.new 1 0).run fine (.start 1 :: .reset :: (List.replicate 8 (.step 1) ++ [.wait 1])) = .panic ∧
    (Sys.new 1 0).run fine [.start 1, .reset, .cancel 1] = .panic := ⟨by rfl, by rfl⟩

/-- **C145, false as first stated.** A wait that is dropped (a timeout around it) takes the build away for ever: it still
counts as running after it ended, and nothing can wait for it or cancel it. -/
theorem C145_dropped_false : ∃ s, Reached fine 1 0 ([.start 1, .giveUp 1] ++ List.replicate 8 (.step 1)) s ∧
    s.stats.running = 1 ∧ alive s = [] ∧ s.wait 1 = .err ∧ s.cancel 1 = .err := ⟨_, rfl, rfl, rfl, rfl, rfl⟩

/-- **C145, false as first stated.** A build that succeeded and is cancelled before anything waits for it counts as failed. -/
theorem C145_cancelled_false : ∃ s, Reached fine 1 0 (.start 1 :: (List.replicate 8 (.step 1) ++ [.cancel 1])) s ∧
    AllWell (stepsOf s 1) ∧ s.stats = ⟨1, 0, 1, 0⟩ := ⟨_, rfl, rfl, rfl⟩

/-- **C146.** In every schedule, whatever else happens: of each build, waiting returns a result at most once.  If it says
success then all eight steps of that build ran in order and succeeded.  If it says failure then steps succeeded up to one
that failed, and nothing of the build ran after it.  The steps of other builds play no part. -/
theorem C146_results {max : Nat} {w : W} {acts : List Act} {s : Sys W} (h : Reached exec max w acts s) :
    (s.told.map Prod.fst).Nodup ∧
      (∀ id, (id, true) ∈ s.told → AllWell (stepsOf s id)) ∧
      (∀ id, (id, false) ∈ s.told → StoppedAt (stepsOf s id)) := by
  have hi := inv_run h
  exact ⟨hi.toldOnce, fun id hid => (hi.toldTrue id hid).1, fun id hid => (hi.toldFalse id hid).1⟩

/-- **C146.** A build whose task does not panic is waited for in vain no longer than its steps take: from any state
reached, once it has had eight further turns, in any interleaving with anything else, waiting for it returns, unless it was
taken away (waited for already, cancelled or given up). -/
theorem C146_returns {max : Nat} {w : W} {pre acts : List Act} {s s' : Sys W} {id : Nat} (h : Reached exec max w pre s)
    (hin : id ∈ s.active) (h' : s.run exec acts = .ok s') (hdies : ∀ a ∈ pre ++ acts, a ≠ .dies id)
    (hsteps : 8 ≤ (acts.filter fun a => a = .step id).length) (hin' : id ∈ s'.active) :
    s'.wait id ≠ .err := by
  have hi := inv_run h
  obtain ⟨t, ht, _⟩ := hi.known id hin
  have hlive : Inv s' ∧ Lives s' id := by
    have hrun : (Sys.new max w).run exec (pre ++ acts) = .ok s' := by rw [run_append, h]; exact h'
    exact run_keeps (P := fun s : Sys W => Inv s ∧ Lives s id) (ok := fun a => a ≠ .dies id)
      (fun _ _ _ ha hi h => ⟨inv_act hi.1 h, lives_act ha hi.1 hi.2 h⟩) hdies
      ⟨inv_new max w, by intro t ht; simp [Sys.new] at ht⟩ hrun
  obtain ⟨hk, hle⟩ := left_run hi (by rw [ht]; rfl) h'
  have hsmall : leftOf s id ≤ 8 := by
    have hst := (hi.task id t ht).steps
    have : t.left.length ≤ 8 := by
      have := congrArg List.length hst
      simp only [List.length_append, theSteps, List.length_cons, List.length_nil] at this
      omega
    unfold leftOf
    rw [ht]
    simp only
    split <;> omega
  have hzero : leftOf s' id = 0 := by omega
  cases ht' : mget s'.tasks id with
  | none => rw [ht'] at hk; cases hk
  | some u =>
    have hov : u.over = true := by
      cases ho : u.over with
      | true => rfl
      | false =>
        have hne := ((hlive.1.task id u ht').going ho).2
        unfold leftOf at hzero
        rw [ht'] at hzero
        simp only [ho, Bool.false_eq_true, if_false, List.length_eq_zero_iff] at hzero
        exact absurd hzero hne
    have hrun := hlive.2 u ht' hov
    unfold Sys.wait
    rw [if_neg (by simpa using hin'), ht']
    simp only [if_neg hrun]
    split <;> simp

/-- Two builds take turns: one succeeds, the other fails at compiling. -/
example : ∃ s, Reached (fun id => if id = 1 then faulty id else fine id) 4 0 ([.start 1, .start 2] ++
    (List.replicate 8 [.step 1, .step 2]).flatten ++ [.wait 1, .wait 2, .wait 1]) s ∧
    s.told = [(1, false), (2, true)] := ⟨_, rfl, rfl⟩

/-- **C146, false as first stated.** A build that is cancelled before its first step still goes through all its steps and
installs the package. -/
theorem C146_cancelled_false :
    ∃ s, Reached fine 1 0 (.start 1 :: .cancel 1 :: List.replicate 8 (.step 1)) s ∧
      AllWell (stepsOf s 1) ∧ s.world = 1 := ⟨_, rfl, rfl, rfl⟩

/-- **C146, false as first stated.** After a panic in the task of a build, waiting for that build never returns, whatever
steps follow. -/
theorem C146_dead_false (n : Nat) : ∃ s, Reached fine 1 0 (.start 1 :: .dies 1 :: List.replicate n (.step 1)) s ∧
    1 ∈ s.active ∧ s.wait 1 = .err := by
  let d : Sys Nat := ⟨0, [(1, ⟨allSteps, .running, true⟩)], [1], ⟨1, 0, 0, 1⟩, 1, [], []⟩
  have hrun : ∀ n, d.run fine (List.replicate n (.step 1)) = .ok d := by
    intro n
    induction n with
    | zero => rfl
    | succ n ih => rw [List.replicate_succ]; exact ih
  exact ⟨d, hrun n, by simp [d], by rfl⟩

end Rez.Props
