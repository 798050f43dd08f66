import Verif.Spec.Which
import Verif.Lemmas.Text
import Mathlib.Tactic.Common
/-!
# C222 Finding and running programs
-/
namespace Rez.Props
open Rez Rez.Which Rez.Which.Spec

theorem join_under {dir name : Str} (hd : dir ≠ []) (hn : '/' ∉ name) : Which.join dir name = under dir name := by
  have hh : name.head? ≠ some '/' := fun h => hn (List.mem_of_mem_head? h)
  unfold Which.join under
  rw [if_neg hh]
  by_cases hl : dir.getLast? = some '/' <;> simp [hl, hd]

theorem searchIn_iff (exec : Str → Bool) (command p : Str) (hc : '/' ∉ command) (dirs : List Str) :
    searchIn exec command dirs = some p ↔ ∃ before d after, dirs = before ++ d :: after ∧ d ≠ [] ∧ p = under d command ∧
      exec p = true ∧ ∀ x ∈ before, x ≠ [] → exec (under x command) = false := by
  induction dirs with
  | nil => simp [searchIn]
  | cons a dirs ih =>
    rw [searchIn]
    have shift : (a = [] ∨ exec (under a command) = false) →
        ((∃ before d after, dirs = before ++ d :: after ∧ d ≠ [] ∧ p = under d command ∧
          exec p = true ∧ ∀ x ∈ before, x ≠ [] → exec (under x command) = false) ↔
        ∃ before d after, a :: dirs = before ++ d :: after ∧ d ≠ [] ∧ p = under d command ∧
          exec p = true ∧ ∀ x ∈ before, x ≠ [] → exec (under x command) = false) := by
      intro ha
      constructor
      · rintro ⟨b, d, c, rfl, h1, h2, h3, h4⟩
        refine ⟨a :: b, d, c, rfl, h1, h2, h3, ?_⟩
        intro x hx hne
        rcases List.mem_cons.mp hx with rfl | hx
        · rcases ha with ha | ha
          · exact absurd ha hne
          · exact ha
        · exact h4 x hx hne
      · rintro ⟨b, d, c, he, h1, h2, h3, h4⟩
        cases b with
        | nil =>
          simp only [List.nil_append, List.cons.injEq] at he
          obtain ⟨rfl, -⟩ := he
          rcases ha with ha | ha
          · exact absurd ha h1
          · rw [h2, ha] at h3; cases h3
        | cons x b =>
          simp only [List.cons_append, List.cons.injEq] at he
          obtain ⟨rfl, rfl⟩ := he
          exact ⟨b, d, c, rfl, h1, h2, h3, fun y hy => h4 y (List.mem_cons_of_mem _ hy)⟩
    by_cases ha : a = []
    · rw [if_pos (by simp [ha]), ih, shift (Or.inl ha)]
    · rw [if_neg (by simp [ha]), join_under ha hc]
      cases hx : exec (under a command) with
      | false => rw [if_neg (by simp), ih, shift (Or.inr hx)]
      | true =>
        rw [if_pos rfl]
        simp only [Option.some.injEq]
        constructor
        · rintro rfl
          exact ⟨[], a, dirs, rfl, ha, rfl, hx, by simp⟩
        · rintro ⟨b, d, c, he, h1, h2, h3, h4⟩
          cases b with
          | nil =>
            simp only [List.nil_append, List.cons.injEq] at he
            rw [h2, he.1]
          | cons x b =>
            simp only [List.cons_append, List.cons.injEq] at he
            obtain ⟨rfl, rfl⟩ := he
            have := h4 a List.mem_cons_self ha
            rw [hx] at this
            cases this

theorem bare_contains {command : Str} (h : Bare command) : (command.contains '/' || command.contains '\\') = false := by
  simp [List.contains_eq_mem, h.1, h.2]

theorem entries_split {s : Sys} {dirs : List Str} (h : Entries s dirs) : s.path = some (joinWith c!":" dirs) ∧
    splitChar ':' (joinWith c!":" dirs) = dirs := ⟨h.1, splitChar_join h.2.1 h.2.2⟩

/-- A command without a path is the program in the first directory of `PATH` that has it. -/
theorem C222_first (s : Sys) (dirs : List Str) (cwd command p : Str) (hp : Entries s dirs) (hw : s.cwd = some cwd)
    (hc : Bare command) :
    which s command = some p ↔ ∃ before d after, dirs = before ++ d :: after ∧ d ≠ [] ∧ p = under d command ∧ s.exec p = true ∧
      ∀ x ∈ before, x ≠ [] → s.exec (under x command) = false := by
  obtain ⟨h1, h2⟩ := entries_split hp
  unfold which
  rw [h1, hw]
  simp only [bare_contains hc, h2, Bool.false_eq_true, if_false]
  exact searchIn_iff s.exec command p hc.1 dirs

/-- A command with a path is that path, from the working directory unless it is absolute; what `PATH` holds does not matter. -/
theorem C222_path (s : Sys) (path cwd command p : Str) (hp : s.path = some path) (hw : s.cwd = some cwd) (hn : cwd ≠ [])
    (hc : '/' ∈ command ∨ '\\' ∈ command) :
    which s command = some p ↔
      s.exec p = true ∧ (command.head? = some '/' ∧ p = command ∨ command.head? ≠ some '/' ∧ p = under cwd command) := by
  have hcon : (command.contains '/' || command.contains '\\') = true := by simpa [List.contains_eq_mem] using hc
  unfold which
  rw [hp, hw]
  simp only [hcon, if_true]
  by_cases hh : command.head? = some '/'
  · simp only [hh, if_true, true_and, not_true, ne_eq, false_and, or_false]
    cases hx : s.exec command with
    | true =>
      simp only [if_true, Option.some.injEq]
      exact ⟨fun h => ⟨h ▸ hx, h.symm⟩, fun h => h.2.symm⟩
    | false =>
      simp only [Bool.false_eq_true, if_false, reduceCtorEq, false_iff]
      rintro ⟨h1, rfl⟩
      rw [hx] at h1
      cases h1
  · have hj : Which.join cwd command = under cwd command := by
      unfold Which.join under
      rw [if_neg hh]
      by_cases hl : cwd.getLast? = some '/' <;> simp [hl, hn]
    simp only [hh, if_false, false_and, ne_eq, not_false_iff, true_and, false_or, hj]
    cases hx : s.exec (under cwd command) with
    | true =>
      simp only [if_true, Option.some.injEq]
      exact ⟨fun h => ⟨h ▸ hx, h.symm⟩, fun h => h.2.symm⟩
    | false =>
      simp only [Bool.false_eq_true, if_false, reduceCtorEq, false_iff]
      rintro ⟨h1, rfl⟩
      rw [hx] at h1
      cases h1

/-- `which_all` gives the program in every directory of `PATH` that has it, in order; `which` is the first of them. -/
theorem C222_all (s : Sys) (dirs : List Str) (cwd command : Str) (hp : Entries s dirs) (hw : s.cwd = some cwd) (hc : Bare command) :
    whichAll s command = ((dirs.filter fun d => d ≠ []).map fun d => under d command).filter s.exec ∧
    which s command = (whichAll s command).head? := by
  obtain ⟨h1, h2⟩ := entries_split hp
  unfold whichAll which
  rw [h1, hw]
  simp only [bare_contains hc, h2, Bool.false_eq_true, if_false]
  constructor
  · clear hp h1 h2
    induction dirs with
    | nil => rfl
    | cons a dirs ih =>
      rw [List.filterMap_cons]
      by_cases ha : a = []
      · simp only [ha, List.isEmpty_nil, if_true]
        rw [ih]
        simp
      · have he : a.isEmpty = false := by simpa using ha
        simp only [he, Bool.false_eq_true, if_false, join_under ha hc.1]
        cases hx : s.exec (under a command) with
        | true => simp only [if_true]; rw [ih]; simp [ha, hx]
        | false => simp only [Bool.false_eq_true, if_false]; rw [ih]; simp [ha, hx]
  · clear hp h1 h2
    induction dirs with
    | nil => rfl
    | cons a dirs ih =>
      rw [searchIn, List.filterMap_cons]
      by_cases ha : a = []
      · simp only [ha, List.isEmpty_nil, if_true]
        exact ih
      · have he : a.isEmpty = false := by simpa using ha
        simp only [he, Bool.false_eq_true, if_false]
        cases hx : s.exec (Which.join a command) with
        | true => simp
        | false => simp only [Bool.false_eq_true, if_false]; exact ih

/-- What is found can be executed, and `command_exists` says whether something is found. -/
theorem C222_executable (s : Sys) (command : Str) :
    (∀ p, which s command = some p → s.exec p = true) ∧ (∀ p ∈ whichAll s command, s.exec p = true) ∧
    (commandExists s command = true ↔ ∃ p, which s command = some p) := by
  have hsearch : ∀ dirs p, searchIn s.exec command dirs = some p → s.exec p = true := by
    intro dirs
    induction dirs with
    | nil => intro p h; cases h
    | cons a dirs ih =>
      intro p h
      rw [searchIn] at h
      split at h
      · exact ih p h
      · split at h
        · rename_i hx; cases h; exact hx
        · exact ih p h
  refine ⟨?_, ?_, by simp [commandExists, Option.isSome_iff_exists]⟩
  · intro p h
    unfold which at h
    split at h
    · cases h
    · split at h
      · cases h
      · split at h
        · simp only at h
          generalize (if command.head? = some '/' then command else Which.join _ command) = full at h
          split at h
          · rename_i hx; cases h; exact hx
          · cases h
        · exact hsearch _ p h
  · intro p h
    unfold whichAll at h
    split at h
    · cases h
    · obtain ⟨d, -, hd⟩ := List.mem_filterMap.mp h
      split at hd
      · cases hd
      · split at hd
        · rename_i hx; cases hd; exact hx
        · cases hd

/-- The output of a command is what it wrote, exactly if it could be started and ended with exit code zero. -/
theorem C222_output (run : Str → List Str → Option Output) (command : Str) (args : List Str) (out : Str) :
    commandOutput run command args = some out ↔ ∃ o, run command args = some o ∧ o.code = some 0 ∧ o.stdout = out := by
  unfold commandOutput execute
  cases h : run command args with
  | none => simp
  | some o =>
    by_cases hc : o.code = some 0 <;> simp [fromOutput, hc]

/-- The result of a command: success is exit code zero, and a command that a signal ended has the code -1. -/
theorem C222_result (run : Str → List Str → Option Output) (command : Str) (args : List Str) (o : Output) (h : run command args = some o) :
    ∃ r, execute run command args = some r ∧ r.stdout = o.stdout ∧ r.stderr = o.stderr ∧
      (∀ c, o.code = some c → r.exitCode = c) ∧ (o.code = none → r.exitCode = -1) ∧ (r.success = true ↔ r.exitCode = 0) := by
  refine ⟨fromOutput o, by simp [execute, h], rfl, rfl, fun c hc => by simp [fromOutput, hc], fun hc => by simp [fromOutput, hc], ?_⟩
  cases hc : o.code <;> simp [fromOutput, hc]

/-! ## Whether a path can be written -/

/-- Whether a path can be written is whether the nearest of it and the directories above it that is there can be, as long as none is
called like the file that is made to try; then no file is changed. -/
theorem C222_writable (fs : Files) (p q : List Str) (e : Entry) (hn : Nearest fs p q e) (hp : fs (probe :: q) = none) :
    isWritable fs p = (canWrite e, fs) := by
  induction hn with
  | here p e h =>
    cases p with
    | nil => rw [isWritable, h]; cases e <;> simp [tryDir, hp, canWrite]
    | cons n p => rw [isWritable, h]; cases e <;> simp [tryDir, hp, canWrite]
  | above n p q e h _ ih => rw [isWritable]; simp only [h]; exact ih hp

/-- Only that file is ever changed. -/
theorem C222_untouched (fs : Files) (p x : List Str) (hx : ∀ q, x ≠ probe :: q) : (isWritable fs p).2 x = fs x := by
  have htry : ∀ q w, (tryDir fs q w).2 x = fs x := by
    intro q w
    unfold tryDir
    split
    · split
      · simp [remove, hx q]
      · simp [hx q]
    all_goals rfl
  induction p with
  | nil => rw [isWritable]; split <;> first | rfl | exact htry _ _
  | cons n p ih => rw [isWritable]; split <;> first | rfl | exact ih | exact htry _ _

/-! ## Concrete cases -/

def demoSys : Sys := ⟨some c!"/opt/bin::/usr/bin", some c!"/home/me", fun p => [c!"/usr/bin/git", c!"/home/me/bin/x"].contains p⟩

example : Entries demoSys [c!"/opt/bin", [], c!"/usr/bin"] ∧ Bare c!"git" := ⟨⟨rfl, by simp, by decide⟩, by decide, by decide⟩

example : which demoSys c!"git" = some c!"/usr/bin/git" ∧ which demoSys c!"bin/x" = some c!"/home/me/bin/x" ∧
    which demoSys c!"x" = none := by decide

/-- A directory that is not there, below one that can be written. -/
example : Nearest (fun p => if p = [] then some (.dir false) else if p = [c!"tmp"] then some (.dir true) else none) [c!"b", c!"a", c!"tmp"]
    [c!"tmp"] (.dir true) := by
  refine .above _ _ _ _ (by decide) (.above _ _ _ _ (by decide) (.here _ _ (by decide)))

/-! ## What does not hold -/

/-- Without `PATH` a program is not found even by its absolute path. -/
theorem C222_unset_false (s : Sys) (command : Str) (h : s.path = none) : which s command = none := by
  simp [which, h]

/-- `which_all` of a path gives it once for each entry of `PATH`, or looks below them. -/
theorem C222_all_false :
    whichAll ⟨some c!"/a:/b", some c!"/", fun p => p == c!"/x/y"⟩ c!"/x/y" = [c!"/x/y", c!"/x/y"] ∧
    (∃ s : Sys, which s c!"x/y" = none ∧ whichAll s c!"x/y" ≠ []) := by
  refine ⟨by decide, ⟨some c!"/a", some c!"/", fun p => p == c!"/a/x/y"⟩, by decide, by decide⟩

/-- A time limit is not kept: it does not change anything. -/
theorem C222_timeout_false (run : Str → List Str → Option Output) (command : Str) (args : List Str) (n m : Nat) :
    executeWithTimeout run command args n = executeWithTimeout run command args m := rfl

/-- Asking whether a directory can be written removes a file of the user, and leaves it empty if it cannot be removed. -/
theorem C222_probe_false (fs : Files) (p : List Str) (w : Bool) (text : Str) (hd : fs p = some (.dir w))
    (hf : fs (probe :: p) = some (.file text true)) :
    (isWritable fs p).1 = true ∧ (isWritable fs p).2 (probe :: p) = if w then none else some (.file [] true) := by
  have : isWritable fs p = tryDir fs p w := by cases p <;> rw [isWritable, hd]
  rw [this]
  unfold tryDir
  rw [hf]
  cases w <;> simp [remove]

end Rez.Props
