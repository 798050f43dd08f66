import Verif.Spec.Complete
import Verif.Lemmas.Words
import Mathlib.Tactic.Common
/-!
# C220 Completion
-/
namespace Rez.Props
open Rez Rez.Complete Rez.Complete.Spec

theorem byteLen_cons (c : Char) (s : Str) : byteLen (c :: s) = c.utf8Size + byteLen s := by simp [byteLen]

theorem lineLen_append (a b : Str) : byteLen (a ++ b) = byteLen a + byteLen b := by simp [byteLen]

theorem byteLen_zero {s : Str} (h : byteLen s = 0) : s = [] := by
  cases s with
  | nil => rfl
  | cons c s => rw [byteLen_cons] at h; have := c.utf8Size_pos; omega

/-- Cutting a text at a byte. -/
theorem sliceTo_iff (n : Nat) (s t : Str) : sliceTo n s = some t ↔ ∃ r, s = t ++ r ∧ byteLen t = n := by
  induction s generalizing n t with
  | nil =>
    cases n with
    | zero =>
      simp only [sliceTo, Option.some.injEq]
      constructor
      · rintro rfl; exact ⟨[], rfl, rfl⟩
      · rintro ⟨r, h, -⟩; exact (List.append_eq_nil_iff.mp h.symm).1.symm
    | succ n =>
      simp only [sliceTo]
      constructor
      · intro h; cases h
      · rintro ⟨r, h, hb⟩
        rw [(List.append_eq_nil_iff.mp h.symm).1] at hb
        simp [byteLen] at hb
  | cons c s ih =>
    cases n with
    | zero =>
      simp only [sliceTo, Option.some.injEq]
      constructor
      · rintro rfl; exact ⟨_, rfl, rfl⟩
      · rintro ⟨r, -, hb⟩; exact (byteLen_zero hb).symm
    | succ n =>
      have hp := c.utf8Size_pos
      simp only [sliceTo]
      by_cases hc : c.utf8Size ≤ n + 1
      · rw [if_pos hc]
        constructor
        · intro h
          obtain ⟨t', h1, rfl⟩ := Option.map_eq_some_iff.mp h
          obtain ⟨r, rfl, hb⟩ := (ih _ _).mp h1
          exact ⟨r, rfl, by rw [byteLen_cons, hb]; omega⟩
        · rintro ⟨r, h, hb⟩
          cases t with
          | nil => simp [byteLen] at hb
          | cons d t =>
            simp only [List.cons_append, List.cons.injEq] at h
            obtain ⟨rfl, rfl⟩ := h
            rw [byteLen_cons] at hb
            rw [(ih (n + 1 - c.utf8Size) t).mpr ⟨r, rfl, by omega⟩]
            rfl
      · rw [if_neg hc]
        constructor
        · intro h; cases h
        · rintro ⟨r, h, hb⟩
          cases t with
          | nil => simp [byteLen] at hb
          | cons d t =>
            simp only [List.cons_append, List.cons.injEq] at h
            obtain ⟨rfl, rfl⟩ := h
            rw [byteLen_cons] at hb
            omega

/-- The part of the line that is looked at. -/
theorem before_iff (line : Str) (point : Nat) (b : Str) :
    (if point < byteLen line then sliceTo point line else some line) = some b ↔ Before line point b := by
  unfold Before
  by_cases h : point < byteLen line
  · rw [if_pos h, sliceTo_iff]
    constructor
    · rintro ⟨r, h1, h2⟩
      refine Or.inl ⟨r, h1, h2, ?_⟩
      rintro rfl
      rw [List.append_nil] at h1
      subst h1; omega
    · rintro (⟨r, h1, h2, -⟩ | ⟨h1, -⟩)
      · exact ⟨r, h1, h2⟩
      · omega
  · rw [if_neg h, Option.some.injEq]
    constructor
    · rintro rfl; exact Or.inr ⟨by omega, rfl⟩
    · rintro (⟨r, h1, h2, h3⟩ | ⟨-, h1⟩)
      · subst h1
        rw [lineLen_append] at h
        have : byteLen r ≠ 0 := fun h => h3 (byteLen_zero h)
        omega
      · exact h1.symm

theorem splitWs_skip (c : Char) (s : Str) (h : isWs c = true) : splitWs (c :: s) = splitWs s := by
  cases s <;> simp [splitWs, h]

theorem splitWs_blank (b rest : Str) (hb : ∀ c ∈ b, isWs c = true) : splitWs (b ++ rest) = splitWs rest := by
  induction b with
  | nil => rfl
  | cons c b ih =>
    rw [List.cons_append, splitWs_skip c _ (hb c (by simp))]
    exact ih fun d hd => hb d (List.mem_cons_of_mem _ hd)

/-- `split_whitespace` gives the words. -/
theorem words_splitWs {s : Str} {l : List Str} (h : Words s l) : splitWs s = l := by
  induction h with
  | nil b hb => have := splitWs_blank b [] hb; rw [List.append_nil] at this; rw [this]; rfl
  | last b w hb hw hn => rw [splitWs_blank b w hb, splitWs_last w hw hn]
  | cons b w rest s l hb hw hn hs _ ih =>
    rw [List.append_assoc, splitWs_blank b _ hb]
    have hstep : splitWs (w ++ s :: rest) = w :: splitWs (s :: rest) := by
      clear ih
      induction w with
      | nil => exact absurd rfl hw
      | cons c w ih' =>
        have hc : isWs c = false := hn c (by simp)
        cases w with
        | nil =>
          simp only [List.cons_append, List.nil_append]
          rw [splitWs, if_neg (by simp [hc])]
          simp only [hs, if_true]
        | cons d w =>
          have hd : isWs d = false := hn d (by simp)
          have := ih' (by simp) (fun x hx => hn x (List.mem_cons_of_mem _ hx))
          rw [List.cons_append, List.cons_append, splitWs, if_neg (by simp [hc])]
          simp only [hd]
          rw [List.cons_append] at this
          simp [this]
    rw [hstep]
    have : splitWs (s :: rest) = splitWs rest := splitWs_skip s rest hs
    rw [this, ih]

/-- After the name of a subcommand that takes packages, the packages are offered that begin with the last word before the cursor, or
all if there is none yet. -/
theorem C220_packages (names : List Str) (line before prog sub : Str) (point : Nat) (more : List Str)
    (hb : Before line point before) (hw : Words before (prog :: sub :: more))
    (hs : sub ∈ [c!"env", c!"solve", c!"search", c!"depends", c!"build", c!"release"]) (out : List Str) :
    completeDynamic (.ok names) line point = .ok out ↔
      out = names.filter fun n => ((more.getLast?).getD []).isPrefixOf n := by
  unfold completeDynamic
  rw [(before_iff line point before).mpr hb]
  simp only [words_splitWs hw]
  rw [if_pos (by simpa [packageSubcommands] using hs)]
  simp only [completeNames, Outcome.ok.injEq]
  exact eq_comm

/-- After any other subcommand nothing is offered. -/
theorem C220_others (names : Outcome (List Str)) (line before prog sub : Str) (point : Nat) (more : List Str)
    (hb : Before line point before) (hw : Words before (prog :: sub :: more))
    (hs : sub ∉ [c!"env", c!"solve", c!"search", c!"depends", c!"build", c!"release"]) :
    completeDynamic names line point = .ok [] := by
  unfold completeDynamic
  rw [(before_iff line point before).mpr hb]
  simp only [words_splitWs hw]
  rw [if_neg (by simpa [packageSubcommands] using hs)]

/-- Before the first word all subcommands are offered; with one word before the cursor, those that begin with it: the word is the name
of the program. -/
theorem C220_first (names : Outcome (List Str)) (line before : Str) (point : Nat) (hb : Before line point before) :
    (Words before [] → completeDynamic names line point = .ok subcommands) ∧
    ∀ w, Words before [w] → completeDynamic names line point = .ok (subcommands.filter fun c => w.isPrefixOf c) := by
  unfold completeDynamic
  rw [(before_iff line point before).mpr hb]
  exact ⟨fun h => by simp only [words_splitWs h], fun w h => by simp only [words_splitWs h]⟩

/-- What comes after the cursor does not matter. -/
theorem C220_cursor (names : Outcome (List Str)) (a b b' : Str) :
    completeDynamic names (a ++ b) (byteLen a) = completeDynamic names (a ++ b') (byteLen a) := by
  have key : ∀ x, (if byteLen a < byteLen (a ++ x) then sliceTo (byteLen a) (a ++ x) else some (a ++ x)) = some a := by
    intro x
    rw [before_iff]
    by_cases hx : x = []
    · subst hx; exact Or.inr ⟨by simp, by simp⟩
    · exact Or.inl ⟨x, rfl, rfl, hx⟩
  unfold completeDynamic
  rw [key b, key b']

/-- The command panics exactly if the cursor is within a character, or the list of packages does. -/
theorem C220_panics (names : List Str) (line : Str) (point : Nat) :
    completeDynamic (.ok names) line point = .panic ↔ ¬∃ before, Before line point before := by
  unfold completeDynamic
  rcases h : (if point < byteLen line then sliceTo point line else some line) with _ | b
  · simp only [true_iff]
    rintro ⟨b, hb⟩
    rw [← before_iff, h] at hb
    cases hb
  · have : ∃ before, Before line point before := ⟨b, (before_iff line point b).mp h⟩
    simp only [this, not_true, iff_false]
    split
    · simp
    · simp
    · split
      · simp [completeNames]
      · simp

/-- The versions offered are those of the packages found that have one, as name-version, if they begin with the word. -/
theorem C220_versions (versions : List (Option Str)) (name pre t : Str) :
    ∃ out, completeVersions (.ok versions) name pre = .ok out ∧
      (t ∈ out ↔ ∃ v, some v ∈ versions ∧ t = name ++ c!"-" ++ v ∧ pre <+: t) := by
  refine ⟨_, rfl, ?_⟩
  simp only [List.mem_filter, List.mem_filterMap, Option.map_eq_some_iff, Bool.or_eq_true, List.isPrefixOf_iff_prefix,
    List.isEmpty_iff]
  constructor
  · rintro ⟨⟨o, ho, v, rfl, rfl⟩, h⟩
    refine ⟨v, ho, by simp, ?_⟩
    rcases h with h | h
    · exact h
    · rw [h]; exact List.nil_prefix
  · rintro ⟨v, hv, rfl, h⟩
    exact ⟨⟨_, hv, v, rfl, by simp⟩, Or.inl h⟩

/-- `--complete-packages` offers exactly the packages that begin with the word. -/
theorem C220_names (names : List Str) (versions : Str → Outcome (List (Option Str))) (a : Args) (hd : a.dynamic = false)
    (hl : a.compLine = none) (hp : a.printScript = false) (hc : a.completePackages = true) :
    execute (.ok names) versions a = .lines (.ok (names.filter fun n => (a.current.getD []).isPrefixOf n)) := by
  simp [execute, hd, hl, hp, hc, completeNames]

/-! ## forward -/

/-- C220: the line of a shell comes from the option or, without it, from the environment, and so does the cursor; what is no number is
the start of the line.  The shell asks with the flag or with the line. -/
theorem C220_asked (names : Outcome (List Str)) (versions : Str → Outcome (List (Option Str))) (a : Args)
    (h : a.dynamic = true ∨ ∃ l, a.compLine = some l) :
    ∃ line point, execute names versions a = .lines (completeDynamic names line point) ∧
      (∀ l, a.compLine = some l → line = l) ∧ (a.compLine = none → ∀ l, a.envLine = some l → line = l) ∧
      (a.compLine = none → a.envLine = none → line = []) ∧
      (∀ p n, a.compPoint = some p → parseU64 p = some n → point = n) ∧
      (∀ p n, a.compPoint = none → a.envPoint = some p → parseU64 p = some n → point = n) ∧
      (∀ p, a.compPoint = some p → parseU64 p = none → point = 0) ∧ (a.compPoint = none → a.envPoint = none → point = 0) := by
  have hb : (a.dynamic || a.compLine.isSome) = true := by
    rcases h with h | ⟨l, h⟩ <;> simp [h]
  refine ⟨(a.compLine <|> a.envLine).getD [], ((a.compPoint <|> a.envPoint).bind parseU64).getD 0, ?_, ?_, ?_, ?_, ?_, ?_, ?_, ?_⟩
  · unfold execute; rw [if_pos hb]
  · intro l hl; simp [hl]
  · intro h1 l hl; simp [h1, hl]
  · intro h1 h2; simp [h1, h2]
  · intro p n h1 h2; simp [h1, h2]
  · intro p n h1 h2 h3; simp [h1, h2, h3]
  · intro p h1 h2; simp [h1, h2]
  · intro h1 h2; simp [h1, h2]

/-- C220: asked for the script, it is the one of the shell, which is bash unless told; asked for versions, they are those that begin
with the current word. -/
theorem C220_options (names : Outcome (List Str)) (versions : Str → Outcome (List (Option Str))) (a : Args) (hd : a.dynamic = false)
    (hl : a.compLine = none) :
    (a.printScript = true → (∀ s, a.shell = some s → execute names versions a = .script s) ∧
      (a.shell = none → execute names versions a = .script c!"bash")) ∧
    (a.printScript = false → a.completePackages = false → ∀ p, a.completeVersions = some p →
      (∀ w, a.current = some w → execute names versions a = .lines (completeVersions (versions p) p w)) ∧
      (a.current = none → execute names versions a = .lines (completeVersions (versions p) p []))) := by
  refine ⟨fun h => ⟨fun s hs => ?_, fun hs => ?_⟩, fun h1 h2 p hp => ⟨fun w hw => ?_, fun hw => ?_⟩⟩
  · unfold execute; simp [hd, hl, h, hs]
  · unfold execute; simp [hd, hl, h, hs]
  · unfold execute; simp [hd, hl, h1, h2, hp, hw]
  · unfold execute; simp [hd, hl, h1, h2, hp, hw]

example : ∃ names versions, execute names versions ⟨none, false, false, none, none, true, none, none, some c!"rez env py", some c!"10"⟩ =
    .lines (.ok [c!"python"]) := 
  ⟨.ok [c!"python", c!"maya"], fun _ => .ok [], congrArg Answer.lines (by decide +kernel : completeDynamic
    (.ok [c!"python", c!"maya"]) c!"rez env py" 10 = .ok [c!"python"])⟩

/-- The program that is run: `REZ_NEXT_BIN` if it is set and not empty, else `rez-next` beside the running program if it is there,
else `rez-next` on the path. -/
theorem C220_program (e : Surroundings) :
    (∀ v, e.chosen = some v → v ≠ [] → findProgram e = v) ∧
    (e.chosen = none ∨ e.chosen = some [] →
      (∀ d, e.directory = some d → e.beside = true → findProgram e = d ++ c!"/rez-next") ∧
      (e.directory = none ∨ e.beside = false → findProgram e = c!"rez-next")) := by
  unfold findProgram
  constructor
  · intro v hv hn
    have : v.isEmpty = false := by cases v <;> simp_all
    simp [hv, Option.filter, this]
  · intro h
    have : (e.chosen.filter fun v => !v.isEmpty) = none := by
      rcases h with h | h <;> simp [h]
    rw [this]
    simp only
    refine ⟨fun d hd hb => by simp [hd, hb], ?_⟩
    rintro (h | h)
    · simp [h]
    · cases e.directory <;> simp [h]

/-- The program is run exactly if arguments are given and neither `--print-path` nor `--dry-run`, with these arguments. -/
theorem C220_forward (e : Surroundings) (a : ForwardArgs) (p : Str) (args : List Str) :
    forward e a = .run p args ↔ a.printPath = false ∧ a.dryRun = false ∧ a.args ≠ [] ∧ p = findProgram e ∧ args = a.args := by
  unfold forward
  cases a.printPath <;> cases a.dryRun <;> cases h : a.args <;> simp [eq_comm]

/-- Its exit code is handed back; success means that it was zero. -/
theorem C220_exit (r : Option (Option Int)) : exitCode r = 0 ↔ r = some (some 0) := by
  rcases r with _ | _ | c <;> simp [exitCode]

/-! ## Concrete cases -/

theorem words_env_py : Words c!"rez env py" [c!"rez", c!"env", c!"py"] :=
  Words.cons [] c!"rez" c!"env py" ' ' _ (by simp) (by simp) (by decide) rfl
    (Words.cons [] c!"env" c!"py" ' ' _ (by simp) (by simp) (by decide) rfl (Words.last [] c!"py" (by simp) (by simp) (by decide)))

/-- `rez env py` with the cursor at its end, and something behind it. -/
example : completeDynamic (.ok [c!"python", c!"maya", c!"pyside"]) c!"rez env py --foo" 10 = .ok [c!"python", c!"pyside"] :=
  (C220_packages _ _ c!"rez env py" c!"rez" c!"env" 10 [c!"py"] (Or.inl ⟨c!" --foo", rfl, by decide, by simp⟩) words_env_py (by decide)
    _).mpr (by decide)

/-! ## What does not hold -/

/-- A subcommand that is being typed is not completed. -/
theorem C220_subcommand_false : ¬∀ (names : Outcome (List Str)) (w : Str) (sub : Str), sub ∈ subcommands → w <+: sub → w ≠ [] →
    ∃ out, completeDynamic names (c!"rez " ++ w) (byteLen (c!"rez " ++ w)) = .ok out ∧ sub ∈ out := by
  intro h
  obtain ⟨out, h1, h2⟩ := h (.ok []) c!"vi" c!"view" (by decide) (by decide) (by decide)
  have : completeDynamic (.ok []) (c!"rez " ++ c!"vi") (byteLen (c!"rez " ++ c!"vi")) = .ok [] := by decide +kernel
  rw [this] at h1
  cases h1
  cases h2

/-- Nor are the subcommands offered after the name of the program, whatever blanks follow. -/
theorem C220_program_false (names : Outcome (List Str)) (blanks : Str) (hb : ∀ c ∈ blanks, isWs c = true) :
    completeDynamic names (c!"rez" ++ blanks) (byteLen (c!"rez" ++ blanks)) = .ok [] := by
  have hw : Words (c!"rez" ++ blanks) [c!"rez"] := by
    cases blanks with
    | nil => exact Words.last [] c!"rez" (by simp) (by simp) (by decide)
    | cons s r =>
      exact Words.cons [] c!"rez" r s [] (by simp) (by simp) (by decide) (hb s (by simp))
        (Words.nil r fun c hc => hb c (List.mem_cons_of_mem _ hc))
  rw [(C220_first names _ _ _ (Or.inr ⟨Nat.le_refl _, rfl⟩)).2 c!"rez" hw]
  decide +kernel

/-- After a blank the word before it is completed again. -/
theorem C220_blank_false : completeDynamic (.ok [c!"python", c!"maya"]) c!"rez env python " 15 ≠ .ok [c!"python", c!"maya"] := by
  decide +kernel

end Rez.Props
