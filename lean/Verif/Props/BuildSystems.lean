import Verif.Lemmas.Words
import Verif.Spec.BuildSystems
import Verif.Spec.BuildRun
import Verif.Props.BuildRun
import Verif.Props.Rex
import Verif.Lemmas.Text
/-!
# Build systems: C148–C151
-/
namespace Rez.Props
open Rez Rez.Build Rez.Build.Spec

/-! ## C148: which system builds a package -/

/-- C148: the system that builds a package is the one of its build command, else the one it names, else that of the first
project file that is there, else copying. -/
theorem C148_choice (has : Str → Bool) (command system : Option Str) (x : System) :
    detectWith has command system = x ↔ Chosen has command system x := by
  have one : ∀ y, Chosen has command system y → detectWith has command system = y := by
    intro y h
    cases h with
    | noCommand c sys h => rcases h with rfl | rfl <;> rfl
    | command c sys h h' => simp [detectWith, h, h']
    | system s x h =>
      simp only [systemNames, List.mem_cons, Prod.mk.injEq, List.not_mem_nil, or_false] at h
      rcases h with ⟨rfl, rfl⟩ | ⟨rfl, rfl⟩ | ⟨rfl, rfl⟩ | ⟨rfl, rfl⟩ | ⟨rfl, rfl⟩ | ⟨rfl, rfl⟩ | ⟨rfl, rfl⟩ | ⟨rfl, rfl⟩ |
        ⟨rfl, rfl⟩ <;> rfl
    | script s h =>
      have hn : ∀ n y, (n, y) ∈ systemNames → s ≠ n := fun n y hm e => h y (e ▸ hm)
      show named s = _
      unfold named
      rw [if_neg (hn _ .cmake (by decide)), if_neg (hn _ .make (by decide)), if_neg (hn _ .python (by decide)),
        if_neg (hn _ .nodejs (by decide)), if_neg (hn _ .cargo (by decide)), if_neg (hn _ .archive (by decide)), if_neg]
      rintro (e | e | e)
      · exact hn _ .pypi (by decide) e
      · exact hn _ .pypi (by decide) e
      · exact hn _ .pypi (by decide) e
    | file pre post files _ ht h hno =>
      have hlen : pre.length < 10 := by
        have := congrArg List.length ht
        simp [projectFiles] at this
        omega
      have hpre : pre = projectFiles.take pre.length := by rw [ht]; simp
      have hx : projectFiles[pre.length]? = some (files, y) := by rw [ht]; simp
      generalize pre.length = n at hlen hpre hx
      subst hpre
      simp only [AnyOf] at h hno
      show (if has c!"rezbuild.py" then _ else detect has) = _
      rcases n with _ | _ | _ | _ | _ | _ | _ | _ | _ | _ | n
      all_goals first
        | omega
        | (simp only [projectFiles, List.getElem?_cons_zero, List.getElem?_cons_succ, Option.some.injEq, Prod.mk.injEq] at hx
           obtain ⟨rfl, rfl⟩ := hx
           simp [projectFiles] at hno h
           first
             | (simp [detect, List.find?, hno, h]; done)
             | (rcases h with h | h <;> simp [detect, List.find?, hno, h])
             | simp [detect, List.find?, h])
    | nothing hno =>
      simp [AnyOf, projectFiles] at hno
      show (if has c!"rezbuild.py" then _ else detect has) = _
      simp [detect, List.find?, hno]
  constructor
  · rintro rfl
    cases command with
    | some c =>
      by_cases h : c = []
      · subst h; exact .noCommand _ _ (Or.inl rfl)
      · by_cases h' : c = c!"false"
        · subst h'; exact .noCommand _ _ (Or.inr rfl)
        · have : detectWith has (some c) system = .custom c!"build_command" := by simp [detectWith, h, h']
          rw [this]
          exact .command _ _ h h'
    | none =>
      cases system with
      | some s =>
        by_cases h : ∃ y, (s, y) ∈ systemNames
        · obtain ⟨y, h⟩ := h
          have hc := Chosen.system (has := has) s y h
          rw [one y hc]
          exact hc
        · have hc := Chosen.script (has := has) s (fun y hy => h ⟨y, hy⟩)
          rw [one _ hc]
          exact hc
      | none =>
        by_cases h : ∃ e ∈ projectFiles, AnyOf has e.1
        · have key : ∀ (l pre : List (List Str × System)), projectFiles = pre ++ l → (∀ e ∈ pre, ¬ AnyOf has e.1) →
              (∃ e ∈ l, AnyOf has e.1) → ∃ y, Chosen has none none y := by
            intro l
            induction l with
            | nil => intro pre _ _ ⟨e, he, _⟩; cases he
            | cons a l ih =>
              intro pre ht hno hex
              by_cases ha : AnyOf has a.1
              · exact ⟨a.2, .file pre l a.1 a.2 ht ha hno⟩
              · refine ih (pre ++ [a]) (by simp [ht]) ?_ ?_
                · intro e he
                  rcases List.mem_append.mp he with he | he
                  · exact hno e he
                  · rw [List.mem_singleton.mp he]; exact ha
                · obtain ⟨e, he, hx⟩ := hex
                  rcases List.mem_cons.mp he with rfl | he
                  · exact absurd hx ha
                  · exact ⟨e, he, hx⟩
          obtain ⟨y, hy⟩ := key projectFiles [] rfl (by simp) h
          rw [one y hy]
          exact hy
        · have hc := Chosen.nothing (has := has) (fun e he hx => h ⟨e, he, hx⟩)
          rw [one _ hc]
          exact hc
  · exact one x

example : detectWith (fun x => x == c!"Makefile" || x == c!"setup.py") none none = .make := by decide

/-- C148: of the listed types, `custom` does not name the custom system as such: it runs a script of that name. -/
theorem C148_listed_false : c!"custom" ∈ listedTypes ∧
    ∀ has, detectWith has none (some c!"custom") = .custom c!"custom" ∧ IsScript c!"custom" :=
  ⟨by decide, fun _ => ⟨by rfl, by decide⟩⟩

/-- C148: every other listed type names a system that is not a script. -/
theorem C148_listed_partial (has : Str → Bool) (n : Str) (h : n ∈ listedTypes) (hn : n ≠ c!"custom") :
    ∀ s, detectWith has none (some n) ≠ .custom s := by
  intro s
  simp only [listedTypes, List.mem_cons, List.not_mem_nil, or_false] at h
  rcases h with rfl | rfl | rfl | rfl | rfl | rfl | rfl | rfl <;>
    first | exact absurd rfl hn | (intro e; exact System.noConfusion e)

/-- C148: a script that has the name of one of the three systems without a script is not run: no program is started. -/
theorem C148_script_false : ∃ s : Str, (∀ has, detectWith has none (some s) = .custom s) ∧
    ∀ (j : Job) (has : Str → Bool) (py : Str), programs j has py (.custom s) .compiling = [] ∧ programs j has py (.custom s) .installing = [] :=
  ⟨c!"default", fun _ => rfl, fun _ _ _ => ⟨rfl, rfl⟩⟩

/-! ## C149: what runs -/

namespace SystemLemmas

variable {W : Type}

/-- Where and what. -/
def key (c : Call) : Option Str × Program := (c.cwd, c.what)

/-- What a step did: programs `ps` in turn, or the first of them; all of them if it succeeds; those before the last, and all
of them if it succeeds, with code 0, or the step is one that forgives. -/
def Did (t : Traced W) (r : Traced W × StepOutcome) (ps : List (Option Str × Program)) (strict : Prop) : Prop :=
  ∃ l, r.1.calls = t.calls ++ l ∧ l.map key <+: ps ∧ (strict → ∀ c ∈ l.dropLast, c.ok = true) ∧
    ∀ x, r.2 = .ok x → x.success = true → l.map key = ps ∧ (strict → ∀ c ∈ l, c.ok = true)

theorem did_nothing (text : Str) (t : Traced W) (strict : Prop) : Did t (nothing text t) [] strict :=
  ⟨[], by simp [nothing], List.nil_prefix, by simp, fun x _ _ => ⟨rfl, by simp⟩⟩

theorem did_plain (b : Box W) (cwd : Option Str) (p : Program) (t : Traced W) (strict : Prop) :
    Did t (plain b cwd p t) [(cwd, p)] strict := by
  refine ⟨[⟨cwd, p, succeeded (b.start cwd p t.world).2⟩], ?_, by simp [key], by simp, ?_⟩
  · unfold plain start
    cases h : (b.start cwd p t.world).2 <;> simp [h]
  · intro x hx hs
    refine ⟨rfl, fun _ c hc => ?_⟩
    rw [List.mem_singleton.mp hc]
    unfold plain start at hx
    cases h : (b.start cwd p t.world).2 with
    | error e => simp [h] at hx
    | ok y =>
      simp [h] at hx
      rw [← hx] at hs
      simpa [succeeded] using hs

theorem did_lenient (b : Box W) (cwd : Option Str) (p : Program) (f : Str) (t : Traced W) :
    Did t (lenient b cwd p f t) [(cwd, p)] False := by
  refine ⟨[⟨cwd, p, succeeded (b.start cwd p t.world).2⟩], ?_, by simp [key], by simp, fun x _ _ => ⟨rfl, False.elim⟩⟩
  unfold lenient start
  cases h : (b.start cwd p t.world).2 with
  | error e => simp [h]
  | ok y =>
    simp only [h]
    split <;> rfl

theorem did_of_calls {t t' : Traced W} (h : t'.calls = t.calls) {r : Traced W × StepOutcome} {ps : List (Option Str × Program)}
    {strict : Prop} (hd : Did t' r ps strict) : Did t r ps strict := by
  unfold Did at hd ⊢
  rwa [h] at hd

/-- A step that starts nothing. -/
theorem did_quiet {t : Traced W} {r : Traced W × StepOutcome} (h : r.1.calls = t.calls) (strict : Prop) : Did t r [] strict :=
  ⟨[], by simp [h], List.nil_prefix, by simp, fun _ _ _ => ⟨rfl, by simp⟩⟩

/-- A step that fails before anything is started. -/
theorem did_early {t : Traced W} {r : Traced W × StepOutcome} (h : r.1.calls = t.calls) (ps : List (Option Str × Program))
    (strict : Prop) (hf : ∀ x, r.2 = .ok x → x.success = false) : Did t r ps strict :=
  ⟨[], by simp [h], List.nil_prefix, by simp, fun x hx hs => by rw [hf x hx] at hs; cases hs⟩

/-- A step that makes a directory first. -/
theorem did_after {b : Box W} {d : Str} {t : Traced W} {f : Traced W → Traced W × StepOutcome}
    {ps : List (Option Str × Program)} {strict : Prop} (h : ∀ t', t'.calls = t.calls → Did t' (f t') ps strict) :
    Did t (match makeDir b d t with
      | (t', .error e) => (t', .error e)
      | (t', .ok _) => f t') ps strict := by
  unfold makeDir
  dsimp only
  cases (b.makeDir d t.world).2 with
  | error e => exact did_early rfl _ _ (by simp)
  | ok u => exact did_of_calls rfl (h _ rfl)

theorem did_copy (b : Box W) (src dst word : Str) (t : Traced W) (strict : Prop) : Did t (copyStep b src dst word t) [] strict := by
  refine did_quiet ?_ _
  unfold copyStep copyFiles
  dsimp only
  cases (b.copy src dst t.world).2 <;> rfl

theorem did_script (b : Box W) (j : Job) (has : Str → Bool) (py : Str) (hs : Steady b has py) (s word : Str) (t : Traced W)
    (strict : Prop) : Did t (runScript b j s word t) [(some j.source, scriptProgram j py s word)] strict := by
  unfold runScript
  refine did_after fun t' _ => ?_
  have fin : ∀ (p : Program) (cmd : Str), Did t' (match start b (some j.source) p t' with
      | (t'', .error e) => (t'', .error e)
      | (t'', .ok x) => (t'', .ok (scriptResult b cmd x))) [(some j.source, p)] strict := by
    intro p cmd
    refine ⟨[⟨some j.source, p, succeeded (b.start (some j.source) p t'.world).2⟩], ?_, by simp [key], by simp, ?_⟩
    · unfold start
      dsimp only
      cases (b.start (some j.source) p t'.world).2 <;> rfl
    · intro x hx hsu
      refine ⟨rfl, fun _ c hc => ?_⟩
      rw [List.mem_singleton.mp hc]
      unfold start at hx
      cases h : (b.start (some j.source) p t'.world).2 with
      | error e => simp [h] at hx
      | ok y =>
        simp [h] at hx
        rw [← hx] at hsu
        simpa [succeeded, scriptResult] using hsu
  by_cases hpy : c!".py" <:+ s
  · rw [if_pos (List.isSuffixOf_iff_suffix.mpr hpy), hs.python]
    unfold scriptProgram
    rw [if_pos hpy]
    exact fin _ _
  · rw [if_neg fun h => hpy (List.isSuffixOf_iff_suffix.mp h)]
    unfold scriptProgram
    rw [if_neg hpy]
    by_cases hsh : c!".sh" <:+ s
    · rw [if_pos hsh, if_pos (List.isSuffixOf_iff_suffix.mpr hsh)]
      exact fin _ _
    · rw [if_neg hsh, if_neg fun h => hsh (List.isSuffixOf_iff_suffix.mp h)]
      exact fin _ _

theorem did_command (b : Box W) (j : Job) (t : Traced W) (strict : Prop) :
    Did t (runCommand b j t) [(some j.source, .shell (expand j (j.command.getD [])))] strict := by
  unfold runCommand
  refine did_after fun t' _ => ?_
  cases hc : j.command with
  | none => exact did_early rfl _ _ (by simp)
  | some c =>
    simp only [Option.getD_some]
    unfold start
    dsimp only
    have hsuc : ∀ y : Exit, (b.start (some j.source) (.shell (expand j c)) t'.world).2 = .ok y →
        succeeded (b.start (some j.source) (.shell (expand j c)) t'.world).2 = (y.code == 0) := by
      intro y hy; rw [hy]; rfl
    refine ⟨[⟨some j.source, .shell (expand j c), succeeded (b.start (some j.source) (.shell (expand j c)) t'.world).2⟩], ?_,
      by simp [key], by simp, ?_⟩
    · cases h : (b.start (some j.source) (.shell (expand j c)) t'.world).2 with
      | error e => rfl
      | ok y =>
        simp only
        split
        · unfold copyFiles
          simp only
          cases (b.copy j.source j.installDir _).2 <;> rfl
        · rfl
    · intro x hx hsu
      refine ⟨rfl, fun _ k hk => ?_⟩
      rw [List.mem_singleton.mp hk]
      cases h : (b.start (some j.source) (.shell (expand j c)) t'.world).2 with
      | error e => rw [h] at hx; simp at hx
      | ok y =>
        rw [h] at hx
        simp only at hx
        simp only [succeeded]
        by_cases h0 : (y.code == 0) = true
        · exact h0
        · rw [if_neg h0] at hx
          simp only [Except.ok.injEq] at hx
          rw [← hx] at hsu
          cases hsu

theorem did_step (b : Box W) (j : Job) (has : Str → Bool) (py : Str) (hs : Steady b has py) (s : System) (ha : s ≠ .archive)
    (st : BuildStep) (hst : st ∈ systemSteps) (hp : (s, st) ≠ (.python, .testing)) (t : Traced W) :
    Did t (stepOf b j s st t) (programs j has py s st) ((s, st) ∉ forgiving) := by
  have weak : ∀ {r : Traced W × StepOutcome} {ps : List (Option Str × Program)} (strict : Prop), ¬ strict →
      Did t r ps False → Did t r ps strict := by
    rintro r ps strict hn ⟨l, h1, h2, _, h4⟩
    exact ⟨l, h1, h2, fun h => absurd h hn, fun x hx hs => ⟨(h4 x hx hs).1, fun h => absurd h hn⟩⟩
  have h1 := hs.has c!"rezbuild.py" (by decide)
  have h2 := hs.has c!"setup.py" (by decide)
  have h3 := hs.has c!"pyproject.toml" (by decide)
  have mem : ∀ {s st}, (s, st) ∈ forgiving → ¬ (s, st) ∉ forgiving := fun h h' => h' h
  simp only [systemSteps, List.mem_cons, List.not_mem_nil, or_false] at hst
  cases s with
  | archive => exact absurd rfl ha
  | cmake =>
    rcases hst with rfl | rfl | rfl | rfl | rfl
    · exact did_plain _ _ _ _ _
    · exact did_plain _ _ _ _ _
    · exact did_plain _ _ _ _ _
    · exact did_nothing _ _ _
    · exact did_plain _ _ _ _ _
  | make =>
    rcases hst with rfl | rfl | rfl | rfl | rfl
    · exact did_nothing _ _ _
    · exact did_plain _ _ _ _ _
    · exact did_plain _ _ _ _ _
    · exact did_nothing _ _ _
    · exact did_plain _ _ _ _ _
  | nodejs =>
    rcases hst with rfl | rfl | rfl | rfl | rfl
    · exact did_plain _ _ _ _ _
    · exact weak _ (mem (by decide)) (did_lenient _ _ _ _ _)
    · exact weak _ (mem (by decide)) (did_lenient _ _ _ _ _)
    · exact did_nothing _ _ _
    · exact did_after fun t' _ => did_copy _ _ _ _ _ _
  | cargo =>
    rcases hst with rfl | rfl | rfl | rfl | rfl
    · exact did_plain _ _ _ _ _
    · exact did_plain _ _ _ _ _
    · exact did_plain _ _ _ _ _
    · exact weak _ (mem (by decide)) (did_lenient _ _ _ _ _)
    · exact did_after fun t' _ => did_plain _ _ _ _ _
  | pypi =>
    rcases hst with rfl | rfl | rfl | rfl | rfl
    · exact did_plain _ _ _ _ _
    · exact did_nothing _ _ _
    · exact did_nothing _ _ _
    · exact did_nothing _ _ _
    · refine did_after fun t' _ => ?_
      by_cases h : ((pypiSpec j).isNone && (filled j.vars c!"REZ_PYPI_REQUIREMENT").isNone) = true
      · rw [if_pos h]
        exact did_early rfl _ _ (by intro x hx; simp only [Except.ok.injEq] at hx; rw [← hx])
      · rw [if_neg h]
        exact did_plain _ _ _ _ _
  | python =>
    rcases hst with rfl | rfl | rfl | rfl | rfl
    · show Did t (pythonConfigure b j t) (if has c!"rezbuild.py" then _ else _) _
      unfold pythonConfigure
      rw [h1]
      by_cases hr : has c!"rezbuild.py" = true
      · rw [if_pos hr, if_pos hr]
        exact weak _ (mem (by decide)) ⟨[⟨some j.source, .shell c!"python --version", _⟩], rfl, by simp [key], by simp,
          fun x _ _ => ⟨rfl, False.elim⟩⟩
      · rw [if_neg hr, if_neg hr]
        exact did_nothing _ _ _
    · show Did t (pythonCompile b j t) (pythonPrograms j has _ _ _) _
      unfold pythonCompile pythonPrograms
      rw [h1, h2, h3]
      split
      · simpa [quoted] using did_plain b (some j.source) _ t _
      · split
        · simpa [quoted] using did_plain b (some j.source) _ t _
        · split
          · simpa [quoted] using did_plain b (some j.source) _ t _
          · exact did_nothing _ _ _
    · exact absurd rfl hp
    · exact did_nothing _ _ _
    · show Did t (pythonInstall b j t) (pythonPrograms j has _ _ _) _
      unfold pythonInstall pythonPrograms
      refine did_after fun t' _ => ?_
      rw [h1, h2, h3]
      split
      · simpa [quoted] using did_plain b (some j.source) _ t' _
      · split
        · simpa [quoted] using did_plain b (some j.source) _ t' _
        · split
          · simpa [quoted] using did_plain b (some j.source) _ t' _
          · exact did_copy _ _ _ _ _ _
  | custom c =>
    rcases hst with rfl | rfl | rfl | rfl | rfl
    · exact did_nothing _ _ _
    · show Did t (customCompile b j c t) (if IsScript c then _ else _) _
      unfold customCompile
      by_cases h : IsScript c
      · rw [if_pos h, if_neg (by rintro (e | e | e); exacts [h.1 e, h.2.1 e, h.2.2 e])]
        exact did_script b j has py hs _ _ _ _
      · rw [if_neg h, if_pos (by
          simp only [IsScript, not_and_or, not_not] at h
          exact h)]
        exact did_nothing _ _ _
    · exact did_nothing _ _ _
    · exact did_nothing _ _ _
    · show Did t (customInstall b j c t) (if IsScript c then _ else _) _
      unfold customInstall
      by_cases h : IsScript c
      · rw [if_pos h, if_neg (by rintro (e | e); exacts [h.1 e, h.2.1 e]), if_neg h.2.2]
        exact did_script b j has py hs _ _ _ _
      · rw [if_neg h]
        by_cases hb : c = c!"build_command"
        · subst hb
          exact did_command _ _ _ _
        · rw [if_pos (by
            simp only [IsScript, not_and_or, not_not] at h
            rcases h with h | h | h
            · exact Or.inl h
            · exact Or.inr h
            · exact absurd h hb : c = c!"default" ∨ c = c!"copy-only"), if_neg hb]
          unfold copyOnly
          refine did_after fun t' _ => did_quiet ?_ _
          unfold copyFiles
          dsimp only
          cases (b.copy j.source j.installDir t'.world).2 <;> rfl

theorem pythonTest_ok (b : Box W) (j : Job) (t : Traced W) : ∃ w x l, pythonTest b j t = (⟨w, t.calls ++ l⟩, .ok x) ∧
    x.success = true ∧ (l.map key = programs j (fun _ => false) [] .python .testing ∨
      l.map key = (programs j (fun _ => false) [] .python .testing).take 1) := by
  have len : ∀ (p : Program) (f : Str) (t : Traced W), ∃ w x c, lenient b (some j.source) p f t =
      (⟨w, t.calls ++ [c]⟩, .ok x) ∧ x.success = true ∧ key c = (some j.source, p) := by
    intro p f t
    unfold lenient start
    dsimp only
    cases h : (b.start (some j.source) p t.world).2 with
    | error e => exact ⟨_, ⟨true, f, []⟩, ⟨some j.source, p, false⟩, rfl, rfl, rfl⟩
    | ok y =>
      by_cases h0 : (y.code == 0) = true
      · exact ⟨(b.start (some j.source) p t.world).1, ⟨true, y.out, y.err⟩, ⟨some j.source, p, true⟩, by
          simp only [h0, succeeded, if_true], rfl, rfl⟩
      · exact ⟨(b.start (some j.source) p t.world).1, ⟨true, f, y.err⟩, ⟨some j.source, p, false⟩, by
          rw [Bool.not_eq_true] at h0
          simp [h0, succeeded], rfl, rfl⟩
  obtain ⟨w, x, c, h, hx, hc⟩ := len (.shell c!"python -m pytest -q --tb=short") [] t
  obtain ⟨w2, x2, c2, h2, hx2, hc2⟩ := len (.shell c!"python -m unittest discover -q") c!"No tests found" ⟨w, t.calls ++ [c]⟩
  unfold pythonTest
  rw [h]
  by_cases ho : (x.success && !x.output.isEmpty) = true
  · exact ⟨w, x, [c], by simp only [if_pos ho], hx, Or.inr (by simp [hc, programs])⟩
  · refine ⟨w2, x2, [c, c2], ?_, hx2, Or.inl (by simp [hc, hc2, programs])⟩
    simp only [if_neg ho]
    rw [h2]
    simp

/-- The programs of a step of a build, with these as the tests. -/
def part (j : Job) (has : Str → Bool) (py : Str) (s : System) (tests : List (Option Str × Program)) :
    BuildStep → List (Option Str × Program)
  | .testing => tests
  | st => programs j has py s st

theorem runTests_calls (b : Box W) (j : Job) (s : System) (m : Tools W) (fill : Str → Str) (l : List (Str × Str)) :
    ∀ (t : Traced W) (out : Str), (runTests (toolsOf b j s m) fill l t out).1.calls = t.calls := by
  induction l with
  | nil => intro t out; rfl
  | cons a l ih =>
    intro t out
    rw [runTests]
    cases h : (toolsOf b j s m).shell (fill a.2) t with
    | mk t' r =>
      have hc : t'.calls = t.calls := by
        have := congrArg (fun x => x.1.calls) h
        simpa [toolsOf] using this.symm
      cases r with
      | error e => exact hc
      | ok q =>
        obtain ⟨o, e, c⟩ := q
        simp only
        split
        · rw [ih, hc]
        · exact hc

theorem quiet_step (b : Box W) (j : Job) (s : System) (m : Tools W) (o : Options) (st : BuildStep)
    (h : st ∉ systemSteps ∨ (st = .testing ∧ o.skipTests = true)) (t : Traced W) :
    (execStep (toolsOf b j s m) o st t).1.calls = t.calls := by
  cases st with
  | preparing => rfl
  | configuring => simp [systemSteps] at h
  | compiling => simp [systemSteps] at h
  | packaging => simp [systemSteps] at h
  | installing => simp [systemSteps] at h
  | testing =>
    rcases h with h | ⟨_, h⟩
    · simp [systemSteps] at h
    · simp [execStep, h]
  | packageTesting =>
    simp only [execStep]
    split
    · rfl
    · unfold packageTests
      split
      · rfl
      · split
        · rfl
        · exact runTests_calls b j s m _ _ _ _
  | cleanup =>
    simp only [execStep]
    split
    · rfl
    · cases h : (toolsOf b j s m).removeTemp t with
      | mk t' r =>
        have hc : t'.calls = t.calls := by
          have := congrArg (fun x => x.1.calls) h
          simpa [toolsOf] using this.symm
        cases r <;> exact hc

/-- One step of a build, with the tests that it runs if it is the one that tests. -/
theorem exec_step (b : Box W) (j : Job) (has : Str → Bool) (py : Str) (hs : Steady b has py) (s : System) (ha : s ≠ .archive)
    (m : Tools W) (o : Options) (st : BuildStep) (t : Traced W) :
    ∃ tests l, (tests = (if o.skipTests then [] else programs j has py s .testing) ∨
        (s = .python ∧ o.skipTests = false ∧ tests = (programs j has py s .testing).take 1)) ∧
      (execStep (toolsOf b j s m) o st t).1.calls = t.calls ++ l ∧ l.map key <+: part j has py s tests st ∧
      (∀ c ∈ l.dropLast, Fine j has py s c) ∧
      ∀ x, (execStep (toolsOf b j s m) o st t).2 = .ok x → x.success = true →
        l.map key = part j has py s tests st ∧ ∀ c ∈ l, Fine j has py s c := by
  by_cases hq : st ∉ systemSteps ∨ (st = .testing ∧ o.skipTests = true)
  · refine ⟨_, [], Or.inl rfl, ?_, by simp, by simp, fun x _ _ => ⟨?_, by simp⟩⟩
    · rw [quiet_step b j s m o st hq]; simp
    · rcases hq with hq | ⟨rfl, hq⟩
      · cases st <;> first | (simp [systemSteps] at hq; done) | (cases s <;> rfl)
      · simp [part, hq]
  · rw [not_or, not_not, not_and] at hq
    obtain ⟨hm, hskip⟩ := hq
    have hst : execStep (toolsOf b j s m) o st t = stepOf b j s st t := by
      cases st with
      | testing => simp [execStep, hskip rfl, stepOf, toolsOf]
      | preparing => simp [systemSteps] at hm
      | packageTesting => simp [systemSteps] at hm
      | cleanup => simp [systemSteps] at hm
      | _ => rfl
    have hpart : part j has py s (if o.skipTests then [] else programs j has py s .testing) st = programs j has py s st := by
      cases st with
      | testing => simp [part, hskip rfl]
      | _ => rfl
    by_cases hp : (s, st) = (.python, .testing)
    · cases hp
      obtain ⟨w, x, l, hl, hx, hps⟩ := pythonTest_ok b j t
      have hcal : (execStep (toolsOf b j .python m) o .testing t) = (⟨w, t.calls ++ l⟩, .ok x) := by rw [hst]; exact hl
      have hfine : ∀ c ∈ l, Fine j has py .python c := by
        intro c hc
        refine Or.inr ⟨.testing, by decide, ?_⟩
        have : key c ∈ programs j (fun _ => false) [] .python .testing := by
          rcases hps with h | h
          · rw [← h]; exact List.mem_map_of_mem hc
          · exact List.mem_of_mem_take (h ▸ List.mem_map_of_mem hc)
        exact this
      rcases hps with h | h
      · refine ⟨_, l, Or.inl rfl, by rw [hcal], ?_, fun c hc => hfine c (List.dropLast_subset _ hc), fun y _ _ => ⟨?_, hfine⟩⟩
        · rw [hpart, h]; exact List.prefix_refl _
        · rw [hpart, h]; rfl
      · refine ⟨(programs j has py .python .testing).take 1, l, Or.inr ⟨rfl, by simpa using hskip rfl, rfl⟩, by rw [hcal], ?_,
          fun c hc => hfine c (List.dropLast_subset _ hc), fun y _ _ => ⟨?_, hfine⟩⟩
        · rw [h]; exact List.prefix_refl _
        · rw [h]; rfl
    · obtain ⟨l, h1, h2, h3, h4⟩ := did_step b j has py hs s ha st hm hp t
      have fine : ∀ (l' : List Call), (∀ c ∈ l', c ∈ l) → ((s, st) ∉ forgiving → ∀ c ∈ l', c.ok = true) →
          ∀ c ∈ l', Fine j has py s c := by
        intro l' hsub hok c hc
        by_cases hf : (s, st) ∈ forgiving
        · exact Or.inr ⟨st, hf, h2.subset (List.mem_map_of_mem (f := key) (hsub c hc))⟩
        · exact Or.inl (hok hf c hc)
      refine ⟨_, l, Or.inl rfl, by rw [hst]; exact h1, by rw [hpart]; exact h2,
        fine _ (fun c hc => List.dropLast_subset _ hc) h3, fun x hx hxs => ?_⟩
      rw [hst] at hx
      obtain ⟨h5, h6⟩ := h4 x hx hxs
      exact ⟨by rw [hpart]; exact h5, fine _ (fun c hc => hc) h6⟩

/-- Steps that succeeded, if the tests are always the same. -/
theorem ran_calls (b : Box W) (j : Job) (has : Str → Bool) (py : Str) (hs : Steady b has py) (s : System) (ha : s ≠ .archive)
    (m : Tools W) (o : Options) {l : List (BuildStep × StepResult)} {t t' : Traced W}
    (h : Ran (execStep (toolsOf b j s m) o) l t t') :
    ∃ pss cs, t'.calls = t.calls ++ cs ∧ cs.map key = pss.flatten ∧ (∀ c ∈ cs, Fine j has py s c) ∧
      List.Forall₂ (fun st ps => ∃ tests, (tests = (if o.skipTests then [] else programs j has py s .testing) ∨
        (s = .python ∧ o.skipTests = false ∧ tests = (programs j has py s .testing).take 1)) ∧ ps = part j has py s tests st)
        (l.map Prod.fst) pss := by
  induction h with
  | nil w => exact ⟨[], [], by simp, rfl, by simp, .nil⟩
  | @cons st x l w w1 w2 h hx hl ih =>
    obtain ⟨pss, cs, h1, h2, h3, h4⟩ := ih
    obtain ⟨tests, l1, g0, g1, _, _, g4⟩ := exec_step b j has py hs s ha m o st w
    rw [h] at g1 g4
    obtain ⟨g5, g6⟩ := g4 x rfl hx
    refine ⟨l1.map key :: pss, l1 ++ cs, ?_, by simp [h2], ?_, .cons ⟨tests, g0, g5⟩ h4⟩
    · rw [h1]; simp only at g1; rw [g1, List.append_assoc]
    · intro c hc
      rcases List.mem_append.mp hc with hc | hc
      · exact g6 c hc
      · exact h3 c hc

end SystemLemmas
open SystemLemmas

/-- C149: a build that succeeds has run the programs of its system, each in its directory and in turn (with the second of the
tests of Python only where the first was silent or failed, and without the tests if they are to be skipped), and all of them
ended with code 0, but for those of the five steps that forgive. -/
theorem C149_build_partial {W : Type} (b : Box W) (j : Job) (has : Str → Bool) (py : Str) (hs : Steady b has py) (s : System)
    (ha : s ≠ .archive) (m : Tools W) (o : Options) (t : Traced W)
    (h : (runBuild (execStep (toolsOf b j s m) o) t).2.2 = .ok ()) :
    ∃ tests l, (tests = (if o.skipTests then [] else programs j has py s .testing) ∨
        (s = .python ∧ o.skipTests = false ∧ tests = (programs j has py s .testing).take 1)) ∧
      Started t (runBuild (execStep (toolsOf b j s m) o) t).1 l (planned j has py s tests) ∧ ∀ c ∈ l, Fine j has py s c := by
  obtain ⟨l, hl, hr⟩ := (C142_success _ t _).mp ⟨rfl, h⟩
  obtain ⟨pss, cs, h1, h2, h3, h4⟩ := ran_calls b j has py hs s ha m o hr
  rw [hl] at h4
  simp only [theSteps] at h4
  rcases h4 with _ | ⟨⟨t1, _, rfl⟩, h4⟩
  rcases h4 with _ | ⟨⟨t2, _, rfl⟩, h4⟩
  rcases h4 with _ | ⟨⟨t3, _, rfl⟩, h4⟩
  rcases h4 with _ | ⟨⟨t4, ht, q4⟩, h4⟩
  rcases h4 with _ | ⟨⟨t5, _, rfl⟩, h4⟩
  rcases h4 with _ | ⟨⟨t6, _, rfl⟩, h4⟩
  rcases h4 with _ | ⟨⟨t7, _, rfl⟩, h4⟩
  rcases h4 with _ | ⟨⟨t8, _, rfl⟩, h4⟩
  cases h4
  refine ⟨t4, cs, ht, ⟨h1, ?_⟩, h3⟩
  show cs.map key = _
  rw [h2]
  have e1 : part j has py s t1 .preparing = [] := by cases s <;> rfl
  have e7 : part j has py s t7 .packageTesting = [] := by cases s <;> rfl
  have e8 : part j has py s t8 .cleanup = [] := by cases s <;> rfl
  simp only [List.flatten_cons, List.flatten_nil, q4, e1, e7, e8, List.append_nil, List.nil_append]
  simp [planned, part]

/-- C149: a build that does not succeed has run the first of these programs, and all but the last of them ended with code 0,
or are forgiven: after a program that fails nothing is started. -/
theorem C149_stops_partial {W : Type} (b : Box W) (j : Job) (has : Str → Bool) (py : Str) (hs : Steady b has py) (s : System)
    (ha : s ≠ .archive) (m : Tools W) (o : Options) (hp : s ≠ .python ∨ o.skipTests = true) (t : Traced W) :
    ∃ ps l, ps <+: planned j has py s (if o.skipTests then [] else programs j has py s .testing) ∧
      Started t (runBuild (execStep (toolsOf b j s m) o) t).1 l ps ∧ ∀ c ∈ l.dropLast, Fine j has py s c := by
  have hno : ¬ (s = .python ∧ o.skipTests = false) := by
    rintro ⟨h1, h2⟩
    rcases hp with h | h
    · exact h h1
    · rw [h2] at h; cases h
  by_cases hok : (runBuild (execStep (toolsOf b j s m) o) t).2.2 = .ok ()
  · obtain ⟨tests, l, ht, hst, hf⟩ := C149_build_partial b j has py hs s ha m o t hok
    rcases ht with rfl | ⟨h1, h2, _⟩
    · exact ⟨_, l, List.prefix_refl _, hst, fun c hc => hf c (List.dropLast_subset _ hc)⟩
    · exact absurd ⟨h1, h2⟩ hno
  · obtain ⟨l, st, post, w1, hl, hr, hfail⟩ := C142_failure _ t hok
    obtain ⟨pss, cs, h1, h2, h3, h4⟩ := ran_calls b j has py hs s ha m o hr
    obtain ⟨tests, l1, g0, g1, g2, g3, _⟩ := exec_step b j has py hs s ha m o st w1
    have hend : (execStep (toolsOf b j s m) o st w1).1 = (runBuild (execStep (toolsOf b j s m) o) t).1 := by
      rcases hfail with ⟨e, h⟩ | ⟨x, h, _⟩ <;> rw [h]
    rcases g0 with rfl | ⟨k1, k2, _⟩
    swap
    · exact absurd ⟨k1, k2⟩ hno
    generalize hT : (if o.skipTests = true then [] else programs j has py s .testing) = T at *
    have hflat : pss.flatten = (l.map Prod.fst).flatMap (part j has py s T) := by
      clear h2 hl hr
      generalize l.map Prod.fst = k at h4
      induction h4 with
      | nil => rfl
      | cons h hrest ih =>
        obtain ⟨t2, ht2, rfl⟩ := h
        rcases ht2 with rfl | ⟨k1, k2, _⟩
        · simp [ih]
        · exact absurd ⟨k1, k2⟩ hno
    have hplan : planned j has py s T = theSteps.flatMap (part j has py s T) := by
      have e1 : part j has py s T .preparing = [] := by cases s <;> rfl
      have e7 : part j has py s T .packageTesting = [] := by cases s <;> rfl
      have e8 : part j has py s T .cleanup = [] := by cases s <;> rfl
      simp only [theSteps, List.flatMap_cons, List.flatMap_nil, e1, e7, e8, List.append_nil, List.nil_append]
      simp [planned, part]
    refine ⟨_, cs ++ l1, ?_, ⟨by rw [← hend, g1, h1, List.append_assoc], rfl⟩, ?_⟩
    · rw [hplan, hl, List.flatMap_append, List.flatMap_cons]
      show (cs ++ l1).map key <+: _
      rw [List.map_append, h2, hflat]
      exact List.prefix_append_right_inj _ |>.mpr (g2.trans (List.prefix_append _ _))
    · intro c hc
      cases l1 with
      | nil =>
        rw [List.append_nil] at hc
        exact h3 c (List.dropLast_subset _ hc)
      | cons a l1 =>
        rw [List.dropLast_append_of_ne_nil (by simp)] at hc
        rcases List.mem_append.mp hc with hc | hc
        · exact h3 c hc
        · exact g3 c hc

/-! ### Machines -/

/-- A machine on which each program ends with the code that is given. -/
def boxOf (code : Program → Int) (files : List Str) : Box Unit where
  has x _ := files.contains x
  start _ p w := (w, .ok ⟨code p, [], []⟩)
  makeDir _ w := (w, .ok ())
  copy _ _ w := (w, .ok 3)
  hostPython _ := .ok c!"/usr/bin/python3"
  archive _ w := (w, .ok ⟨true, [], []⟩)
  shownCode _ := c!"1"

/-- The other steps succeed. -/
def easy : Tools Unit where
  prepare w := (w, .ok ⟨true, [], []⟩)
  configure w := (w, .ok ⟨true, [], []⟩)
  compile w := (w, .ok ⟨true, [], []⟩)
  test w := (w, .ok ⟨true, [], []⟩)
  package w := (w, .ok ⟨true, [], []⟩)
  install w := (w, .ok ⟨true, [], []⟩)
  testEnv _ := none
  shell _ w := (w, .ok ([], [], 0))
  removeTemp w := (w, .ok ())
  shownCode _ := c!"1"

/-- A package in `/w`. -/
def job : Job := ⟨c!"/w", c!"/w/build", c!"/i", c!"p", some c!"1.0", none, false, [], []⟩

/-- No options. -/
def opts : Options := ⟨false, false, [], id⟩

example : Steady (boxOf (fun _ => 0) [c!"CMakeLists.txt"]) (fun _ => false) c!"/usr/bin/python3" :=
  ⟨fun x hx w => by
    have : w = () := rfl
    subst this
    revert x
    decide, fun _ => rfl⟩

example : (runBuild (execStep (toolsOf (boxOf (fun _ => 0) []) job .cmake easy) opts) ⟨(), []⟩).2.2 = .ok () ∧
    ((runBuild (execStep (toolsOf (boxOf (fun _ => 0) []) job .cmake easy) opts) ⟨(), []⟩).1.calls.map Call.what) =
      [.shell c!"cmake -S /w -B /w/build -DCMAKE_INSTALL_PREFIX=/i -DCMAKE_BUILD_TYPE=Debug", .shell c!"cmake --build /w/build",
       .shell c!"ctest --output-on-failure", .shell c!"cmake --install ."] := ⟨by rfl, by rfl⟩

/-- C149 is false of the five steps that forgive: the tests of a Python package cannot fail, whatever the programs do. -/
theorem C149_python_false {W : Type} (b : Box W) (j : Job) (t : Traced W) :
    ∃ x, (test b j .python t).2 = .ok x ∧ x.success = true := by
  obtain ⟨w, x, l, h, hx, _⟩ := pythonTest_ok b j t
  exact ⟨x, by show (pythonTest b j t).2 = _; rw [h], hx⟩

/-- C149: nor can the compiling and the tests of a Node.js package, or the packaging of a Cargo package. -/
theorem C149_optional_false {W : Type} (b : Box W) (j : Job) (t : Traced W) :
    (∃ x, (compile b j .nodejs t).2 = .ok x ∧ x.success = true) ∧ (∃ x, (test b j .nodejs t).2 = .ok x ∧ x.success = true) ∧
    ∃ x, (package b j .cargo t).2 = .ok x ∧ x.success = true := by
  have len : ∀ (p : Program) (f : Str), ∃ x, (lenient b (some j.source) p f t).2 = .ok x ∧ x.success = true := by
    intro p f
    unfold lenient start
    dsimp only
    cases (b.start (some j.source) p t.world).2 with
    | error e => exact ⟨_, rfl, rfl⟩
    | ok y =>
      simp only
      split <;> exact ⟨_, rfl, rfl⟩
  exact ⟨len _ _, len _ _, len _ _⟩

/-- C149: a Node.js package whose build and tests fail is installed, and its build succeeds. -/
theorem C149_npm_false : ∃ code : Program → Int, ∃ l : List Call,
    (runBuild (execStep (toolsOf (boxOf code []) job .nodejs easy) opts) ⟨(), []⟩).2.2 = .ok () ∧
    (runBuild (execStep (toolsOf (boxOf code []) job .nodejs easy) opts) ⟨(), []⟩).1.calls = l ∧
    ⟨some c!"/w", .shell c!"npm run build", false⟩ ∈ l ∧ ⟨some c!"/w", .shell c!"npm test", false⟩ ∈ l :=
  ⟨fun p => if p = .shell c!"npm install" then 0 else 1, _, rfl, rfl, by decide, by decide⟩

/-! ### What is installed without a program -/

namespace SystemLemmas

theorem filled_some {j : Job} {k v : Str} (h : filled j.vars k = some v) : Says j k v := by
  unfold filled at h
  cases hm : mget j.vars k with
  | none => rw [hm] at h; cases h
  | some u =>
    rw [hm] at h
    simp only [Option.filter] at h
    split at h
    · rename_i hu
      cases h
      exact ⟨hm, by rintro rfl; simp at hu⟩
    · cases h

theorem says_filled {j : Job} {k v : Str} (h : Says j k v) : filled j.vars k = some v := by
  unfold filled
  rw [h.1]
  have : v.isEmpty = false := by cases v with
    | nil => exact absurd rfl h.2
    | cons _ _ => rfl
  simp [Option.filter, this]

theorem filled_none {j : Job} {k : Str} (h : ∀ v, ¬ Says j k v) : filled j.vars k = none := by
  cases hf : filled j.vars k with
  | none => rfl
  | some v => exact absurd (filled_some hf) (h v)

end SystemLemmas
open SystemLemmas

/-- C149: what `pip` is told to install, and where. -/
theorem C149_pypi (j : Job) : PipInstall j (pypiArgs j) := by
  refine ⟨⟨_, _, _, _, rfl, ?_, ?_, ?_, ?_, ?_, ?_, ?_, ?_, ?_⟩⟩
  · rintro ⟨v, hv, hy⟩
    rw [hv, if_pos]
    simp only [truthy, List.contains_iff_mem]
    exact hy
  · intro h
    rw [if_neg]
    intro hc
    cases hm : mget j.vars c!"REZ_PYPI_WITH_DEPS" with
    | none => rw [hm] at hc; simp [truthy] at hc
    | some v =>
      rw [hm] at hc
      simp only [truthy, List.contains_iff_mem] at hc
      exact h v hm hc
  · intro l hl hw
    rw [says_filled hl]
    exact splitWs_join l hw
  · intro h; rw [filled_none h]
  · intro f hf; rw [says_filled hf]
  · intro h; rw [filled_none h]
  · intro p hp; unfold pypiSpec; rw [says_filled hp]; rfl
  · intro h v hv; unfold pypiSpec; rw [filled_none h, hv]; rfl
  · intro h hv; unfold pypiSpec; rw [filled_none h, hv]; rfl

example : pypiArgs { job with vars := [(c!"REZ_PYPI_EXTRA_ARGS", c!"-q --pre"), (c!"REZ_PYPI_WITH_DEPS", c!"Yes")] } =
    [c!"-m", c!"pip", c!"install", c!"--disable-pip-version-check", c!"--target", c!"/i/python", c!"-q", c!"--pre", c!"p==1.0"] := by
  decide +kernel

/-- C149: the installation of a Node.js package succeeds only if its files could be copied: those of `dist` if there is one,
those of the source otherwise. -/
theorem C149_nodejs {W : Type} (b : Box W) (j : Job) (t t' : Traced W) (x : StepResult)
    (h : install b j .nodejs t = (t', .ok x)) :
    ∃ n, (b.makeDir j.installDir t.world).2 = .ok () ∧
      (b.has c!"dist" (b.makeDir j.installDir t.world).1 = true →
        b.copy (pjoin j.source c!"dist") j.installDir (b.makeDir j.installDir t.world).1 = (t'.world, .ok n)) ∧
      (b.has c!"dist" (b.makeDir j.installDir t.world).1 = false →
        b.copy j.source j.installDir (b.makeDir j.installDir t.world).1 = (t'.world, .ok n)) := by
  unfold install nodejsInstall makeDir copyStep copyFiles at h
  dsimp only at h
  cases hm : (b.makeDir j.installDir t.world).2 with
  | error e => rw [hm] at h; simp at h
  | ok u =>
    rw [hm] at h
    dsimp only at h
    generalize (b.makeDir j.installDir t.world).1 = w at h ⊢
    cases hh : b.has c!"dist" w with
    | true =>
      rw [hh] at h
      simp only [if_true] at h
      rcases hc : b.copy (pjoin j.source c!"dist") j.installDir w with ⟨w', e | n⟩
      · rw [hc] at h; simp at h
      · rw [hc] at h
        simp only [Prod.mk.injEq] at h
        refine ⟨n, rfl, fun _ => ?_, by simp⟩
        rw [← h.1]
    | false =>
      rw [hh] at h
      simp only [Bool.false_eq_true, if_false] at h
      rcases hc : b.copy j.source j.installDir w with ⟨w', e | n⟩
      · rw [hc] at h; simp at h
      · rw [hc] at h
        simp only [Prod.mk.injEq] at h
        refine ⟨n, rfl, by simp, fun _ => ?_⟩
        rw [← h.1]

/-- C149: the installation of a Python package without project files, and of a package that is only copied, succeeds only if
the files of the source could be copied. -/
theorem C149_copied {W : Type} (b : Box W) (j : Job) (s : System) (t t' : Traced W) (x : StepResult)
    (hs : s = .custom c!"default" ∨ s = .custom c!"copy-only" ∨
      (s = .python ∧ ∀ f ∈ [c!"rezbuild.py", c!"setup.py", c!"pyproject.toml"], ∀ w, b.has f w = false))
    (h : install b j s t = (t', .ok x)) (hx : x.success = true) :
    (b.makeDir j.installDir t.world).2 = .ok () ∧
    ∃ n, b.copy j.source j.installDir (b.makeDir j.installDir t.world).1 = (t'.world, .ok n) := by
  have key : ∀ (f : Traced W × Except Str Nat → Traced W × StepOutcome),
      (∀ u e, ∀ x u', f (u, .error e) = (u', .ok x) → x.success = false) →
      (∀ u n, ∃ r, f (u, .ok n) = (u, .ok r)) →
      f (copyFiles b j.source j.installDir ⟨(b.makeDir j.installDir t.world).1, t.calls⟩) = (t', .ok x) →
      ∃ n, b.copy j.source j.installDir (b.makeDir j.installDir t.world).1 = (t'.world, .ok n) := by
    intro f h1 h2 hf
    unfold copyFiles at hf
    dsimp only at hf
    rcases hc : b.copy j.source j.installDir (b.makeDir j.installDir t.world).1 with ⟨w', e | n⟩
    · rw [hc] at hf
      have := h1 _ _ _ _ hf
      rw [hx] at this; cases this
    · rw [hc] at hf
      obtain ⟨r, hr⟩ := h2 ⟨w', t.calls⟩ n
      dsimp only at hf
      rw [hr] at hf
      simp only [Prod.mk.injEq] at hf
      exact ⟨n, by rw [← hf.1]⟩
  have hcopy : copyOnly b j t = (t', .ok x) → (b.makeDir j.installDir t.world).2 = .ok () ∧
      ∃ n, b.copy j.source j.installDir (b.makeDir j.installDir t.world).1 = (t'.world, .ok n) := by
    intro h
    unfold copyOnly makeDir at h
    dsimp only at h
    cases hm : (b.makeDir j.installDir t.world).2 with
    | error e => rw [hm] at h; simp at h
    | ok u =>
      rw [hm] at h
      dsimp only at h
      refine ⟨rfl, key (fun r => match r with
        | (t'', .error e) => (t'', .ok ⟨false, [], c!"Installation failed: " ++ e⟩)
        | (t'', .ok n) => (t'', .ok ⟨true, c!"Installation completed. Copied " ++ decimal n ++ c!" files to " ++ j.installDir, []⟩))
        (fun u e x u' h => ?_) (fun u n => ⟨_, rfl⟩) h⟩
      simp only [Prod.mk.injEq, Except.ok.injEq] at h
      rw [← h.2]
  rcases hs with rfl | rfl | ⟨rfl, hf⟩
  · exact hcopy h
  · exact hcopy h
  · have h' : pythonInstall b j t = (t', .ok x) := h
    unfold pythonInstall makeDir at h'
    dsimp only at h'
    cases hm : (b.makeDir j.installDir t.world).2 with
    | error e => rw [hm] at h'; simp at h'
    | ok u =>
      rw [hm] at h'
      dsimp only at h'
      rw [hf c!"rezbuild.py" (by simp), hf c!"setup.py" (by simp), hf c!"pyproject.toml" (by simp)] at h'
      simp only [Bool.false_eq_true, if_false] at h'
      unfold copyStep at h'
      refine ⟨rfl, key (fun r => match r with
        | (t', .error e) => (t', .error e)
        | (t', .ok n) => (t', .ok ⟨true, c!"Copied" ++ c!" " ++ decimal n ++ c!" files to " ++ j.installDir, []⟩))
        (fun u e x u' h => by simp at h) (fun u n => ⟨_, rfl⟩) h'⟩

example : ∃ t' x, install (boxOf (fun _ => 0) []) job (.custom c!"default") ⟨(), []⟩ = (t', .ok x) ∧ x.success = true :=
  ⟨_, _, rfl, rfl⟩
example : ∃ t' x, install (boxOf (fun _ => 0) [c!"dist"]) job .nodejs ⟨(), []⟩ = (t', .ok x) := ⟨_, _, rfl⟩

/-! ## C150: directories as arguments -/

namespace SystemLemmas

theorem lex_bare {u : Str} (h : ∀ c ∈ u, c ≠ ' ' ∧ c ≠ '"' ∧ special false c = false) (hne : u ≠ []) (cur : Option Str) (s : Str) :
    lex false cur (u ++ s) = lex false (some (cur.getD [] ++ u)) s := by
  induction u generalizing cur with
  | nil => exact absurd rfl hne
  | cons c u ih =>
    have hc := h c List.mem_cons_self
    rw [List.cons_append, lex, if_neg hc.2.1, if_neg (fun e => hc.1 e.1), if_neg (by rw [hc.2.2]; simp)]
    by_cases hu : u = []
    · subst hu; simp
    · rw [ih (fun d hd => h d (List.mem_cons_of_mem _ hd)) hu]
      simp

theorem lex_in {u : Str} (h : Quotable u) (cur : Str) (s : Str) :
    lex true (some cur) (u ++ '"' :: s) = lex false (some (cur ++ u)) s := by
  induction u generalizing cur with
  | nil => simp [lex]
  | cons c u ih =>
    have hc := h c List.mem_cons_self
    rw [List.cons_append, lex, if_neg hc.1, if_neg (by simp), if_neg (by rw [hc.2]; simp),
      ih (fun d hd => h d (List.mem_cons_of_mem _ hd))]
    simp

theorem lex_quoted {u : Str} (h : Quotable u) (cur : Option Str) (s : Str) :
    lex false cur (quoted u ++ s) = lex false (some (cur.getD [] ++ u)) s := by
  have e : quoted u ++ s = '"' :: (u ++ '"' :: s) := by simp [quoted]
  rw [e, lex, if_pos rfl]
  exact lex_in h _ _

theorem lex_blank (cur : Option Str) (s : Str) : lex false cur (' ' :: s) = (lex false none s).map (cur.toList ++ ·) := by
  rw [lex, if_neg (by decide), if_pos ⟨rfl, rfl⟩]

theorem lex_nil (cur : Option Str) : lex false cur [] = some cur.toList := by rw [lex]

/-- A word before a blank. -/
theorem lex_word {u : Str} (h : Bare u) (s : Str) : lex false none (u ++ ' ' :: s) = (lex false none s).map (u :: ·) := by
  rw [lex_bare h.2 h.1, lex_blank]
  rfl

/-- A word at the end. -/
theorem lex_last {u : Str} (h : Bare u) : lex false none u = some [u] := by
  have := lex_bare h.2 h.1 none []
  rw [List.append_nil] at this
  rw [this, lex_nil]
  rfl

theorem words_join (l : List Str) (h : ∀ w ∈ l, Bare w) : shellWords (joinWith c!" " l) = some l := by
  unfold shellWords
  match l with
  | [] => rfl
  | [w] => exact lex_last (h w List.mem_cons_self)
  | w :: v :: rest =>
    have ih := words_join (v :: rest) fun x hx => h x (List.mem_cons_of_mem _ hx)
    unfold shellWords at ih
    show lex false none (w ++ c!" " ++ joinWith c!" " (v :: rest)) = _
    rw [List.append_assoc]
    show lex false none (w ++ ' ' :: joinWith c!" " (v :: rest)) = _
    rw [lex_word (h w List.mem_cons_self), ih]
    rfl

theorem trim_ends {s : Str} {a z : Char} (h : s.head? = some a) (hz : s.getLast? = some z) (ha : isWs a = false)
    (hz' : isWs z = false) : trim s = s :=
  trim_of_trimmed ⟨fun c hc => by rw [h] at hc; cases hc; exact ha, fun c hc => by rw [hz] at hc; cases hc; exact hz'⟩

end SystemLemmas

/-- C150: make is given the directory to install in as one argument, blanks and all. -/
theorem C150_make_partial (j : Job) (h : Quotable j.installDir) :
    shellWords (makeInstall j) = some [c!"make", c!"install", c!"DESTDIR=" ++ j.installDir] := by
  unfold makeInstall shellWords
  have e : c!"make install DESTDIR=" ++ quoted j.installDir = c!"make" ++ ' ' :: (c!"install" ++ ' ' :: (c!"DESTDIR=" ++
      (quoted j.installDir ++ []))) := by simp
  rw [e, lex_word (by decide), lex_word (by decide), lex_bare (by decide) (by decide), lex_quoted h, lex_nil]
  rfl

/-- C150: so is Cargo. -/
theorem C150_cargo_partial (j : Job) (h : Quotable j.installDir) :
    shellWords (cargoInstall j) = some ([c!"cargo", c!"install", c!"--path", c!"."] ++
      (if j.release then [c!"--release"] else []) ++ [c!"--root", j.installDir]) := by
  unfold cargoInstall shellWords
  rw [trim_ends (a := 'c') (z := '"') (by simp) (by
    have : ∀ a : Str, (a ++ quoted j.installDir).getLast? = some '"' := fun a => by
      rw [show a ++ quoted j.installDir = (a ++ '"' :: j.installDir) ++ c!"\"" by simp [quoted], List.getLast?_append]
      rfl
    exact this _) (by decide) (by decide)]
  cases j.release with
  | true =>
    have e : c!"cargo install --path . " ++ (if true = true then c!"--release" else []) ++ c!" --root " ++ quoted j.installDir =
        c!"cargo" ++ ' ' :: (c!"install" ++ ' ' :: (c!"--path" ++ ' ' :: (c!"." ++ ' ' :: (c!"--release" ++ ' ' ::
          (c!"--root" ++ ' ' :: (quoted j.installDir ++ [])))))) := by simp
    rw [e, lex_word (by decide), lex_word (by decide), lex_word (by decide), lex_word (by decide), lex_word (by decide),
      lex_word (by decide), lex_quoted h, lex_nil]
    rfl
  | false =>
    have e : c!"cargo install --path . " ++ (if false = true then c!"--release" else []) ++ c!" --root " ++ quoted j.installDir =
        c!"cargo" ++ ' ' :: (c!"install" ++ ' ' :: (c!"--path" ++ ' ' :: (c!"." ++ ' ' :: (' ' ::
          (c!"--root" ++ ' ' :: (quoted j.installDir ++ [])))))) := by simp
    rw [e, lex_word (by decide), lex_word (by decide), lex_word (by decide), lex_word (by decide), lex_blank,
      lex_word (by decide), lex_quoted h, lex_nil]
    rfl

/-- C150: so are the programs of a Python package: each of them gets its directories as arguments of their own. -/
theorem C150_python_partial (j : Job) (hs : Quotable (pjoin j.source c!"rezbuild.py")) (hb : Quotable j.buildDir)
    (hi : Quotable j.installDir) (has : Str → Bool) (py : Str) (st : BuildStep) (hst : st = .compiling ∨ st = .installing)
    (cwd : Option Str) (p : Program) (hp : (cwd, p) ∈ programs j has py .python st) :
    cwd = some j.source ∧ ∃ cmd, p = .shell cmd ∧ shellWords cmd ∈
      [some [c!"python", pjoin j.source c!"rezbuild.py", if st = .compiling then c!"build" else c!"install", j.buildDir, j.installDir],
       some (if st = .compiling then [c!"python", c!"setup.py", c!"build", c!"--build-base", j.buildDir]
         else [c!"python", c!"setup.py", c!"install", c!"--prefix", j.installDir]),
       some (if st = .compiling then [c!"pip", c!"wheel", c!".", c!"-w", j.buildDir, c!"--no-deps"]
         else [c!"pip", c!"install", c!".", c!"--target", j.installDir, c!"--no-deps"])] := by
  have three : ∀ r s q : Str, (cwd, p) ∈ pythonPrograms j has r s q → cwd = some j.source ∧ (p = .shell r ∨ p = .shell s ∨ p = .shell q) := by
    intro r s q h
    unfold pythonPrograms at h
    split at h
    · simp at h; exact ⟨h.1, Or.inl h.2⟩
    · split at h
      · simp at h; exact ⟨h.1, Or.inr (Or.inl h.2)⟩
      · split at h
        · simp at h; exact ⟨h.1, Or.inr (Or.inr h.2)⟩
        · cases h
  have w4 : ∀ v, Bare v → shellWords (c!"python \"" ++ pjoin j.source c!"rezbuild.py" ++ c!"\" " ++ v ++ c!" \"" ++ j.buildDir ++ c!"\" \"" ++
      j.installDir ++ c!"\"") = some [c!"python", pjoin j.source c!"rezbuild.py", v, j.buildDir, j.installDir] := by
    intro v hv
    have e : c!"python \"" ++ pjoin j.source c!"rezbuild.py" ++ c!"\" " ++ v ++ c!" \"" ++ j.buildDir ++ c!"\" \"" ++
      j.installDir ++ c!"\"" = c!"python" ++ ' ' :: (quoted (pjoin j.source c!"rezbuild.py") ++ ' ' :: (v ++ ' ' ::
        (quoted j.buildDir ++ ' ' :: (quoted j.installDir ++ [])))) := by simp [quoted]
    unfold shellWords
    rw [e, lex_word (by decide), lex_quoted hs, lex_blank, lex_word hv, lex_quoted hb, lex_blank, lex_quoted hi, lex_nil]
    rfl
  rcases hst with rfl | rfl
  · obtain ⟨hc, hq⟩ := three _ _ _ hp
    refine ⟨hc, ?_⟩
    rcases hq with rfl | rfl | rfl
    · refine ⟨_, rfl, List.mem_cons.mpr (Or.inl ?_)⟩
      have := w4 c!"build" (by decide)
      simpa using this
    · refine ⟨_, rfl, List.mem_cons_of_mem _ (List.mem_cons.mpr (Or.inl ?_))⟩
      have e : c!"python setup.py build --build-base \"" ++ j.buildDir ++ c!"\"" = c!"python" ++ ' ' :: (c!"setup.py" ++ ' ' ::
          (c!"build" ++ ' ' :: (c!"--build-base" ++ ' ' :: (quoted j.buildDir ++ [])))) := by simp [quoted]
      unfold shellWords
      rw [e, lex_word (by decide), lex_word (by decide), lex_word (by decide), lex_word (by decide), lex_quoted hb, lex_nil]
      rfl
    · refine ⟨_, rfl, List.mem_cons_of_mem _ (List.mem_cons_of_mem _ (List.mem_cons.mpr (Or.inl ?_)))⟩
      have e : c!"pip wheel . -w \"" ++ j.buildDir ++ c!"\" --no-deps" = c!"pip" ++ ' ' :: (c!"wheel" ++ ' ' ::
          (c!"." ++ ' ' :: (c!"-w" ++ ' ' :: (quoted j.buildDir ++ ' ' :: c!"--no-deps")))) := by simp [quoted]
      unfold shellWords
      rw [e, lex_word (by decide), lex_word (by decide), lex_word (by decide), lex_word (by decide), lex_quoted hb, lex_blank,
        lex_last (by decide)]
      rfl
  · obtain ⟨hc, hq⟩ := three _ _ _ hp
    refine ⟨hc, ?_⟩
    rcases hq with rfl | rfl | rfl
    · refine ⟨_, rfl, List.mem_cons.mpr (Or.inl ?_)⟩
      have := w4 c!"install" (by decide)
      simpa using this
    · refine ⟨_, rfl, List.mem_cons_of_mem _ (List.mem_cons.mpr (Or.inl ?_))⟩
      have e : c!"python setup.py install --prefix \"" ++ j.installDir ++ c!"\"" = c!"python" ++ ' ' :: (c!"setup.py" ++ ' ' ::
          (c!"install" ++ ' ' :: (c!"--prefix" ++ ' ' :: (quoted j.installDir ++ [])))) := by simp [quoted]
      unfold shellWords
      rw [e, lex_word (by decide), lex_word (by decide), lex_word (by decide), lex_word (by decide), lex_quoted hi, lex_nil]
      rfl
    · refine ⟨_, rfl, List.mem_cons_of_mem _ (List.mem_cons_of_mem _ (List.mem_cons.mpr (Or.inl ?_)))⟩
      have e : c!"pip install . --target \"" ++ j.installDir ++ c!"\" --no-deps" = c!"pip" ++ ' ' :: (c!"install" ++ ' ' ::
          (c!"." ++ ' ' :: (c!"--target" ++ ' ' :: (quoted j.installDir ++ ' ' :: c!"--no-deps")))) := by simp [quoted]
      unfold shellWords
      rw [e, lex_word (by decide), lex_word (by decide), lex_word (by decide), lex_word (by decide), lex_quoted hi, lex_blank,
        lex_last (by decide)]
      rfl

/-- C150: CMake gets its directories and the arguments of the build as they are, if none of them has a blank or another
character that means something to the shell. -/
theorem C150_cmake_partial (j : Job) (hs : Bare j.source) (hb : Bare j.buildDir) (hi : Bare j.installDir) (ha : ∀ a ∈ j.args, Bare a) :
    shellWords (cmakeConfigure j) = some ([c!"cmake", c!"-S", j.source, c!"-B", j.buildDir,
      c!"-DCMAKE_INSTALL_PREFIX=" ++ j.installDir, if j.release then c!"-DCMAKE_BUILD_TYPE=Release" else c!"-DCMAKE_BUILD_TYPE=Debug"] ++ j.args) ∧
    shellWords (cmakeCompile j) = some ([c!"cmake", c!"--build", j.buildDir] ++ if j.release then [c!"--config", c!"Release"] else []) := by
  have hpre : Bare (c!"-DCMAKE_INSTALL_PREFIX=" ++ j.installDir) := by
    refine ⟨by simp, fun c hc => ?_⟩
    rcases List.mem_append.mp hc with hc' | hc
    · clear hc; revert c; decide
    · exact hi.2 c hc
  have hmode : Bare (if j.release then c!"-DCMAKE_BUILD_TYPE=Release" else c!"-DCMAKE_BUILD_TYPE=Debug") := by
    cases j.release <;> decide
  constructor
  · have := words_join ([c!"cmake", c!"-S", j.source, c!"-B", j.buildDir, c!"-DCMAKE_INSTALL_PREFIX=" ++ j.installDir,
      if j.release then c!"-DCMAKE_BUILD_TYPE=Release" else c!"-DCMAKE_BUILD_TYPE=Debug"] ++ j.args) (by
        intro w hw
        rcases List.mem_append.mp hw with hw | hw
        · simp only [List.mem_cons, List.not_mem_nil, or_false] at hw
          rcases hw with rfl | rfl | rfl | rfl | rfl | rfl | rfl
          · decide
          · decide
          · exact hs
          · decide
          · exact hb
          · exact hpre
          · exact hmode
        · exact ha w hw)
    rw [← this]
    simp [cmakeConfigure, joinWith]
  · have := words_join ([c!"cmake", c!"--build", j.buildDir] ++ if j.release then [c!"--config", c!"Release"] else []) (by
        intro w hw
        rcases List.mem_append.mp hw with hw | hw
        · simp only [List.mem_cons, List.not_mem_nil, or_false] at hw
          rcases hw with rfl | rfl | rfl
          · decide
          · decide
          · exact hb
        · cases h : j.release with
          | true =>
            simp only [h, if_true, List.mem_cons, List.not_mem_nil, or_false] at hw
            rcases hw with rfl | rfl <;> decide
          | false => simp [h] at hw)
    rw [← this]
    simp [cmakeCompile, joinWith]

/-- C150: a script gets its word, if its path has no character that means something to the shell. -/
theorem C150_script_partial (j : Job) (py s word : Str) (hp : Bare (pjoin j.source s)) (hw : Bare word)
    (hpy : ¬ c!".py" <:+ s) : ∃ cmd, scriptProgram j py s word = .shell cmd ∧
      shellWords cmd = some ((if c!".sh" <:+ s then [c!"bash"] else []) ++ [pjoin j.source s, word]) := by
  unfold scriptProgram
  rw [if_neg hpy]
  by_cases h : c!".sh" <:+ s
  · rw [if_pos h, if_pos h]
    refine ⟨_, rfl, ?_⟩
    have := words_join [c!"bash", pjoin j.source s, word] (by
      intro w hw'
      simp only [List.mem_cons, List.not_mem_nil, or_false] at hw'
      rcases hw' with rfl | rfl | rfl
      · decide
      · exact hp
      · exact hw)
    simpa [joinWith] using this
  · rw [if_neg h, if_neg h]
    refine ⟨_, rfl, ?_⟩
    have := words_join [pjoin j.source s, word] (by
      intro w hw'
      simp only [List.mem_cons, List.not_mem_nil, or_false] at hw'
      rcases hw' with rfl | rfl
      · exact hp
      · exact hw)
    simpa [joinWith] using this

/-- A package in a directory with a blank. -/
def spaced : Job := { job with source := c!"/my work", buildDir := c!"/my work/build", installDir := c!"/my pkgs" }

example : Quotable spaced.installDir ∧ Quotable spaced.buildDir := by decide
example : Bare job.source ∧ Bare job.buildDir := by decide

/-- C150 is false of CMake: a source in `/my work` is two arguments. -/
theorem C150_cmake_false : shellWords (cmakeCompile spaced) = some [c!"cmake", c!"--build", c!"/my", c!"work/build"] := by decide

/-- C150 is false of scripts: `bash` is told to run `/my`. -/
theorem C150_script_false : ∃ cmd, scriptProgram spaced [] c!"build.sh" c!"build" = .shell cmd ∧
    shellWords cmd = some [c!"bash", c!"/my", c!"work/build.sh", c!"build"] := ⟨_, rfl, by decide⟩

/-! ## C151: placeholders in build commands -/

namespace SystemLemmas
open Rez.Rex RexLemmas

/-- One replacement. -/
def fillOne (k v : Str) : Piece → Piece
  | .text s => .text s
  | .hole n => if n = k then .text v else .hole n

theorem replace_pieces (k v : Str) (hk : '}' ∉ k) (ps : List Piece) (h : ∀ p ∈ ps, p.Ok) :
    replaceAll ('{' :: k ++ c!"}") v (ps.flatMap Piece.written) = (ps.map (fillOne k v)).flatMap Piece.written := by
  unfold replaceAll
  induction ps with
  | nil => rfl
  | cons p ps ih =>
    have ih := ih fun q hq => h q (List.mem_cons_of_mem _ hq)
    have hp := h p List.mem_cons_self
    rw [List.flatMap_cons, List.map_cons, List.flatMap_cons, ← ih]
    cases p with
    | text s => exact replace_pass (show '{' ∉ s from hp) _
    | hole n =>
      by_cases hn : n = k
      · subst hn
        simp only [fillOne, if_true]
        exact replace_hit _ _ _ (by simp)
      · simp only [fillOne, if_neg hn]
        show replaceAux ('{' :: (k ++ c!"}")) v 0 ('{' :: (n ++ c!"}") ++ ps.flatMap Piece.written) = _
        rw [List.cons_append, replaceAux, if_neg]
        · have hd : '{' ∉ n ++ c!"}" := by simp [hp.1]
          rw [replace_pass hd]
          rfl
        · intro hpre
          have h2 : (k ++ c!"}").isPrefixOf (n ++ '}' :: ps.flatMap Piece.written) = true := by
            simpa [List.isPrefixOf] using hpre
          exact hn (brace_prefix hk hp.2 h2).symm

theorem ok_fillOne {k v : Str} (hv : '{' ∉ v) {ps : List Piece} (h : ∀ p ∈ ps, p.Ok) : ∀ p ∈ ps.map (fillOne k v), p.Ok := by
  intro p hp
  obtain ⟨q, hq, rfl⟩ := List.mem_map.mp hp
  cases q with
  | text s => exact h _ hq
  | hole n =>
    simp only [fillOne]
    split
    · exact hv
    · exact h _ hq

end SystemLemmas

/-- C151: a build command is run with its placeholders filled in and the rest as it is written, if no opening brace is in the
text around them or in what they stand for. -/
theorem C151_expand_partial (j : Job) (ps : List Piece) (h : ∀ p ∈ ps, p.Ok) (hs : '{' ∉ j.source) (hb : '{' ∉ j.buildDir)
    (hi : '{' ∉ j.installDir) (hn : '{' ∉ j.name) (hv : '{' ∉ j.version.getD []) :
    expand j (ps.flatMap Piece.written) = ps.flatMap (Piece.filled j) := by
  unfold expand
  simp only [List.foldl]
  have e : ∀ k : Str, '{' :: (k ++ c!"}") = '{' :: k ++ c!"}" := fun _ => rfl
  rw [show c!"{root}" = '{' :: c!"root" ++ c!"}" from rfl, show c!"{install}" = '{' :: c!"install" ++ c!"}" from rfl,
    show c!"{build_path}" = '{' :: c!"build_path" ++ c!"}" from rfl, show c!"{install_path}" = '{' :: c!"install_path" ++ c!"}" from rfl,
    show c!"{name}" = '{' :: c!"name" ++ c!"}" from rfl, show c!"{version}" = '{' :: c!"version" ++ c!"}" from rfl,
    show c!"{variant_index}" = '{' :: c!"variant_index" ++ c!"}" from rfl]
  have h1 := ok_fillOne (k := c!"root") hs h
  have h2 := ok_fillOne (k := c!"install") (v := c!"install") (by decide) h1
  have h3 := ok_fillOne (k := c!"build_path") hb h2
  have h4 := ok_fillOne (k := c!"install_path") hi h3
  have h5 := ok_fillOne (k := c!"name") hn h4
  have h6 := ok_fillOne (k := c!"version") hv h5
  rw [replace_pieces c!"root" _ (by decide) _ h, replace_pieces c!"install" _ (by decide) _ h1,
    replace_pieces c!"build_path" _ (by decide) _ h2, replace_pieces c!"install_path" _ (by decide) _ h3,
    replace_pieces c!"name" _ (by decide) _ h4, replace_pieces c!"version" _ (by decide) _ h5,
    replace_pieces c!"variant_index" _ (by decide) _ h6]
  simp only [List.map_map, List.flatMap_map]
  congr 1
  funext p
  cases p with
  | text s => rfl
  | hole n =>
    simp only [Function.comp, Piece.filled, meaning]
    by_cases g1 : n = c!"root"
    · subst g1; rfl
    by_cases g2 : n = c!"install"
    · subst g2; rfl
    by_cases g3 : n = c!"build_path"
    · subst g3; rfl
    by_cases g4 : n = c!"install_path"
    · subst g4; rfl
    by_cases g5 : n = c!"name"
    · subst g5; rfl
    by_cases g6 : n = c!"version"
    · subst g6; rfl
    by_cases g7 : n = c!"variant_index"
    · subst g7; rfl
    simp only [fillOne, g1, g2, g3, g4, g5, g6, g7, if_false, Option.getD_none, Piece.written]

example : expand job c!"python {root}/build.py {install} {unknown} {name}-{version}" =
    c!"python /w/build.py install {unknown} p-1.0" := by decide +kernel

/-- C151 is false of directories with braces: what a placeholder stands for is filled in again. -/
theorem C151_again_false : ∃ j : Job, expand j c!"ls {root}" ≠ c!"ls " ++ j.source :=
  ⟨{ job with source := c!"/w/{name}" }, by decide +kernel⟩

/-- C151 is false of the index of the variant: it is empty for every variant. -/
theorem C151_variant_false (j : Job) : expand j c!"{variant_index}" = [] := by
  obtain ⟨source, buildDir, installDir, name, version, command, release, args, vars⟩ := j
  rfl

end Rez.Props
