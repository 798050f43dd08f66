import Verif.Spec.BuildRun
import Verif.Lemmas.Text
import Verif.Lemmas.Version
import Mathlib.Tactic.SplitIfs
import Mathlib.Data.List.Nodup
/-!
# C142, C143: the steps of a build and the tests of a package
-/
namespace Rez.Props
open Rez Rez.Build Rez.Build.Spec

namespace BuildRunLemmas
variable {W : Type} {exec : BuildStep → W → W × StepOutcome}

theorem lineEvents_eq (s : BuildStep) (k : EventKind) (text : Str) :
    lineEvents s k text = (shownLines text).map fun l => ⟨some s, k, l, none⟩ := by
  unfold lineEvents shownLines
  generalize splitChar '\n' text = l
  induction l with
  | nil => rfl
  | cons a l ih =>
    by_cases h : trim a = []
    · simp [h]
      simpa using ih
    · simp [h]
      simpa using ih

theorem shownLines_nil : shownLines [] = [] := by decide

/-- What is told about a step, and about all of those that ran. -/
theorem step_report (r : Report) (s : BuildStep) (x : StepResult) :
    ({ r with events := r.events ++ [⟨some s, .stepStarted, [], none⟩] } : Report).step s x =
      { events := r.events ++ stepEvents s x
        output := r.output ++ section_ s x
        errors := if x.errors = [] then r.errors
          else r.errors ++ c!"=== " ++ s.shown ++ c!" Errors ===\n" ++ x.errors ++ c!"\n" } := by
  unfold Report.step stepEvents section_
  rw [lineEvents_eq, lineEvents_eq]
  by_cases h : x.errors = []
  · rw [h, shownLines_nil]; simp
  · simp [h]

/-- The three ways for a build to go. -/
inductive Went (exec : BuildStep → W → W × StepOutcome) (steps : List BuildStep) (w : W) (r : Report) :
    W × Report × Except Str Unit → Prop where
  | done {l : List (BuildStep × StepResult)} {w' : W} {errs : Str} (hl : l.map Prod.fst = steps) (hr : Ran exec l w w') :
      Went exec steps w r (w', ⟨r.events ++ l.flatMap (fun p => stepEvents p.1 p.2) ++ [⟨none, .buildFinished, [], some true⟩],
        r.output ++ l.flatMap (fun p => section_ p.1 p.2), errs⟩, .ok ())
  | failed {l : List (BuildStep × StepResult)} {w1 w' : W} {s : BuildStep} {x : StepResult} {post : List BuildStep} {errs : Str}
      (hl : steps = l.map Prod.fst ++ s :: post) (hr : Ran exec l w w1) (hx : exec s w1 = (w', .ok x)) (hf : x.success = false)
      (he : x.errors ≠ [] → ∃ a, errs = a ++ c!"=== " ++ s.shown ++ c!" Errors ===\n" ++ x.errors ++ c!"\n") :
      Went exec steps w r (w', ⟨r.events ++ l.flatMap (fun p => stepEvents p.1 p.2) ++ stepEvents s x ++
        [⟨none, .buildFinished, [], some false⟩],
        r.output ++ l.flatMap (fun p => section_ p.1 p.2) ++ section_ s x, errs⟩,
        .error (c!"Build error: Build step " ++ s.shown ++ c!" failed: " ++ x.errors))
  | broke {l : List (BuildStep × StepResult)} {w1 w' : W} {s : BuildStep} {e : Str} {post : List BuildStep} {errs : Str}
      (hl : steps = l.map Prod.fst ++ s :: post) (hr : Ran exec l w w1) (hx : exec s w1 = (w', .error e)) :
      Went exec steps w r (w', ⟨r.events ++ l.flatMap (fun p => stepEvents p.1 p.2) ++ [⟨some s, .stepStarted, [], none⟩],
        r.output ++ l.flatMap (fun p => section_ p.1 p.2), errs⟩, .error e)

theorem went (exec : BuildStep → W → W × StepOutcome) (steps : List BuildStep) (w : W) (r : Report) :
    Went exec steps w r (runSteps exec steps w r) := by
  induction steps generalizing w r with
  | nil =>
    have := Went.done (exec := exec) (steps := []) (w := w) (r := r) (l := []) (errs := r.errors) rfl (Ran.nil w)
    simpa [runSteps] using this
  | cons s rest ih =>
    unfold runSteps
    rcases h : exec s w with ⟨w', x⟩
    cases x with
    | error e =>
      have := Went.broke (exec := exec) (steps := s :: rest) (w := w) (r := r) (l := []) (post := rest) (errs := r.errors)
        rfl (Ran.nil w) h
      simpa using this
    | ok x =>
      simp only [step_report]
      by_cases hs : x.success = true
      · rw [if_pos hs]
        have ih' := ih w' ({ events := r.events ++ stepEvents s x
                             output := r.output ++ section_ s x
                             errors := if x.errors = [] then r.errors
                               else r.errors ++ c!"=== " ++ s.shown ++ c!" Errors ===\n" ++ x.errors ++ c!"\n" } : Report)
        generalize runSteps exec rest w' _ = res at ih'
        cases ih' with
        | done hl hr =>
          rename_i l w2 errs
          have := Went.done (exec := exec) (steps := s :: rest) (w := w) (r := r) (l := (s, x) :: l) (errs := errs)
            (by simp [hl]) (Ran.cons h hs hr)
          simpa using this
        | failed hl hr hx hf he =>
          rename_i l w1 w2 s2 x2 post errs
          have := Went.failed (exec := exec) (steps := s :: rest) (w := w) (r := r) (l := (s, x) :: l) (errs := errs)
            (post := post) (by simp [hl]) (Ran.cons h hs hr) hx hf he
          simpa using this
        | broke hl hr hx =>
          rename_i l w1 w2 s2 x2 post errs
          have := Went.broke (exec := exec) (steps := s :: rest) (w := w) (r := r) (l := (s, x) :: l) (errs := errs)
            (post := post) (by simp [hl]) (Ran.cons h hs hr) hx
          simpa using this
      · rw [if_neg hs]
        have := Went.failed (exec := exec) (steps := s :: rest) (w := w) (r := r) (l := []) (post := rest)
          (errs := if x.errors = [] then r.errors
            else r.errors ++ c!"=== " ++ s.shown ++ c!" Errors ===\n" ++ x.errors ++ c!"\n")
          rfl (Ran.nil w) h (by simpa using hs) (fun hne => ⟨r.errors, by rw [if_neg hne]⟩)
        simpa using this

theorem Ran.det {l1 l2 : List (BuildStep × StepResult)} {w a b : W} (h1 : Ran exec l1 w a) (h2 : Ran exec l2 w b)
    (h : l1.map Prod.fst = l2.map Prod.fst) : l1 = l2 ∧ a = b := by
  induction h1 generalizing l2 with
  | nil w => cases h2 with
    | nil => exact ⟨rfl, rfl⟩
    | cons => simp at h
  | cons e hx hl ih =>
    cases h2 with
    | nil => simp at h
    | cons e2 hx2 hl2 =>
      simp only [List.map_cons, List.cons.injEq] at h
      obtain ⟨h0, h⟩ := h
      subst h0
      rw [e] at e2
      simp only [Prod.mk.injEq, Except.ok.injEq] at e2
      obtain ⟨e3, e4⟩ := e2
      subst e3 e4
      obtain ⟨h5, h6⟩ := ih hl2 h
      exact ⟨by rw [h5], h6⟩

theorem not_blank {s : Str} {c : Char} (h : c ∈ s) (hw : isWs c = false) : trim s ≠ [] := by
  intro he
  have := mem_trim_of_mem h hw
  rw [he] at this
  cases this

theorem blank_mem {s : Str} (h : trim s ≠ []) : ∃ c ∈ s, isWs c = false := by
  by_contra hc
  push Not at hc
  have hall : ∀ c ∈ s, isWs c = true := fun c hm => by
    cases hw : isWs c with
    | true => rfl
    | false => exact absurd hw (hc c hm)
  apply h
  have hdrop : ∀ t : Str, (∀ c ∈ t, isWs c = true) → t.dropWhile isWs = [] := by
    intro t
    induction t with
    | nil => intro _; rfl
    | cons c t ih =>
      intro ht
      rw [List.dropWhile_cons, if_pos (ht c List.mem_cons_self)]
      exact ih fun x hx => ht x (List.mem_cons_of_mem _ hx)
  unfold trim trimStart
  rw [hdrop s hall]
  rfl

end BuildRunLemmas
open BuildRunLemmas

/-! ## C142: the steps of a build -/

/-- C142: a build succeeds exactly if its eight steps succeed one after the other; the world is then as they leave it. -/
theorem C142_success {W : Type} (exec : BuildStep → W → W × StepOutcome) (w w' : W) :
    ((runBuild exec w).1 = w' ∧ (runBuild exec w).2.2 = .ok ()) ↔
      ∃ l, l.map Prod.fst = theSteps ∧ Ran exec l w w' := by
  unfold runBuild
  have h := went exec allSteps w ⟨[⟨none, .buildStarted, [], none⟩], [], []⟩
  generalize runSteps exec allSteps w _ = res at h
  have key : ∀ (l : List (BuildStep × StepResult)) (wf w1 w2 : W) (l1 : List (BuildStep × StepResult)) (s : BuildStep)
      (post : List BuildStep), l.map Prod.fst = theSteps → Ran exec l w wf → allSteps = l1.map Prod.fst ++ s :: post →
      Ran exec l1 w w1 → (∀ x, exec s w1 = (w2, .ok x) → x.success = false) → (∃ o, exec s w1 = (w2, o)) → False := by
    intro l wf w1 w2 l1 s post hl hr hl1 hr1 hbad hex
    have hpre : ∀ (l1 : List (BuildStep × StepResult)) (l : List (BuildStep × StepResult)) (w wf w1 : W),
        Ran exec l w wf → Ran exec l1 w w1 → l.map Prod.fst = l1.map Prod.fst ++ s :: post →
        ∃ x w3, exec s w1 = (w3, .ok x) ∧ x.success = true := by
      intro l1
      induction l1 with
      | nil =>
        intro l w wf w1 hr hr1 he
        cases hr1
        cases hr with
        | nil => simp at he
        | cons h hx hl =>
          simp only [List.map_cons, List.map_nil, List.nil_append, List.cons.injEq] at he
          rw [he.1] at h
          exact ⟨_, _, h, hx⟩
      | cons p l1 ih =>
        intro l w wf w1 hr hr1 he
        cases hr1 with
        | cons h1 hx1 hl1 =>
          cases hr with
          | nil => simp at he
          | cons h hx hl =>
            simp only [List.map_cons, List.cons_append, List.cons.injEq] at he
            rw [he.1, h1] at h
            simp only [Prod.mk.injEq, Except.ok.injEq] at h
            obtain ⟨e1, e2⟩ := h
            subst e1
            exact ih _ _ _ _ hl hl1 he.2
    obtain ⟨x, w3, he, hx⟩ := hpre l1 l w wf w1 hr hr1 (by rw [hl, ← hl1]; rfl)
    obtain ⟨o, ho⟩ := hex
    have hw : w3 = w2 := by rw [he] at ho; exact (Prod.mk.inj ho).1
    subst hw
    rw [hbad x he] at hx
    cases hx
  constructor
  · rintro ⟨h1, h2⟩
    cases h with
    | done hl hr => simp only at h1; subst h1; exact ⟨_, hl, hr⟩
    | failed => simp at h2
    | broke => simp at h2
  · rintro ⟨l, hl, hr⟩
    cases h with
    | done hl1 hr1 =>
      obtain ⟨_, h2⟩ := Ran.det hr hr1 (by rw [hl, hl1]; rfl)
      exact ⟨h2.symm, rfl⟩
    | failed hl1 hr1 hx hf =>
      exact (key l _ _ _ _ _ _ hl hr hl1 hr1 (fun x he => by rw [hx] at he; simp at he; rw [← he]; exact hf)
        ⟨_, hx⟩).elim
    | broke hl1 hr1 hx =>
      exact (key l _ _ _ _ _ _ hl hr hl1 hr1 (fun x he => by rw [hx] at he; simp at he) ⟨_, hx⟩).elim

/-- C142: a build that does not succeed stops at the first step that fails: those before it succeeded, and nothing is done
after it. -/
theorem C142_failure {W : Type} (exec : BuildStep → W → W × StepOutcome) (w : W) (h : (runBuild exec w).2.2 ≠ .ok ()) :
    ∃ l s post w1, theSteps = l.map Prod.fst ++ s :: post ∧ Ran exec l w w1 ∧ Fails exec s w1 (runBuild exec w).1 := by
  unfold runBuild at h ⊢
  have hw := went exec allSteps w ⟨[⟨none, .buildStarted, [], none⟩], [], []⟩
  generalize runSteps exec allSteps w _ = res at hw h
  cases hw with
  | done => simp at h
  | failed hl hr hx hf => exact ⟨_, _, _, _, hl, hr, Or.inr ⟨_, hx, hf⟩⟩
  | broke hl hr hx => exact ⟨_, _, _, _, hl, hr, Or.inl ⟨_, hx⟩⟩

/-- C142: what waiting for the build gives: success exactly if the build succeeded, the sections of the steps as output, and
a text of errors that is not blank if it failed. -/
theorem C142_result {W : Type} (exec : BuildStep → W → W × StepOutcome) (w : W)
    (htext : ∀ s v v' e, exec s v = (v', .error e) → trim e ≠ []) :
    ((resultOf (runBuild exec w).2.1 (runBuild exec w).2.2).success = true ↔ (runBuild exec w).2.2 = .ok ()) ∧
    ((resultOf (runBuild exec w).2.1 (runBuild exec w).2.2).success = true →
      (resultOf (runBuild exec w).2.1 (runBuild exec w).2.2).errors = []) ∧
    ((resultOf (runBuild exec w).2.1 (runBuild exec w).2.2).success = false →
      trim (resultOf (runBuild exec w).2.1 (runBuild exec w).2.2).errors ≠ []) ∧
    (∀ l w', l.map Prod.fst = theSteps → Ran exec l w w' →
      (resultOf (runBuild exec w).2.1 (runBuild exec w).2.2).output = l.flatMap fun p => section_ p.1 p.2) := by
  have hs := C142_success exec w
  unfold runBuild at hs ⊢
  have hw := went exec allSteps w ⟨[⟨none, .buildStarted, [], none⟩], [], []⟩
  generalize runSteps exec allSteps w _ = res at hw hs
  cases hw with
  | done hl hr =>
    refine ⟨by simp [resultOf], fun _ => rfl, by simp [resultOf], fun l w' h1 h2 => ?_⟩
    obtain ⟨h3, _⟩ := Ran.det hr h2 (by rw [h1, hl]; rfl)
    simp [resultOf, h3]
  | failed hl hr hx hf he =>
    rename_i l w1 w' s x post errs
    refine ⟨by simp [resultOf], by simp [resultOf], fun _ => ?_, fun l w' h1 h2 => ?_⟩
    · simp only [resultOf]
      by_cases hb : (trim errs).isEmpty = true
      · rw [if_pos hb]
        exact not_blank (c := 'B') (by simp) (by decide)
      · rw [if_neg hb]
        simpa using hb
    · have := (hs w').2 ⟨l, h1, h2⟩
      simp at this
  | broke hl hr hx =>
    rename_i l w1 w' s e post errs
    refine ⟨by simp [resultOf], by simp [resultOf], fun _ => ?_, fun l w' h1 h2 => ?_⟩
    · simp only [resultOf]
      by_cases hb : (trim errs).isEmpty = true
      · rw [if_pos hb]
        obtain ⟨c, hc, hcw⟩ := blank_mem (htext _ _ _ _ hx)
        exact not_blank (c := c) (by simp [hc]) hcw
      · rw [if_neg hb]
        simpa using hb
    · have := (hs w').2 ⟨l, h1, h2⟩
      simp at this

/-- C142: the events of a build whose steps all give results (and none an error): its start, the start, the lines and the
end of each step that ran, in order, and its end with the outcome. -/
theorem C142_events_partial {W : Type} (exec : BuildStep → W → W × StepOutcome) (w : W)
    (hres : ∀ s v v' e, exec s v ≠ (v', .error e)) :
    ∃ l : List (BuildStep × StepResult), l.map Prod.fst <+: theSteps ∧
      (runBuild exec w).2.1.events = [⟨none, .buildStarted, [], none⟩] ++ l.flatMap (fun p => stepEvents p.1 p.2) ++
        [⟨none, .buildFinished, [], some (resultOf (runBuild exec w).2.1 (runBuild exec w).2.2).success⟩] ∧
      ((∃ w', Ran exec l w w') ∨ ∃ l' s x w1 w', l = l' ++ [(s, x)] ∧ Ran exec l' w w1 ∧ exec s w1 = (w', .ok x)) := by
  unfold runBuild
  have hw := went exec allSteps w ⟨[⟨none, .buildStarted, [], none⟩], [], []⟩
  generalize runSteps exec allSteps w _ = res at hw
  cases hw with
  | done hl hr =>
    rename_i l w' errs
    exact ⟨l, by rw [hl]; exact List.prefix_refl _, rfl, Or.inl ⟨_, hr⟩⟩
  | failed hl hr hx hf he =>
    rename_i l w1 w' s x post errs
    refine ⟨l ++ [(s, x)], ⟨post, ?_⟩, ?_, Or.inr ⟨l, s, x, w1, w', rfl, hr, hx⟩⟩
    · show _ = allSteps
      rw [hl]; simp
    · simp [resultOf]
  | broke hl hr hx => exact (hres _ _ _ _ hx).elim

/-- What a demonstration does: the world is the list of steps that ran. -/
def demoExec (bad : BuildStep) (how : StepOutcome) (s : BuildStep) (w : List BuildStep) : List BuildStep × StepOutcome :=
  (w ++ [s], if s = bad then how else .ok ⟨true, c!"ok", []⟩)

example : (runBuild (demoExec .testing (.ok ⟨false, [], c!"assert"⟩)) []).1 = [.preparing, .configuring, .compiling, .testing] ∧
    (resultOf (runBuild (demoExec .testing (.ok ⟨false, [], c!"assert"⟩)) []).2.1
      (runBuild (demoExec .testing (.ok ⟨false, [], c!"assert"⟩)) []).2.2).errors = c!"=== Testing Errors ===\nassert\n" ∧
    (runBuild (demoExec .testing (.ok ⟨true, [], c!"warning"⟩)) []).1 = theSteps ∧
    (runBuild (demoExec .testing (.ok ⟨true, [], c!"warning"⟩)) []).2.2 = .ok () :=
  ⟨by decide +kernel, by decide +kernel, by decide +kernel, by rfl⟩

/-- C142: not every build tells its end: one whose step gives an error stops after telling the start of that step. -/
theorem C142_events_false : ¬ ∀ (W : Type) (exec : BuildStep → W → W × StepOutcome) (w : W),
    ∃ e ∈ (runBuild exec w).2.1.events, e.kind = .buildFinished := by
  intro h
  obtain ⟨e, he, hk⟩ := h _ (demoExec .installing (.error c!"IO error: disk full")) []
  revert he hk
  have : ∀ e ∈ (runBuild (demoExec .installing (.error c!"IO error: disk full")) []).2.1.events, e.kind ≠ .buildFinished := by
    decide +kernel
  exact this e

/-- C142: a failed build is not undone: the package whose tests fail stays installed. -/
theorem C142_undone_false : ¬ ∀ (W : Type) (exec : BuildStep → W → W × StepOutcome) (w : W),
    (runBuild exec w).2.2 ≠ .ok () → (runBuild exec w).1 = w := by
  intro h
  have := h _ (demoExec .packageTesting (.ok ⟨false, [], c!"failed"⟩)) [] (by
    have : (runBuild (demoExec .packageTesting (.ok ⟨false, [], c!"failed"⟩)) []).2.2.isOk = false := by decide +kernel
    intro hc
    rw [hc] at this
    cases this)
  revert this
  decide +kernel

/-! ## C143: the tests -/

/-- C143: with the tests skipped, nothing about the tests of the build system, the tests of the package or the shell
matters. -/
theorem C143_skipped {W : Type} (t1 t2 : Tools W) (o1 o2 : Options) (w : W)
    (hs : o1.skipTests = true ∧ o2.skipTests = true) (hk : o1.keepArtifacts = o2.keepArtifacts)
    (h : t1.prepare = t2.prepare ∧ t1.configure = t2.configure ∧ t1.compile = t2.compile ∧ t1.package = t2.package ∧
      t1.install = t2.install ∧ t1.removeTemp = t2.removeTemp) :
    runBuild (execStep t1 o1) w = runBuild (execStep t2 o2) w := by
  have : execStep t1 o1 = execStep t2 o2 := by
    funext s v
    obtain ⟨h1, h2, h3, h4, h5, h6⟩ := h
    cases s <;> simp [execStep, hs.1, hs.2, hk, h1, h2, h3, h4, h5, h6]
  rw [this]

theorem sortTests_perm (tests : List (Str × Str)) : (sortTests tests).Perm tests := List.perm_insertionSort _ _

theorem sortTests_sorted (tests : List (Str × Str)) : InOrder (sortTests tests) := by
  haveI : Std.Total fun a b : Str × Str => cmpStr a.1 b.1 ≠ .gt := ⟨fun a b => by
    by_contra hc
    push Not at hc
    have := cmpStr_swap a.1 b.1
    rw [hc.1, hc.2] at this
    cases this⟩
  haveI : IsTrans (Str × Str) fun a b => cmpStr a.1 b.1 ≠ .gt := ⟨fun a b c hab hbc => by
    simp only [← Ordering.isLE_iff_ne_gt] at hab hbc ⊢
    exact Std.TransCmp.isLE_trans hab hbc⟩
  exact List.pairwise_insertionSort _ tests

/-- C143: the package tests pass exactly if there are none, or they can be set up and pass one after the other in the order
of their names; the world is then as they leave it. -/
theorem C143_tests {W : Type} (t : Tools W) (fill : Str → Str) (tests : List (Str × Str)) (hn : (mkeys tests).Nodup)
    (w w' : W) :
    (∃ x, packageTests t fill tests w = (w', .ok x) ∧ x.success = true) ↔
      (tests = [] ∧ w' = w) ∨
      (tests ≠ [] ∧ t.testEnv w = none ∧ ∃ l, l.Perm tests ∧ InOrder l ∧ Passes t fill l w w') := by
  have key : ∀ (l : List (Str × Str)) (w : W) (out : Str),
      (∃ x, runTests t fill l w out = (w', .ok x) ∧ x.success = true) ↔ Passes t fill l w w' := by
    intro l
    induction l with
    | nil =>
      intro w out
      constructor
      · rintro ⟨x, h, _⟩
        simp only [runTests, Prod.mk.injEq] at h
        rw [← h.1]; exact .nil w
      · intro h; cases h; exact ⟨_, rfl, rfl⟩
    | cons p l ih =>
      intro w out
      obtain ⟨n, c⟩ := p
      constructor
      · rintro ⟨x, h, hx⟩
        unfold runTests at h
        rcases hsh : t.shell (fill c) w with ⟨w1, r⟩
        rw [hsh] at h
        cases r with
        | error e => simp at h
        | ok r =>
          obtain ⟨so, se, code⟩ := r
          simp only at h
          by_cases hc : code = 0
          · rw [if_pos hc] at h
            subst hc
            exact .cons hsh ((ih _ _).1 ⟨x, h, hx⟩)
          · rw [if_neg hc] at h
            simp only [Prod.mk.injEq, Except.ok.injEq] at h
            rw [← h.2] at hx
            cases hx
      · intro h
        cases h with
        | cons hsh hl =>
          obtain ⟨x, hx⟩ := (ih _ (out ++ testLine n (fill c) ++ _)).2 hl
          refine ⟨x, ?_, hx.2⟩
          unfold runTests
          rw [hsh]
          exact hx.1
  have huniq : ∀ l, l.Perm tests → InOrder l → l = sortTests tests := by
    intro l hp ho
    have hnl : (mkeys l).Nodup := (hp.map Prod.fst).nodup_iff.2 hn
    have hps : l.Perm (sortTests tests) := hp.trans (sortTests_perm tests).symm
    have hos := sortTests_sorted tests
    refine List.Perm.eq_of_pairwise (le := fun a b : Str × Str => cmpStr a.1 b.1 ≠ .gt) ?_ ho hos hps
    intro a b ha hb hab hba
    have heq : cmpStr a.1 b.1 = .eq := by
      have := cmpStr_swap a.1 b.1
      cases h1 : cmpStr a.1 b.1 with
      | eq => rfl
      | gt => exact (hab h1).elim
      | lt => rw [h1] at this; exact (hba this.symm).elim
    have hname := (cmpStr_eq_iff _ _).1 heq
    have hb' : b ∈ l := hps.mem_iff.2 hb
    have hinj : ∀ (l : List (Str × Str)), (mkeys l).Nodup → ∀ a ∈ l, ∀ b ∈ l, a.1 = b.1 → a = b := by
      intro l
      induction l with
      | nil => intro _ a ha; cases ha
      | cons x l ih =>
        intro hn a ha b hb he
        simp only [mkeys, List.map_cons, List.nodup_cons, List.mem_map, not_exists, not_and] at hn
        rcases List.mem_cons.1 ha with ha' | ha' <;> rcases List.mem_cons.1 hb with hb' | hb'
        · rw [ha', hb']
        · exact (hn.1 b hb' (by rw [← he, ha'])).elim
        · exact (hn.1 a ha' (by rw [he, hb'])).elim
        · exact ih hn.2 a ha' b hb' he
    exact hinj l hnl a ha b hb' hname
  unfold packageTests
  by_cases hE : tests = []
  · subst hE
    simp only [List.isEmpty_nil, if_true, Prod.mk.injEq, ne_eq, not_true_eq_false, false_and, or_false, true_and]
    constructor
    · rintro ⟨x, ⟨h, _⟩, _⟩; exact h.symm
    · intro h; exact ⟨_, ⟨h.symm, rfl⟩, rfl⟩
  · have hE' : tests.isEmpty = false := by simpa using hE
    rw [hE']
    simp only [Bool.false_eq_true, if_false, hE, false_and, false_or, ne_eq, not_false_eq_true, true_and]
    cases he : t.testEnv w with
    | some e => simp
    | none =>
      simp only [true_and]
      rw [key]
      constructor
      · intro h
        exact ⟨_, sortTests_perm tests, sortTests_sorted tests, h⟩
      · rintro ⟨l, hp, ho, h⟩
        rw [← huniq l hp ho]; exact h

/-- C142, C143: a build succeeds exactly if the build system prepares, configures, compiles, tests (unless tests are
skipped), packages and installs, the tests of the package pass (unless they are skipped) and the temporary directory is
removed (unless it is to be kept), in this order. -/
theorem C142_calls {W : Type} (t : Tools W) (o : Options) (hn : (mkeys o.tests).Nodup) (w w' : W) :
    ((runBuild (execStep t o) w).1 = w' ∧ (runBuild (execStep t o) w).2.2 = .ok ()) ↔
      ∃ w1 w2 w3 w4 w5 w6 w7, Good (t.prepare w) w1 ∧ Good (t.configure w1) w2 ∧ Good (t.compile w2) w3 ∧
        (if o.skipTests = true then w4 = w3 else Good (t.test w3) w4) ∧ Good (t.package w4) w5 ∧ Good (t.install w5) w6 ∧
        (if o.skipTests = true then w7 = w6 else TestsPass t o w6 w7) ∧
        (if o.keepArtifacts = true then w' = w7 else t.removeTemp w7 = (w', .ok ())) := by
  rw [C142_success]
  have hcons : ∀ (s : BuildStep) (ss : List BuildStep) (v v' : W),
      (∃ l, l.map Prod.fst = s :: ss ∧ Ran (execStep t o) l v v') ↔
      ∃ v1, Good (execStep t o s v) v1 ∧ ∃ l, l.map Prod.fst = ss ∧ Ran (execStep t o) l v1 v' := by
    intro s ss v v'
    constructor
    · rintro ⟨l, hl, hr⟩
      cases hr with
      | nil => cases hl
      | cons h hx hr =>
        simp only [List.map_cons, List.cons.injEq] at hl
        obtain ⟨rfl, hl⟩ := hl
        exact ⟨_, ⟨_, h, hx⟩, _, hl, hr⟩
    · rintro ⟨v1, ⟨x, h, hx⟩, l, hl, hr⟩
      exact ⟨(s, x) :: l, by simp [hl], .cons h hx hr⟩
  have hnil : ∀ v v' : W, (∃ l : List (BuildStep × StepResult), l.map Prod.fst = [] ∧ Ran (execStep t o) l v v') ↔ v' = v := by
    intro v v'
    constructor
    · rintro ⟨l, hl, hr⟩
      cases hr with
      | nil => rfl
      | cons => cases hl
    · rintro rfl
      exact ⟨[], rfl, .nil _⟩
  have h4 : ∀ v v' : W, Good (execStep t o .testing v) v' ↔ (if o.skipTests = true then v' = v else Good (t.test v) v') := by
    intro v v'
    unfold execStep
    cases o.skipTests with
    | false => rfl
    | true =>
      simp only [if_true]
      constructor
      · rintro ⟨x, h, _⟩; exact (Prod.mk.inj h).1.symm
      · rintro rfl; exact ⟨_, rfl, rfl⟩
  have h7 : ∀ v v' : W, Good (execStep t o .packageTesting v) v' ↔ (if o.skipTests = true then v' = v else TestsPass t o v v') := by
    intro v v'
    unfold execStep
    cases o.skipTests with
    | false =>
      simp only [Bool.false_eq_true, if_false]
      exact C143_tests t o.fill o.tests hn v v'
    | true =>
      simp only [if_true]
      constructor
      · rintro ⟨x, h, _⟩; exact (Prod.mk.inj h).1.symm
      · rintro rfl; exact ⟨_, rfl, rfl⟩
  have h8 : ∀ v v' : W, Good (execStep t o .cleanup v) v' ↔
      (if o.keepArtifacts = true then v' = v else t.removeTemp v = (v', .ok ())) := by
    intro v v'
    unfold execStep
    cases o.keepArtifacts with
    | true =>
      simp only [if_true]
      constructor
      · rintro ⟨x, h, _⟩; exact (Prod.mk.inj h).1.symm
      · rintro rfl; exact ⟨_, rfl, rfl⟩
    | false =>
      simp only [Bool.false_eq_true, if_false]
      cases hr : t.removeTemp v with
      | mk u y =>
        cases y with
        | error e =>
          constructor
          · rintro ⟨x, h, _⟩; simp at h
          · intro h; simp at h
        | ok y =>
          constructor
          · rintro ⟨x, h, _⟩; simp at h; rw [h.1]
          · intro h; simp at h; rw [h]; exact ⟨_, rfl, rfl⟩
  unfold theSteps
  simp only [hcons, hnil, h4, h7, h8]
  have e1 : ∀ v v', Good (execStep t o .preparing v) v' = Good (t.prepare v) v' := fun _ _ => rfl
  have e2 : ∀ v v', Good (execStep t o .configuring v) v' = Good (t.configure v) v' := fun _ _ => rfl
  have e3 : ∀ v v', Good (execStep t o .compiling v) v' = Good (t.compile v) v' := fun _ _ => rfl
  have e5 : ∀ v v', Good (execStep t o .packaging v) v' = Good (t.package v) v' := fun _ _ => rfl
  have e6 : ∀ v v', Good (execStep t o .installing v) v' = Good (t.install v) v' := fun _ _ => rfl
  simp only [e1, e2, e3, e5, e6]
  constructor
  · rintro ⟨w1, g1, w2, g2, w3, g3, w4, g4, w5, g5, w6, g6, w7, g7, w8, g8, rfl⟩
    exact ⟨w1, w2, w3, w4, w5, w6, w7, g1, g2, g3, g4, g5, g6, g7, g8⟩
  · rintro ⟨w1, w2, w3, w4, w5, w6, w7, g1, g2, g3, g4, g5, g6, g7, g8⟩
    exact ⟨w1, g1, w2, g2, w3, g3, w4, g4, w5, g5, w6, g6, w7, g7, w', g8, rfl⟩

/-- C143: in which order the tests were declared or are kept makes no difference. -/
theorem C143_order {W : Type} (t : Tools W) (fill : Str → Str) (l1 l2 : List (Str × Str)) (hn : (mkeys l1).Nodup)
    (hp : l1.Perm l2) (w : W) : packageTests t fill l1 w = packageTests t fill l2 w := by
  have : sortTests l1 = sortTests l2 := by
    refine List.Perm.eq_of_pairwise (le := fun a b : Str × Str => cmpStr a.1 b.1 ≠ .gt) ?_ (sortTests_sorted l1)
      (sortTests_sorted l2) ((sortTests_perm l1).trans (hp.trans (sortTests_perm l2).symm))
    intro a b ha hb hab hba
    have heq : cmpStr a.1 b.1 = .eq := by
      have := cmpStr_swap a.1 b.1
      cases h1 : cmpStr a.1 b.1 with
      | eq => rfl
      | gt => exact (hab h1).elim
      | lt => rw [h1] at this; exact (hba this.symm).elim
    have hname := (cmpStr_eq_iff _ _).1 heq
    have ha' : a ∈ l1 := (sortTests_perm l1).mem_iff.1 ha
    have hb' : b ∈ l1 := hp.mem_iff.2 ((sortTests_perm l2).mem_iff.1 hb)
    exact List.inj_on_of_nodup_map hn ha' hb' hname
  unfold packageTests
  rw [this]
  cases l1 with
  | nil => rw [(List.nil_perm.1 hp)]
  | cons a l1 =>
    cases l2 with
    | nil => exact absurd hp.length_eq (by simp)
    | cons b l2 => rfl

/-- A shell in which a command that starts with `x` fails, and that keeps the commands it ran. -/
def demoTools : Tools (List Str) :=
  ⟨fun w => (w, .ok ⟨true, [], []⟩), fun w => (w, .ok ⟨true, [], []⟩), fun w => (w, .ok ⟨true, [], []⟩),
   fun w => (w, .ok ⟨true, [], []⟩), fun w => (w, .ok ⟨true, [], []⟩), fun w => (w ++ [c!"install"], .ok ⟨true, [], []⟩),
   fun _ => none, fun c w => (w ++ [c], .ok ([], [], if c.head? = some 'x' then 1 else 0)), fun w => (w, .ok ()),
   fun _ => c!"1"⟩

example : (packageTests demoTools id [(c!"b", c!"run b"), (c!"a", c!"run a")] []).1 = [c!"run a", c!"run b"] ∧
    (packageTests demoTools id [(c!"b", c!"xb"), (c!"c", c!"run c"), (c!"a", c!"run a")] []).1 = [c!"run a", c!"xb"] ∧
    (runBuild (execStep demoTools ⟨true, true, [(c!"b", c!"xb")], id⟩) []).1 = [c!"install"] :=
  ⟨by decide +kernel, by decide +kernel, by decide +kernel⟩

example : (runBuild (execStep demoTools ⟨false, false, [(c!"b", c!"run b"), (c!"a", c!"run a")], id⟩) []).1 =
      [c!"install", c!"run a", c!"run b"] ∧
    (runBuild (execStep demoTools ⟨false, false, [(c!"b", c!"run b"), (c!"a", c!"run a")], id⟩) []).2.2 = .ok () ∧
    (mkeys [(c!"b", c!"run b"), (c!"a", c!"run a")]).Nodup := ⟨by decide +kernel, by rfl, by decide⟩

end Rez.Props
