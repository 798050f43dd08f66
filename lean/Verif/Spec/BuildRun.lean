import Verif.Model.BuildRun
import Mathlib.Data.List.Induction
/-!
# What running a build means

Without the functions that run it: which steps there are, what it is for them to succeed one after the other, what is told
about each, and what it is for package tests to pass.
-/
namespace Rez.Build.Spec
open Rez

/-- The eight steps of every build. -/
def theSteps : List BuildStep :=
  [.preparing, .configuring, .compiling, .testing, .packaging, .installing, .packageTesting, .cleanup]

/-- Steps that succeed one after the other, each in the world that the one before left; with their results. -/
inductive Ran {W : Type} (exec : BuildStep → W → W × StepOutcome) : List (BuildStep × StepResult) → W → W → Prop where
  | nil (w : W) : Ran exec [] w w
  | cons {s : BuildStep} {x : StepResult} {l : List (BuildStep × StepResult)} {w w1 w2 : W}
      (h : exec s w = (w1, .ok x)) (hx : x.success = true) (hl : Ran exec l w1 w2) : Ran exec ((s, x) :: l) w w2

/-- A step that does not succeed: it gives an error, or a result that says so. -/
def Fails {W : Type} (exec : BuildStep → W → W × StepOutcome) (s : BuildStep) (w w' : W) : Prop :=
  (∃ e, exec s w = (w', .error e)) ∨ ∃ x, exec s w = (w', .ok x) ∧ x.success = false

/-- The lines of a text that are not blank, without the blanks around them. -/
def shownLines (text : Str) : List Str := ((splitChar '\n' text).map trim).filter fun l => l ≠ []

/-- The events of a step that gave a result. -/
def stepEvents (s : BuildStep) (x : StepResult) : List Event :=
  [⟨some s, .stepStarted, [], none⟩] ++
  (shownLines x.output).map (fun l => ⟨some s, .stepOutput, l, none⟩) ++
  (shownLines x.errors).map (fun l => ⟨some s, .stepError, l, none⟩) ++
  [⟨some s, .stepFinished, [], some x.success⟩]

/-- The part of the output that belongs to a step. -/
def section_ (s : BuildStep) (x : StepResult) : Str := c!"=== " ++ s.shown ++ c!" ===\n" ++ x.output ++ c!"\n"

/-- Package tests that pass one after the other: the commands that ran, and the world they left. -/
inductive Passes {W : Type} (t : Tools W) (fill : Str → Str) : List (Str × Str) → W → W → Prop where
  | nil (w : W) : Passes t fill [] w w
  | cons {n c : Str} {l : List (Str × Str)} {w w1 w2 : W} {out err : Str}
      (h : t.shell (fill c) w = (w1, .ok (out, err, 0))) (hl : Passes t fill l w1 w2) : Passes t fill ((n, c) :: l) w w2

/-- In the order of the names. -/
def InOrder (l : List (Str × Str)) : Prop := l.Pairwise fun a b => cmpStr a.1 b.1 ≠ .gt

/-- A step went well and left the world `w`. -/
def Good {W : Type} (r : W × StepOutcome) (w : W) : Prop := ∃ x, r = (w, .ok x) ∧ x.success = true

/-- The tests of a package pass, in the order of their names; a package without tests passes. -/
def TestsPass {W : Type} (t : Tools W) (o : Options) (w w' : W) : Prop :=
  (o.tests = [] ∧ w' = w) ∨ (o.tests ≠ [] ∧ t.testEnv w = none ∧ ∃ l, l.Perm o.tests ∧ InOrder l ∧ Passes t o.fill l w w')

end Rez.Build.Spec
