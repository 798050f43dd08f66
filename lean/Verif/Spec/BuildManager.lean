import Verif.Model.BuildManager
import Verif.Spec.BuildRun
/-!
# What builds that run at the same time promise
-/
namespace Rez.Build.Spec
open Rez

variable {W : Type}

/-- The steps of one build that ran, with their success, in order. -/
def stepsOf (s : Sys W) (id : Nat) : List (BuildStep × Bool) :=
  s.ran.filterMap fun e => if e.1 = id then some e.2 else none

/-- The builds whose task has not ended. -/
def alive (s : Sys W) : List Nat := (s.tasks.filter fun p => !p.2.over).map Prod.fst

/-- Reached from a new manager by a schedule. -/
def Reached (exec : Nat → BuildStep → W → W × StepOutcome) (max : Nat) (w : W) (acts : List Act) (s : Sys W) : Prop :=
  (Sys.new max w).run exec acts = .ok s

/-- All eight steps succeeded. -/
def AllWell (l : List (BuildStep × Bool)) : Prop := l = theSteps.map fun s => (s, true)

/-- The first steps succeeded up to one that failed, the last that ran. -/
def StoppedAt (l : List (BuildStep × Bool)) : Prop :=
  ∃ pre s post, theSteps = pre ++ s :: post ∧ l = (pre.map fun s => (s, true)) ++ [(s, false)]

end Rez.Build.Spec
