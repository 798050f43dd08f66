import Verif.Model.BuildRun
/-!
# Builds that run at the same time: `rez-next-build/src/builder.rs` `BuildManager`, `process.rs`

Every build runs in a task of its own.  A schedule is a list of acts: calls of the manager, and steps of the tasks between
them.  A call that is refused, or that does not return yet, changes nothing.  Simplifications: a step of a build is one
act, with the note of its outcome; build ids (random) are new; stopping the child process on a cancellation is left out
because no build system ever sets it (`_child_process` in `systems/*.rs`).
-/
namespace Rez.Build
open Rez

/-- builder.rs:462-474 `enum BuildStatus`.  `Queued` is over before a build is known. -/
inductive Status where
  | running | success | failed | cancelled
deriving DecidableEq

/-- A build in the background: the steps that are left, its status, and whether its task has ended. -/
structure Task where
  left : List BuildStep
  status : Status
  over : Bool
deriving DecidableEq

/-- builder.rs:80-92 `struct BuildStats`, without the times. -/
structure Stats where
  started : Nat
  successful : Nat
  failed : Nat
  running : Nat
deriving DecidableEq

/-- The manager, the tasks and the world.  Kept for the statements: the steps that ran with their success, and what waits
returned. -/
structure Sys (W : Type) where
  world : W
  tasks : List (Nat × Task)
  active : List Nat
  stats : Stats
  max : Nat
  ran : List (Nat × BuildStep × Bool)
  told : List (Nat × Bool)

/-- What can happen.  `giveUp` is a wait that is dropped before it returns, `dies` a panic in the task. -/
inductive Act where
  | start (id : Nat)
  | step (id : Nat)
  | dies (id : Nat)
  | wait (id : Nat)
  | giveUp (id : Nat)
  | cancel (id : Nat)
  | reset
  | setMax (n : Nat)
deriving DecidableEq

variable {W : Type}

/-- A step of a build succeeded. -/
def good : StepOutcome → Bool
  | .ok x => x.success
  | .error _ => false

/-- builder.rs:280-344 `start_single_build`: the limit, the task, the numbers. -/
def Sys.start (s : Sys W) (id : Nat) : Outcome (Sys W) :=
  if s.active.length ≥ s.max then .err
  else if (mget s.tasks id).isSome then .err
  else .ok { s with
    tasks := mset s.tasks id ⟨allSteps, .running, false⟩
    active := id :: s.active
    stats := { s.stats with started := s.stats.started + 1, running := s.stats.running + 1 } }

/-- process.rs:150-176: the task does its next step; after the last or a failed one it sets the status, whatever that was. -/
def Sys.step (exec : Nat → BuildStep → W → W × StepOutcome) (s : Sys W) (id : Nat) : Outcome (Sys W) :=
  match mget s.tasks id with
  | some ⟨b :: rest, st, false⟩ =>
    let r := exec id b s.world
    let t : Task :=
      if good r.2 then (if rest.isEmpty then ⟨[], .success, true⟩ else ⟨rest, st, false⟩) else ⟨rest, .failed, true⟩
    .ok { s with world := r.1, tasks := mset s.tasks id t, ran := s.ran ++ [(id, b, good r.2)] }
  | _ => .err

/-- A panic ends the task; the status stays. -/
def Sys.dies (s : Sys W) (id : Nat) : Outcome (Sys W) :=
  match mget s.tasks id with
  | some t => if t.over then .err else .ok { s with tasks := mset s.tasks id { t with over := true } }
  | none => .err

/-- builder.rs:361-390 `wait_for_build`.  `running -= 1` at zero is a panic (in a release build the number wraps). -/
def Sys.wait (s : Sys W) (id : Nat) : Outcome (Sys W) :=
  if id ∉ s.active then .err
  else match mget s.tasks id with
    | none => .err
    | some t =>
      if t.status = .running then .err
      else if s.stats.running = 0 then .panic
      else
        let ok := t.status == .success
        .ok { s with
          active := sdel s.active id
          told := s.told ++ [(id, ok)]
          stats := { s.stats with
            running := s.stats.running - 1
            successful := s.stats.successful + (if ok then 1 else 0)
            failed := s.stats.failed + (if ok then 0 else 1) } }

/-- builder.rs:362-363: the build is taken out of the map first. -/
def Sys.giveUp (s : Sys W) (id : Nat) : Outcome (Sys W) :=
  if id ∉ s.active then .err else .ok { s with active := sdel s.active id }

/-- builder.rs:393-405 `cancel_build`, process.rs:235-248. -/
def Sys.cancel (s : Sys W) (id : Nat) : Outcome (Sys W) :=
  if id ∉ s.active then .err
  else if s.stats.running = 0 then .panic
  else .ok { s with
    active := sdel s.active id
    tasks := mupd s.tasks id fun t => { t with status := .cancelled }
    stats := { s.stats with running := s.stats.running - 1, failed := s.stats.failed + 1 } }

/-- One act. -/
def Sys.act (exec : Nat → BuildStep → W → W × StepOutcome) (s : Sys W) : Act → Outcome (Sys W)
  | .start id => s.start id
  | .step id => s.step exec id
  | .dies id => s.dies id
  | .wait id => s.wait id
  | .giveUp id => s.giveUp id
  | .cancel id => s.cancel id
  | .reset => .ok { s with stats := ⟨0, 0, 0, 0⟩ }
  | .setMax n => .ok { s with max := n }

/-- A schedule.  What is refused changes nothing; a panic ends it. -/
def Sys.run (exec : Nat → BuildStep → W → W × StepOutcome) : Sys W → List Act → Outcome (Sys W)
  | s, [] => .ok s
  | s, a :: rest =>
    match s.act exec a with
    | .ok s' => Sys.run exec s' rest
    | .err => Sys.run exec s rest
    | .panic => .panic

/-- builder.rs:250-256 `with_config`. -/
def Sys.new (max : Nat) (w : W) : Sys W := ⟨w, [], [], ⟨0, 0, 0, 0⟩, max, [], []⟩

end Rez.Build
