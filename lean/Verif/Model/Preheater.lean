import Verif.Base.Map
import Verif.Model.CacheLocks
import Mathlib.Data.Rat.Defs
import Mathlib.Algebra.Order.Ring.Rat
import Mathlib.Algebra.Order.Field.Basic
/-!
# `crates/rez-next-cache/src/predictive_preheater.rs`: predicting when a key is wanted again

Times are nanoseconds, before or after 1970.  Numbers are exact where the code has `f64`, the square root is a parameter, and a
predicted time is rounded down to a nanosecond.  The score of a pattern, which contains an exponential, is a parameter too.  Maps are
association lists.
-/
namespace Rez.Preheater
open Rez

/-- predictive_preheater.rs:18-34 `AccessPattern`; the fields that nothing reads (`key_hash`, `last_prediction`,
`accuracy_history`) are left out. -/
structure Pattern where
  times : List Int
  frequency : ℚ
  regularity : ℚ
  confidence : ℚ

/-- predictive_preheater.rs:38-48 `AccessPattern::new`. -/
def Pattern.new : Pattern := ⟨[], 0, 0, 0⟩

/-- A second in nanoseconds. -/
def second : Nat := 1000000000
/-- 24 hours. -/
def day : Nat := 24 * 3600 * second

/-- `duration_since`, zero for a time that is later: 85-95, 128-133. -/
def gap (a b : Int) : Nat := (b - a).toNat

/-- The intervals between neighbours. -/
def intervals (times : List Int) : List Nat := List.zipWith gap times times.tail

/-- predictive_preheater.rs:68-81: accesses per hour. -/
def frequencyOf (times : List Int) : ℚ :=
  match times.head?, times.getLast? with
  | some a, some b =>
    let nanos : Nat := if a ≤ b then gap a b else second
    if nanos = 0 then 0 else (times.length : ℚ) / ((nanos : ℚ) / second / 3600)
  | _, _ => 0

/-- The mean of durations, in seconds. -/
def mean (l : List Nat) : ℚ := (l.map fun x : Nat => (x : ℚ) / second).sum / l.length

/-- predictive_preheater.rs:97-102: the mean of the squares of the differences from the mean. -/
def variance (l : List Nat) : ℚ := (l.map fun x : Nat => ((x : ℚ) / second - mean l) ^ 2).sum / l.length

/-- predictive_preheater.rs:84-111. -/
def regularityOf (root : ℚ → ℚ) (times : List Int) : ℚ :=
  let l := intervals times
  if mean l > 0 then 1 / (1 + root (variance l) / mean l) else 0

/-- predictive_preheater.rs:67-115 `update_metrics`. -/
def Pattern.update (root : ℚ → ℚ) (p : Pattern) : Pattern :=
  if p.times.length < 2 then p
  else
    let f := frequencyOf p.times
    let r := if p.times.length ≥ 3 then regularityOf root p.times else p.regularity
    { p with frequency := f, regularity := r, confidence := min f 10 / 10 * r }

/-- predictive_preheater.rs:51-65 `record_access`. -/
def Pattern.record (root : ℚ → ℚ) (p : Pattern) (t : Int) : Pattern :=
  ({ p with times := (p.times ++ [t]).dropWhile fun x => x < t - day } : Pattern).update root

/-- predictive_preheater.rs:118-144 `predict_next_access`. -/
def Pattern.predict (p : Pattern) : Option Int :=
  if p.times.length < 2 ∨ p.confidence < 3 / 10 then none
  else match p.times.getLast? with
    | none => none
    | some last => some (last + ((intervals p.times).sum / (intervals p.times).length : Nat))

/-- cache_config.rs:101-126 `PreheatingConfig`: the fields that are read. -/
structure Config where
  predictive : Bool
  learning : Bool
  minConfidence : ℚ
  maxQueue : Nat
  window : Nat
  maxConcurrent : Nat

/-- predictive_preheater.rs:195-211 `PreheatingStats`: the counters. -/
structure Stats where
  predictions : Nat
  successful : Nat
  failed : Nat
  learned : Nat

/-- predictive_preheater.rs:171-189 `PredictivePreheater`. -/
structure State (K : Type) where
  patterns : List (K × Pattern)
  queue : List (K × ℚ × Int)
  stats : Stats

variable {K : Type} [DecidableEq K]

/-- predictive_preheater.rs:231-239 `new`. -/
def State.new : State K := ⟨[], [], ⟨0, 0, 0, 0⟩⟩

/-- predictive_preheater.rs:242-263 `record_access`. -/
def recordAccess (c : Config) (root : ℚ → ℚ) (s : State K) (k : K) (now : Int) : State K :=
  if !c.learning then s
  else
    let p := ((mget s.patterns k).getD Pattern.new).record root now
    let patterns := mset s.patterns k p
    { s with patterns, stats := { s.stats with learned := patterns.length } }

/-- predictive_preheater.rs:266-295 `predict_and_preheat`. -/
def predictAndPreheat (c : Config) (score : Pattern → Int → ℚ) (s : State K) (k : K) (now : Int) : State K :=
  if !c.predictive then s
  else match mget s.patterns k with
    | none => s
    | some p =>
      match p.predict with
      | none => s
      | some t =>
        if p.confidence ≥ c.minConfidence then
          let queue := s.queue ++ [(k, score p now, t)]
          { s with
            queue := if queue.length > c.maxQueue then queue.tail else queue
            stats := { s.stats with predictions := s.stats.predictions + 1 } }
        else s

/-- predictive_preheater.rs:303-316, 323-334: seconds between two times, rounded down. -/
def secondsApart (a b : Int) : Nat := (a - b).natAbs / second

/-- predictive_preheater.rs:298-341 `get_preheat_recommendations`: what is returned and the queue after it.  `sort_by` is a stable
sort. -/
def recommendations (c : Config) (s : State K) (now : Int) : List (K × ℚ) × State K :=
  let near := (s.queue.filter fun e => decide (secondsApart e.2.2 now ≤ c.window)).map fun e => (e.1, e.2.1)
  let sorted := near.mergeSort fun a b => decide (b.2 ≤ a.2)
  (sorted.take c.maxConcurrent,
    { s with queue := s.queue.filter fun e => decide (secondsApart e.2.2 now > c.window) })

/-- predictive_preheater.rs:384-392 `record_prediction_outcome`. -/
def outcome (s : State K) (hit : Bool) : State K :=
  if hit then { s with stats := { s.stats with successful := s.stats.successful + 1 } }
  else { s with stats := { s.stats with failed := s.stats.failed + 1 } }

/-- predictive_preheater.rs:353-360: `accuracy_rate` in `get_stats`. -/
def accuracy (s : State K) : ℚ := if s.stats.predictions > 0 then (s.stats.successful : ℚ) / s.stats.predictions else 0

/-- predictive_preheater.rs:362-367: `avg_confidence` in `get_stats`. -/
def averageConfidence (s : State K) : ℚ :=
  if s.patterns.isEmpty then 0 else (s.patterns.map fun p => p.2.confidence).sum / s.patterns.length

/-- The operations that change something. -/
inductive Op (K : Type) where
  | access (k : K) (now : Int)
  | predict (k : K) (now : Int)
  | recommend (now : Int)
  | outcome (hit : Bool)

/-- One operation. -/
def step (c : Config) (root : ℚ → ℚ) (score : Pattern → Int → ℚ) (s : State K) : Op K → State K
  | .access k now => recordAccess c root s k now
  | .predict k now => predictAndPreheat c score s k now
  | .recommend now => (recommendations c s now).2
  | .outcome hit => outcome s hit

/-- A history of operations on a new preheater. -/
def run (c : Config) (root : ℚ → ℚ) (score : Pattern → Int → ℚ) (ops : List (Op K)) : State K :=
  ops.foldl (step c root score) State.new

/-- intelligent_manager.rs:323-468: what the cache manager asks of the preheater: a `get` that misses predicts (422); nothing else
does. -/
def managerOps (misses : List (K × Int)) : List (Op K) := misses.map fun m => Op.predict m.1 m.2

/-! ## Locks -/

/-- The locks of `PredictivePreheater`. -/
inductive PLock where
  | patterns
  | queue
  | stats
deriving DecidableEq

/-- The operations, with what decides their lock operations. -/
inductive POp where
  | access
  /-- the prediction is queued -/
  | predict (queued : Bool)
  | recommend
  | score
  | outcome
  | getStats

open Rez.Locks in
/-- The lock operations of `PredictivePreheater`. -/
def pProg : POp → List (Instr PLock)
  -- predictive_preheater.rs:250-262
  | .access => [.acquire .patterns .write] ++ brief .stats .write ++ [.release .patterns .write]
  -- 271-294
  | .predict queued => [.acquire .patterns .read] ++
      (if queued then [.acquire .queue .write] ++ brief .stats .write ++ [.release .queue .write] else []) ++
      [.release .patterns .read]
  -- 299
  | .recommend => brief .queue .write
  -- 345
  | .score => brief .patterns .read
  -- 385
  | .outcome => brief .stats .write
  -- 354-367
  | .getStats => [.acquire .stats .read] ++ brief .patterns .read ++ [.release .stats .read]

end Rez.Preheater
