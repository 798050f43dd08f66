import Verif.Base.Map
import Verif.Model.Requirement
import Mathlib.Data.Rat.Defs
import Mathlib.Algebra.Order.Field.Rat
/-!
# The performance monitor: `rez-next-cache/src/performance_monitor.rs`

Counters are natural numbers: they do not wrap at 2^64, and no latency reaches 2^63 microseconds.  Quotients are rational numbers: the
rounding of `f64` is left out.  Times are parameters; a metadata map, always empty, and the times of events are left out.  The two
targets of percentiles, `(n as f64 * 0.95) as u64` and with `0.99`, are parameters.
-/
namespace Rez.Monitor
open Rez

/-- The kinds of operations with a latency. -/
inductive Kind where
  | get
  | put
  | remove
  | eviction
  deriving DecidableEq

/-- performance_monitor.rs:74-89 `PerformanceEvent`; the types of events that are ever made are the kinds of operations. -/
structure Event where
  kind : Kind
  latency : Nat
  memory : Nat
  deriving DecidableEq

/-- performance_monitor.rs:111-133 `BenchmarkResult`. -/
structure Bench where
  name : Str
  opsPerSecond : ℚ
  avg : ℚ
  p95 : Nat
  p99 : Nat
  memory : Nat
  hitRate : ℚ

/-- performance_monitor.rs:18-50, 139-154 `PerformanceCounters`, `PerformanceMonitor`. -/
structure Monitor where
  ops : Kind → Nat
  total : Kind → Nat
  hits : Nat
  misses : Nat
  allocated : Nat
  peak : Nat
  current : Nat
  read : Nat
  written : Nat
  log : List Event
  histogram : List (Nat × Nat)
  history : List Bench

/-- cache_config.rs:205-207: the configuration that counts here. -/
structure Config where
  logging : Bool
  max : Nat

/-- performance_monitor.rs:158-168 `new`. -/
def Monitor.new : Monitor := ⟨fun _ => 0, fun _ => 0, 0, 0, 0, 0, 0, 0, 0, [], [], []⟩

/-- performance_monitor.rs:335-346 `update_latency_histogram`: the bucket of a latency. -/
def bucket (us : Nat) : Nat := if us = 0 then 0 else 2 ^ (us.log2 + 1)

/-- performance_monitor.rs:344-345. -/
def count (h : List (Nat × Nat)) (us : Nat) : List (Nat × Nat) := mset h (bucket us) ((mget h (bucket us)).getD 0 + 1)

/-- performance_monitor.rs:320-332 `log_event`: the oldest events are dropped. -/
def push (c : Config) (log : List Event) (e : Event) : List Event :=
  if !c.logging then log else (log ++ [e]).drop ((log ++ [e]).length - c.max)

/-- performance_monitor.rs:171-191, 194-214, 217-239, 267-288: recording an operation. -/
def Monitor.record (c : Config) (m : Monitor) (k : Kind) (us : Nat) : Monitor :=
  { m with
    ops := fun j => if j = k then m.ops j + 1 else m.ops j
    total := fun j => if j = k then m.total j + us else m.total j
    histogram := count m.histogram us
    log := if c.logging then push c m.log ⟨k, us, m.current⟩ else m.log }

/-- The calls on a monitor. -/
inductive Call where
  | record (k : Kind) (us : Nat)
  | memory (usage : Nat)
  | disk (read written : Nat)
  | hit
  | miss
  | allocate (bytes : Nat)
  | reset

/-- performance_monitor.rs:242-254 `update_memory_usage`, one at a time. -/
def Monitor.memory (m : Monitor) (usage : Nat) : Monitor :=
  { m with current := usage, peak := if usage > m.peak then usage else m.peak }

/-- performance_monitor.rs:540-581 `reset`: all but the history of benchmarks and the start. -/
def Monitor.reset (m : Monitor) : Monitor := { Monitor.new with history := m.history }

/-- performance_monitor.rs:171-305, 540-581: one call. -/
def Monitor.step (c : Config) (m : Monitor) : Call → Monitor
  | .record k us => m.record c k us
  | .memory u => m.memory u
  | .disk r w => { m with read := m.read + r, written := m.written + w }
  | .hit => { m with hits := m.hits + 1 }
  | .miss => { m with misses := m.misses + 1 }
  | .allocate b => { m with allocated := m.allocated + b }
  | .reset => m.reset

/-- Calls one after another. -/
def Monitor.run (c : Config) (m : Monitor) (calls : List Call) : Monitor := calls.foldl (Monitor.step c) m

/-- `a as f64 / b as f64`, or 0 without a `b`. -/
def quotient (a b : Nat) : ℚ := if b > 0 then (a : ℚ) / (b : ℚ) else 0

/-- performance_monitor.rs:308-317 `hit_rate`. -/
def Monitor.hitRate (m : Monitor) : ℚ := quotient m.hits (m.hits + m.misses)

/-- cache_stats.rs `PerformanceMetrics`. -/
structure Metrics where
  avgGet : ℚ
  avgPut : ℚ
  avgEviction : ℚ
  opsPerSecond : ℚ
  allocationRate : ℚ
  diskRate : ℚ
  cpu : ℚ
  peak : Nat

/-- performance_monitor.rs:348-421 `get_performance_metrics`, `elapsed` seconds after the start. -/
def Monitor.metrics (m : Monitor) (elapsed : ℚ) : Metrics :=
  let perSecond (n : Nat) : ℚ := if elapsed > 0 then (n : ℚ) / elapsed else 0
  { avgGet := quotient (m.total .get) (m.ops .get)
    avgPut := quotient (m.total .put) (m.ops .put)
    avgEviction := quotient (m.total .eviction) (m.ops .eviction)
    opsPerSecond := perSecond (m.ops .get + m.ops .put + m.ops .remove)
    allocationRate := perSecond m.allocated
    diskRate := perSecond (m.read + m.written)
    cpu := if elapsed > 0 then
        min (((m.total .get + m.total .put + m.total .eviction + m.total .remove : Nat) : ℚ) / (elapsed * 1000000) * 100) 100
      else 0
    peak := m.peak }

/-- performance_monitor.rs:508-523: the loop over the buckets. -/
def walk (t95 t99 : Nat) : Nat → Nat → List (Nat × Nat) → Nat × Nat
  | _, p95, [] => (p95, 0)
  | seen, p95, (us, n) :: rest =>
    let seen := seen + n
    let p95 := if p95 = 0 ∧ seen ≥ t95 then us else p95
    if seen ≥ t99 then (p95, us) else walk t95 t99 seen p95 rest

/-- performance_monitor.rs:478-526 `calculate_latency_percentiles`: the average and the two percentiles. -/
def percentiles (t95 t99 : Nat → Nat) (h : List (Nat × Nat)) : ℚ × Nat × Nat :=
  let sorted := h.mergeSort fun a b => a.1 ≤ b.1
  let n := (sorted.map Prod.snd).sum
  if h.isEmpty || n = 0 then (0, 0, 0)
  else
    let sum := (sorted.map fun x => x.1 * x.2).sum
    (quotient sum n, walk (t95 n) (t99 n) 0 0 sorted)

/-- performance_monitor.rs:424-475 `run_benchmark`: what is run makes `calls` and takes `seconds`.  The subtraction of the numbers of
operations panics if it goes below zero. -/
def Monitor.benchmark (c : Config) (t95 t99 : Nat → Nat) (m : Monitor) (name : Str) (calls : List Call) (seconds : ℚ) :
    Outcome (Bench × Monitor) :=
  let start := m.ops .get + m.ops .put
  let m' := Monitor.run c { m with histogram := [] } calls
  let done := m'.ops .get + m'.ops .put
  if done < start then .panic
  else
    let (avg, p95, p99) := percentiles t95 t99 m'.histogram
    let b : Bench := {
      name := name
      opsPerSecond := if seconds > 0 then ((done - start : Nat) : ℚ) / seconds else 0
      avg := avg
      p95 := p95
      p99 := p99
      memory := m'.current
      hitRate := m'.hitRate }
    .ok (b, { m' with history := m'.history ++ [b] })

/-- performance_monitor.rs:529-532 `get_recent_events`. -/
def Monitor.recent (m : Monitor) (limit : Nat) : List Event := m.log.reverse.take limit

/-! ## Threads that report memory at the same time -/

/-- performance_monitor.rs:242-254: where a thread is in `update_memory_usage`. -/
inductive At where
  /-- before line 243 -/
  | start
  /-- before line 248 -/
  | stored
  /-- after line 248, which gave `peak` -/
  | loaded (peak : Nat)
  /-- at the end -/
  | done
  deriving DecidableEq

/-- The two counters and the threads, each with the usage it reports. -/
structure Threads where
  current : Nat
  peak : Nat
  threads : List (Nat × At)

/-- performance_monitor.rs:242-254: one atomic step of thread `i`. -/
def Threads.step (s : Threads) (i : Nat) : Threads :=
  match s.threads[i]? with
  | some (u, .start) => { s with current := u, threads := s.threads.set i (u, .stored) }
  | some (u, .stored) => { s with threads := s.threads.set i (u, .loaded s.peak) }
  | some (u, .loaded p) => { s with peak := if u > p then u else s.peak, threads := s.threads.set i (u, .done) }
  | _ => s

/-- Steps in the order of a schedule. -/
def Threads.run (s : Threads) (schedule : List Nat) : Threads := schedule.foldl Threads.step s

end Rez.Monitor
