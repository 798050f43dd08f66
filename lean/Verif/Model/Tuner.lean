import Verif.Model.CacheLocks
import Mathlib.Data.Rat.Defs
import Mathlib.Algebra.Order.Ring.Rat
import Mathlib.Algebra.Order.Field.Basic
/-!
# `crates/rez-next-cache/src/adaptive_tuner.rs`: tuning the parameters of the cache

Numbers are exact where the code has `f64`; the average of nothing, which is no number, compares as neither larger nor smaller.
`analyze_and_tune` takes a copy of the history, then makes four analyses, each reading the parameters under a lock of its own, and
then changes the parameters under another: these are the steps of a task here.
-/
namespace Rez.Tuner

/-- What is read of adaptive_tuner.rs:18-41 `PerformanceSnapshot`. -/
structure Snapshot where
  hitRate : ℚ
  memory : ℚ
  latency : ℚ
  evictions : ℚ

/-- What is read of `UnifiedCacheStats`. -/
structure CacheStats where
  hitRate : ℚ
  usage1 : Nat
  max1 : Nat
  latency : ℚ
  evictions1 : Nat
  evictions2 : Nat

/-- adaptive_tuner.rs:171-200. -/
def snapshot (s : CacheStats) : Snapshot :=
  ⟨s.hitRate, if s.max1 > 0 then (s.usage1 : ℚ) / s.max1 * 100 else 0, s.latency, (s.evictions1 : ℚ) + s.evictions2⟩

/-- cache_config.rs `TuningConfig`: the fields that are read. -/
structure Config where
  enabled : Bool
  window : Nat
  minSamples : Nat
  minConfidence : ℚ
  target : ℚ

/-- adaptive_tuner.rs:131-145 `TuningParameters`. -/
structure Params where
  l1 : ℚ
  l2 : ℚ
  promotion : Nat
  eviction : ℚ
  ttl : ℚ
  preheating : ℚ
deriving DecidableEq

/-- adaptive_tuner.rs:147-158. -/
def Params.default : Params := ⟨1, 1, 3, 1 / 2, 1, 3 / 10⟩

/-- The parameters that are recommended. -/
inductive Name where
  | l1
  | l2
  | eviction
  | ttl
deriving DecidableEq

/-- adaptive_tuner.rs:62-76 `TuningRecommendation`. -/
structure Rec where
  name : Name
  current : ℚ
  value : ℚ
  confidence : ℚ
deriving DecidableEq

/-- adaptive_tuner.rs:202-210: the history after a snapshot. -/
def push (c : Config) (h : List Snapshot) (s : Snapshot) : List Snapshot :=
  (h ++ [s]).drop ((h ++ [s]).length - c.window)

/-- The mean of the first three. -/
def mean3 (l : List ℚ) : ℚ := (l.take 3).sum / 3

/-- The mean of all, if there are any. -/
def meanAll (l : List ℚ) : Option ℚ := if l.isEmpty then none else some (l.sum / l.length)

/-- The four analyses. -/
inductive Analysis where
  | hitRate
  | memory
  | latency
  | evictions
deriving DecidableEq

/-- adaptive_tuner.rs:259-295 `analyze_hit_rate`. -/
def analyzeHitRate (c : Config) (h : List Snapshot) (p : Params) : Option Rec :=
  if h.length < 3 then none
  else
    let recent := mean3 (h.reverse.map Snapshot.hitRate)
    let older := mean3 (h.map Snapshot.hitRate)
    if recent < older - 5 / 100 ∧ recent < c.target then some ⟨.l1, p.l1, min (p.l1 * (12 / 10)) 2, 8 / 10⟩ else none

/-- adaptive_tuner.rs:298-340 `analyze_memory_usage`. -/
def analyzeMemory (h : List Snapshot) (p : Params) : Option Rec :=
  match meanAll (h.map Snapshot.memory) with
  | none => none
  | some avg =>
    if avg > 90 then some ⟨.eviction, p.eviction, min (p.eviction + 1 / 10) 1, 9 / 10⟩
    else if avg < 50 then some ⟨.eviction, p.eviction, max (p.eviction - 1 / 10) (1 / 10), 7 / 10⟩
    else none

/-- adaptive_tuner.rs:343-385 `analyze_latency`. -/
def analyzeLatency (h : List Snapshot) (p : Params) : Option Rec :=
  if h.length < 5 then none
  else
    let recent := mean3 (h.reverse.map Snapshot.latency)
    let baseline := mean3 (h.map Snapshot.latency)
    if recent > baseline * (15 / 10) ∧ recent > 1000 then some ⟨.ttl, p.ttl, max (p.ttl * (8 / 10)) (5 / 10), 7 / 10⟩ else none

/-- adaptive_tuner.rs:388-412 `analyze_eviction_patterns`. -/
def analyzeEvictions (h : List Snapshot) (p : Params) : Option Rec :=
  match meanAll (h.map Snapshot.evictions) with
  | none => none
  | some avg => if avg > 100 then some ⟨.l2, p.l2, min (p.l2 * (13 / 10)) 3, 8 / 10⟩ else none

/-- One analysis. -/
def analyze (c : Config) (h : List Snapshot) (p : Params) : Analysis → Option Rec
  | .hitRate => analyzeHitRate c h p
  | .memory => analyzeMemory h p
  | .latency => analyzeLatency h p
  | .evictions => analyzeEvictions h p

/-- adaptive_tuner.rs:232-250: the order of the analyses. -/
def allAnalyses : List Analysis := [.hitRate, .memory, .latency, .evictions]

/-- adaptive_tuner.rs:421-437: setting a parameter. -/
def Params.set (p : Params) (r : Rec) : Params :=
  match r.name with
  | .l1 => { p with l1 := r.value }
  | .l2 => { p with l2 := r.value }
  | .eviction => { p with eviction := r.value }
  | .ttl => { p with ttl := r.value }

/-- adaptive_tuner.rs:415-445 `apply_recommendations`: the parameters and how many were set. -/
def applyRecs (c : Config) (p : Params) (recs : List Rec) : Params × Nat :=
  recs.foldl (fun (acc : Params × Nat) r => if r.confidence ≥ c.minConfidence then (acc.1.set r, acc.2 + 1) else acc) (p, 0)

/-- adaptive_tuner.rs:79-94 `AdaptiveTuningStats`: the counters and the confidence. -/
structure Stats where
  operations : Nat
  successful : Nat
  failed : Nat
  confidence : ℚ

/-- adaptive_tuner.rs:114-127 `AdaptiveTuner`. -/
structure State where
  history : List Snapshot
  params : Params
  stats : Stats

/-- adaptive_tuner.rs:162-170 `new`. -/
def State.new : State := ⟨[], Params.default, ⟨0, 0, 0, 1 / 2⟩⟩

/-- adaptive_tuner.rs:216-229: the copy of the history, if there is anything to analyse. -/
def begin (c : Config) (s : State) : Option (List Snapshot) :=
  if !c.enabled then none else if s.history.length < c.minSamples then none else some s.history

/-- adaptive_tuner.rs:213-256 `analyze_and_tune`, undisturbed: the recommendations and the state after it. -/
def tune (c : Config) (s : State) : List Rec × State :=
  match begin c s with
  | none => ([], s)
  | some h =>
    let recs := allAnalyses.filterMap (analyze c h s.params)
    let r := applyRecs c s.params recs
    (recs, { s with params := r.1, stats := { s.stats with operations := s.stats.operations + r.2 } })

/-- adaptive_tuner.rs:464-484 `record_tuning_outcome`; the average improvement is left out. -/
def outcome (s : State) (improved : Bool) : State :=
  let st := if improved then { s.stats with successful := s.stats.successful + 1 } else { s.stats with failed := s.stats.failed + 1 }
  { s with stats := if st.operations > 0 then { st with confidence := (st.successful : ℚ) / st.operations } else st }

/-- adaptive_tuner.rs:452-461: `success_rate` in `get_stats`. -/
def successRate (s : State) : ℚ := if s.stats.operations > 0 then (s.stats.successful : ℚ) / s.stats.operations else 0

/-- A call of `analyze_and_tune` that has begun. -/
structure Task where
  history : List Snapshot
  recs : List Rec
  todo : List Analysis

/-- The tuner and the calls that have begun. -/
structure System where
  state : State
  tasks : List Task

/-- What happens in any order: snapshots, outcomes, calls that begin, make their next analysis, or set the parameters. -/
inductive Step (c : Config) : System → System → Prop
  | record (y : System) (st : CacheStats) :
      Step c y { y with state := { y.state with history := push c y.state.history (snapshot st) } }
  | outcome (y : System) (improved : Bool) : Step c y { y with state := Tuner.outcome y.state improved }
  | begin (y : System) (h : List Snapshot) : begin c y.state = some h → Step c y { y with tasks := ⟨h, [], allAnalyses⟩ :: y.tasks }
  | analyze (y : System) (before after : List Task) (t : Task) (a : Analysis) (rest : List Analysis) :
      y.tasks = before ++ t :: after → t.todo = a :: rest →
      Step c y { y with tasks := before ++ ⟨t.history, t.recs ++ (analyze c t.history y.state.params a).toList, rest⟩ :: after }
  | apply (y : System) (before after : List Task) (t : Task) : y.tasks = before ++ t :: after → t.todo = [] →
      Step c y ⟨{ y.state with
          params := (applyRecs c y.state.params t.recs).1
          stats := { y.state.stats with operations := y.state.stats.operations + (applyRecs c y.state.params t.recs).2 } },
        before ++ after⟩

/-- What can come up. -/
inductive Reachable (c : Config) : System → Prop
  | start : Reachable c ⟨State.new, []⟩
  | step {y y'} : Reachable c y → Step c y y' → Reachable c y'

/-! ## Locks -/

/-- The locks of `AdaptiveTuner`. -/
inductive TLock where
  | history
  | params
  | stats
deriving DecidableEq

/-- The operations, with the number of recommendations of an analysis. -/
inductive TOp where
  | record
  | tune (recs : Nat)
  /-- too little to analyse -/
  | idle
  | parameters
  | getStats
  | outcome

open Rez.Locks in
/-- The lock operations of `AdaptiveTuner`. -/
def tProg : TOp → List (Instr TLock)
  -- adaptive_tuner.rs:202
  | .record => brief .history .write
  -- 222-228, 278, 303, 360, 398, 416-417
  | .tune n => brief .history .read ++ times n (brief .params .read) ++
      [.acquire .params .write, .acquire .stats .write, .release .stats .write, .release .params .write]
  | .idle => brief .history .read
  -- 449
  | .parameters => brief .params .read
  -- 454
  | .getStats => brief .stats .read
  -- 465
  | .outcome => brief .stats .write

end Rez.Tuner
