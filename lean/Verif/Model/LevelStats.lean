import Mathlib.Data.Rat.Defs
import Mathlib.Algebra.Order.Field.Rat
/-!
# Statistics and entries of the cache: `rez-next-cache/src/{cache_stats,unified_cache}.rs`

Counters are natural numbers: they do not wrap at 2^64.  Numbers of type `f64` are rational numbers: rounding is left out.  The logarithm
is a parameter.  The time stamps of statistics and `summary_report` are left out.
-/
namespace Rez.LevelStats

/-! ## Statistics -/

/-- cache_stats.rs:51-72 `CacheLevelStats`. -/
structure Level where
  hits : Nat
  misses : Nat
  entries : Nat
  capacity : Nat
  usage : Nat
  maxUsage : Nat
  evictions : Nat
  hitRate : ℚ
  loadFactor : ℚ
  avgSize : ℚ

/-- cache_stats.rs:93-98 `update_hit_rate`. -/
def Level.updateHitRate (l : Level) : Level :=
  if l.hits + l.misses > 0 then { l with hitRate := (l.hits : ℚ) / ((l.hits + l.misses : Nat) : ℚ) } else l

/-- cache_stats.rs:101-105 `update_load_factor`. -/
def Level.updateLoadFactor (l : Level) : Level :=
  if l.capacity > 0 then { l with loadFactor := (l.entries : ℚ) / (l.capacity : ℚ) } else l

/-- cache_stats.rs:108-112 `update_avg_entry_size`. -/
def Level.updateAvgSize (l : Level) : Level :=
  if l.entries > 0 then { l with avgSize := (l.usage : ℚ) / (l.entries : ℚ) } else l

/-- cache_stats.rs:115-119 `update_calculated_fields`. -/
def Level.update (l : Level) : Level := l.updateHitRate.updateLoadFactor.updateAvgSize

/-- cache_stats.rs:124-143 `OverallCacheStats`. -/
structure Overall where
  hits : Nat
  misses : Nat
  hitRate : ℚ
  entries : Nat
  memory : Nat
  disk : Nat
  efficiency : ℚ
  promotions : Nat

/-- cache_stats.rs:15-30 `UnifiedCacheStats`: the levels, the overall statistics, what is used of the performance metrics, and the
stability score. -/
structure Stats where
  l1 : Level
  l2 : Level
  overall : Overall
  getLatency : ℚ
  stability : ℚ

/-- cache_stats.rs:276-304 `update_overall_stats`. -/
def Stats.update (s : Stats) : Stats :=
  let hits := s.l1.hits + s.l2.hits
  let misses := s.l1.misses + s.l2.misses
  let rate := if hits + misses > 0 then (hits : ℚ) / ((hits + misses : Nat) : ℚ) else s.overall.hitRate
  let memory : ℚ := if s.l1.maxUsage > 0 then 1 - (s.l1.usage : ℚ) / (s.l1.maxUsage : ℚ) else 1
  { s with overall := { s.overall with
      hits := hits
      misses := misses
      hitRate := rate
      entries := s.l1.entries + s.l2.entries
      memory := s.l1.usage
      disk := s.l2.usage
      efficiency := (rate + memory) / 2 } }

/-- cache_stats.rs:328-332 `is_performing_well`. -/
def Stats.well (s : Stats) (target : ℚ) : Bool :=
  s.overall.hitRate ≥ target && s.overall.efficiency ≥ 7 / 10 && s.stability ≥ 8 / 10

/-! ## Entries -/

/-- unified_cache.rs:166-173 `CacheLevel`. -/
inductive Tier where
  | l1
  | l2
  | l3
  deriving DecidableEq

/-- unified_cache.rs:177-183 `speed_rank`. -/
def Tier.speed : Tier → Nat
  | .l1 => 1
  | .l2 => 2
  | .l3 => 3

/-- unified_cache.rs:186-192 `capacity_rank`. -/
def Tier.capacity : Tier → Nat
  | .l1 => 1
  | .l2 => 2
  | .l3 => 3

/-- unified_cache.rs:76-91 `CacheEntryMetadata`, with the value of unified_cache.rs:197-202 `CacheEntry`. -/
structure Entry (V : Type) where
  value : V
  created : Nat
  accessed : Nat
  count : Nat
  ttl : Nat
  size : Nat
  tier : Tier
  priority : ℚ

variable {V : Type}

/-- unified_cache.rs:95-110, 206-211 `new`, at the time `now` in seconds. -/
def Entry.new (v : V) (ttl size : Nat) (tier : Tier) (now : Nat) : Entry V := ⟨v, now, now, 0, ttl, size, tier, 1⟩

/-- unified_cache.rs:113-119, 214-217 `access`: the value and the entry after it. -/
def Entry.access (e : Entry V) (now : Nat) : V × Entry V := (e.value, { e with count := e.count + 1, accessed := now })

/-- unified_cache.rs:122-128 `is_expired`. -/
def Entry.expired (e : Entry V) (now : Nat) : Bool := now > e.created + e.ttl

/-- unified_cache.rs:131-138 `retention_score`; the logarithm of 0 is below every number, so that of it and 1 the greater is 1. -/
def Entry.retention (ln : Nat → ℚ) (e : Entry V) : ℚ :=
  let age := 1 / (1 + ((e.accessed : ℚ) - (e.created : ℚ)) / 3600)
  let frequency := if e.count = 0 then 1 else max (ln e.count) 1
  let size := 1 / (1 + (e.size : ℚ) / 1024)
  e.priority * frequency * age * size

end Rez.LevelStats
