import Verif.Base.Map
/-!
# The solver cache

`crates/rez-next-solver/src/cache.rs`.  A key is a `String`, a value (`ResolutionResult`) any type `V`.  An operation
is given the readings of the clock it makes: `none` when the clock stands before 1970, where
`duration_since(UNIX_EPOCH)` is an error.  Counters are natural numbers; their wrap-around at 2^64 is left out, but
`timestamp + ttl` wraps as in a release build.
-/
namespace Rez.SolverCache

/-- cache.rs:102-112 `enum EvictionStrategy`. -/
inductive Strategy where
  | lru
  | lfu
  | fifo
  | ttl
deriving DecidableEq

/-- cache.rs:73-86 `struct SolverCacheConfig`; the fields the cache reads. -/
structure Config where
  maxEntries : Nat
  ttl : Nat
  strategy : Strategy

/-- cache.rs:12-24 `struct SolverCacheEntry`. -/
structure Entry (V : Type) where
  result : V
  timestamp : Nat
  ttl : Nat
  accessCount : Nat
  lastAccess : Nat

/-- cache.rs:127-140 `struct SolverCacheStats`, without the derived hit rate and the memory estimate. -/
structure Stats where
  hits : Nat
  misses : Nat
  entries : Nat
  evictions : Nat
deriving DecidableEq

/-- cache.rs:114-125 `struct SolverCache`. -/
structure Cache (V : Type) where
  entries : List (Str × Entry V)
  order : List Str
  stats : Stats

variable {V : Type}

/-- cache.rs:165-173 `with_config`. -/
def Cache.new : Cache V := ⟨[], [], ⟨0, 0, 0, 0⟩⟩

/-- cache.rs:43-51 `is_valid`, with the `u64` addition of a release build. -/
def Entry.isValid (e : Entry V) (now : Option Nat) : Bool := now.getD 0 ≤ (e.timestamp + e.ttl) % 2 ^ 64

/-- cache.rs:27-41 `new`; `none` is `Err`. -/
def Entry.new (v : V) (ttl : Nat) (now : Option Nat) : Option (Entry V) := now.map fun t => ⟨v, t, ttl, 0, t⟩

/-- cache.rs:63-70 `mark_accessed`. -/
def Entry.markAccessed (e : Entry V) (now : Option Nat) : Entry V :=
  { e with accessCount := e.accessCount + 1, lastAccess := now.getD 0 }

/-- cache.rs:403-406 `remove_from_access_order`. -/
def Cache.forget (c : Cache V) (key : Str) : Cache V := { c with order := c.order.filter fun k => k != key }

/-- cache.rs:392-400 `update_access_order`. -/
def Cache.touch (c : Cache V) (key : Str) : Cache V :=
  { c with order := (c.order.filter fun k => k != key) ++ [key] }

/-- `entries.remove(key)` followed by `remove_from_access_order(key)`. -/
def Cache.drop (c : Cache V) (key : Str) : Cache V := { c with entries := mdel c.entries key }.forget key

/-- cache.rs:302: ten percent, at least one.  `len as f64 * 0.1` truncated is the quotient by ten for every length
below 2^50. -/
def evictCount (len : Nat) : Nat := max 1 (len / 10)

/-- Insertion into a list sorted by `f`. -/
def insertOn (f : Str × Entry V → Nat) (x : Str × Entry V) : List (Str × Entry V) → List (Str × Entry V)
  | [] => [x]
  | y :: l => if f y < f x then y :: insertOn f x l else x :: y :: l

/-- `sort_by` (stable) on the entries, in the order in which the hash map yields them. -/
def sortOn (f : Str × Entry V → Nat) (l : List (Str × Entry V)) : List (Str × Entry V) := l.foldr (insertOn f) []

/-- The keys that an eviction removes (cache.rs:329-388).  `scan` is the order in which the hash map yields its
entries, `now` the reading of the clock when a key is looked at. -/
def victims (cfg : Config) (scan : List (Str × Entry V) → List (Str × Entry V)) (now : Str → Option Nat)
    (c : Cache V) : List Str :=
  let n := evictCount c.entries.length
  match cfg.strategy with
  | .lru => c.order.take n
  | .lfu => ((sortOn (fun e => e.2.accessCount) (scan c.entries)).take n).map Prod.fst
  | .fifo => ((sortOn (fun e => e.2.timestamp) (scan c.entries)).take n).map Prod.fst
  | .ttl => ((scan c.entries).filter fun e => !e.2.isValid (now e.1)).map Prod.fst

/-- cache.rs:301-324 `evict_entries`. -/
def evict (cfg : Config) (scan : List (Str × Entry V) → List (Str × Entry V)) (now : Str → Option Nat)
    (c : Cache V) : Cache V :=
  let d := (victims cfg scan now c).foldl Cache.drop c
  { d with stats := { d.stats with evictions := d.stats.evictions + evictCount c.entries.length } }

/-- What surrounds an operation: how the hash map is scanned and what the clock says, per key looked at. -/
structure Moment (V : Type) where
  scan : List (Str × Entry V) → List (Str × Entry V)
  now : Str → Option Nat

/-- cache.rs:204-220: the first critical section of `put`, under the lock of the entries. -/
def putInsert (cfg : Config) (m : Moment V) (c : Cache V) (key : Str) (v : V) : Cache V :=
  match Entry.new v cfg.ttl (m.now key) with
  | none => c
  | some e =>
    let d := if c.entries.length ≥ cfg.maxEntries then evict cfg m.scan m.now c else c
    { d with entries := mset d.entries key e }

/-- cache.rs:222-232: the rest of `put`. -/
def putFinish (c : Cache V) (key : Str) : Cache V :=
  let d := c.touch key
  { d with stats := { d.stats with entries := d.entries.length } }

/-- cache.rs:204-233 `put`. -/
def put (cfg : Config) (m : Moment V) (c : Cache V) (key : Str) (v : V) : Cache V :=
  match Entry.new v cfg.ttl (m.now key) with
  | none => c
  | some _ => putFinish (putInsert cfg m c key v) key

/-- cache.rs:180-201 `get`. -/
def get (now : Option Nat) (c : Cache V) (key : Str) : Cache V × Option V :=
  match mget c.entries key with
  | none => ({ c with stats := { c.stats with misses := c.stats.misses + 1 } }, none)
  | some e =>
    if e.isValid now then
      let d := { c with entries := mupd c.entries key fun e => e.markAccessed now }.touch key
      ({ d with stats := { d.stats with hits := d.stats.hits + 1 } }, some e.result)
    else
      let d := c.drop key
      ({ d with stats := { d.stats with misses := d.stats.misses + 1 } }, none)

/-- cache.rs:236-248 `remove`. -/
def remove (c : Cache V) (key : Str) : Cache V × Bool :=
  match mget c.entries key with
  | none => (c, false)
  | some _ =>
    let d := c.drop key
    ({ d with stats := { d.stats with entries := d.entries.length } }, true)

/-- cache.rs:251-266 `clear`. -/
def clear (_ : Cache V) : Cache V := Cache.new

/-- The operations.  `cleanup` is missing: it waits for a lock it holds and never returns (`C41_cleanup_false`). -/
inductive Op (V : Type) where
  | put (m : Moment V) (key : Str) (v : V)
  | get (now : Option Nat) (key : Str)
  | remove (key : Str)
  | clear

/-- One operation. -/
def Op.run (cfg : Config) (c : Cache V) : Op V → Cache V
  | .put m k v => SolverCache.put cfg m c k v
  | .get now k => (SolverCache.get now c k).1
  | .remove k => (SolverCache.remove c k).1
  | .clear => SolverCache.clear c

/-- A history of operations, the first one first. -/
def run (cfg : Config) (h : List (Op V)) : Cache V := h.foldl (Op.run cfg) Cache.new

end Rez.SolverCache
