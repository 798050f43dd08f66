import Verif.Base.Map
/-!
# The repository cache

`crates/rez-next-repository/src/cache.rs`, `RepositoryCache`.  Operations run one at a time here; their locks are in
`Model/CacheLocks.lean`.  The cache directory exists and writes to it succeed; a cache file is named after the key, which
contains no path separator.
-/
namespace Rez.RepoCache

/-- A source file: nanoseconds since 1970 of its modification, and its text. -/
structure File where
  mtime : Nat
  content : Str

/-- What the operations see of the world: the seconds since 1970 (`none` when the clock stands before) and the source
files. -/
structure World where
  now : Option Nat
  file : Str → Option File

/-- cache.rs:15-27 `struct CacheEntry`. -/
structure Entry (P : Type) where
  package : P
  timestamp : Nat
  ttl : Nat
  path : Str
  mtime : Nat

variable {P : Type}

/-- cache.rs:30-53 `CacheEntry::new`: `none` is an error. -/
def Entry.new (w : World) (package : P) (path : Str) (ttl : Nat) : Option (Entry P) :=
  match w.now, w.file path with
  | some now, some f => some ⟨package, now, ttl, path, f.mtime / 10 ^ 9⟩
  | _, _ => none

/-- cache.rs:56-76 `is_valid`; `timestamp + ttl` wraps. -/
def Entry.isValid (w : World) (e : Entry P) : Bool :=
  if w.now.getD 0 > (e.timestamp + e.ttl) % 2 ^ 64 then false
  else match w.file e.path with
    | some f => decide (f.mtime / 10 ^ 9 ≤ e.mtime)
    | none => true

/-- cache.rs:91-104: the fields of `CacheConfig` that are read.  `maxEntries` is never read. -/
structure Config where
  ttl : Nat
  cleanupInterval : Nat
  maxEntries : Nat

/-- cache.rs:121-143: the index, the cache files (by key, each `<key>.json`) and the statistics. -/
structure Cache (P : Type) where
  index : List (Str × Entry P)
  disk : List (Str × Entry P)
  hits : Nat
  misses : Nat
  entries : Nat
  lastCleanup : Option Nat

/-- cache.rs:147-153 `new`, in an empty directory. -/
def Cache.new : Cache P := ⟨[], [], 0, 0, 0, none⟩

/-- cache.rs:173-190 `get`. -/
def get (w : World) (c : Cache P) (k : Str) : Cache P × Option P :=
  match mget c.index k with
  | some e =>
    if e.isValid w then ({ c with hits := c.hits + 1 }, some e.package)
    else ({ c with index := mdel c.index k, disk := mdel c.disk k, misses := c.misses + 1 }, none)
  | none => ({ c with misses := c.misses + 1 }, none)

/-- cache.rs:278-308 `cleanup`. -/
def cleanup (w : World) (c : Cache P) : Cache P :=
  let expired := (c.index.filter fun p => !p.2.isValid w).map Prod.fst
  let index := expired.foldl mdel c.index
  { c with index := index, disk := expired.foldl mdel c.disk, entries := index.length, lastCleanup := some (w.now.getD 0) }

/-- cache.rs:311-330 `cleanup_if_needed`. -/
def cleanupIfNeeded (cfg : Config) (w : World) (c : Cache P) : Cache P :=
  match c.lastCleanup with
  | none => cleanup w c
  | some last => if w.now.getD 0 > (last + cfg.cleanupInterval) % 2 ^ 64 then cleanup w c else c

/-- cache.rs:193-223 `put`: an error leaves the cache as it is. -/
def put (cfg : Config) (w : World) (c : Cache P) (k : Str) (package : P) (path : Str) : Cache P × Bool :=
  match Entry.new w package path cfg.ttl with
  | none => (c, false)
  | some e =>
    let index := mset c.index k e
    (cleanupIfNeeded cfg w { c with disk := mset c.disk k e, index := index, entries := index.length }, true)

/-- cache.rs:226-238 `remove`. -/
def remove (c : Cache P) (k : Str) : Cache P × Bool :=
  match mget c.index k with
  | none => (c, false)
  | some _ => ({ c with index := mdel c.index k, disk := mdel c.disk k, entries := (mdel c.index k).length }, true)

/-- cache.rs:241-269 `clear`. -/
def clear (_ : Cache P) : Cache P := Cache.new

/-- cache.rs:156-170, 333-349: a new process over the same directory.  Nothing writes an index, so `index.json` exists
exactly when a package was cached under the key `index`; its text is one entry, which is not a map of entries, and
`initialize` fails (`none`). -/
def restart (c : Cache P) : Option (Cache P) :=
  match mget c.disk c!"index" with
  | some _ => none
  | none => some { Cache.new with disk := c.disk }

/-- The operations, each with the world it meets. -/
inductive Op (P : Type) where
  | put (w : World) (k : Str) (package : P) (path : Str)
  | get (w : World) (k : Str)
  | remove (k : Str)
  | cleanup (w : World)
  | clear

/-- One operation. -/
def Op.run (cfg : Config) (c : Cache P) : Op P → Cache P
  | .put w k package path => (RepoCache.put cfg w c k package path).1
  | .get w k => (RepoCache.get w c k).1
  | .remove k => (RepoCache.remove c k).1
  | .cleanup w => RepoCache.cleanup w c
  | .clear => RepoCache.clear c

/-- A history, the first operation first. -/
def run (cfg : Config) (h : List (Op P)) : Cache P := h.foldl (Op.run cfg) Cache.new

end Rez.RepoCache
