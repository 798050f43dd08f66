import Verif.Base.Map
/-!
# The package cache in memory and on disk

`crates/rez-next-package-cache/src/lib.rs`.  Times are nanoseconds.  Writing an entry as JSON and reading it back gives
the entry; a file that was not completely written is not JSON.  Reading and writing files of the cache directory
succeeds.
-/
namespace Rez.FileCache

/-- What the operations see: the clock, and the modification time of each source file that can be read. -/
structure World where
  now : Nat
  mtime : Str → Option Nat

/-- lib.rs:38-53 `struct CachedPackage`; name, version and data are one value. -/
structure Cached (D : Type) where
  data : D
  path : Str
  mtime : Nat
  cachedAt : Nat
  ttl : Option Nat

variable {D : Type}

/-- lib.rs:60-88 `is_valid`. -/
def Cached.isValid (e : Cached D) (w : World) (source : Nat) : Bool :=
  if (decide (e.mtime ≤ source) && decide ((source - e.mtime) / 10 ^ 9 > 0)) ||
      (decide (source ≤ e.mtime) && decide ((e.mtime - source) / 10 ^ 9 > 0)) then false
  else match e.ttl with
    | none => true
    | some ttl => decide (e.cachedAt ≤ w.now) && decide (w.now - e.cachedAt ≤ ttl)

/-- lib.rs:164-168, 259-262: the source can be read and the entry is valid. -/
def usable (w : World) (path : Str) (e : Cached D) : Bool :=
  match w.mtime path with
  | some t => e.isValid w t
  | none => false

/-- lib.rs:130-133 `struct InMemoryCache`. -/
structure Mem (D : Type) where
  store : List (Str × Cached D)
  hits : Nat
  misses : Nat

/-- lib.rs:137-142 `new`. -/
def Mem.new : Mem D := ⟨[], 0, 0⟩

/-- lib.rs:156-182 `get`. -/
def Mem.get (w : World) (m : Mem D) (path : Str) : Mem D × Option (Cached D) :=
  match mget m.store path with
  | some e =>
    if usable w path e then ({ m with hits := m.hits + 1 }, some e)
    else ({ m with store := mdel m.store path, hits := m.hits + 1, misses := m.misses + 1 }, none)
  | none => ({ m with misses := m.misses + 1 }, none)

/-- A cache file: an entry, or the remains of a write that was cut short. -/
inductive OnDisk (D : Type) where
  | whole (e : Cached D)
  | torn

/-- lib.rs:216-219 `struct FileCache`; the files are listed by name. -/
structure Cache (D : Type) where
  mem : Mem D
  disk : List (Nat × OnDisk D)

/-- lib.rs:223-230 `new`, in an empty directory. -/
def Cache.new : Cache D := ⟨Mem.new, []⟩

variable (hash : Str → Nat)

/-- lib.rs:247-274 `get`; `none` is an error.  `hash` is lib.rs:233-243 `cache_file_path`. -/
def get (w : World) (c : Cache D) (path : Str) : Cache D × Option (Option (Cached D)) :=
  let (mem, found) := c.mem.get w path
  match found with
  | some e => ({ c with mem := mem }, some (some e))
  | none =>
    match mget c.disk (hash path) with
    | none => ({ c with mem := mem }, some none)
    | some .torn => ({ c with mem := mem }, none)
    | some (.whole e) =>
      if usable w path e then ({ c with mem := { mem with store := mset mem.store path e } }, some (some e))
      else ({ mem := mem, disk := mdel c.disk (hash path) }, some none)

/-- lib.rs:276-286 `put`. -/
def put (c : Cache D) (path : Str) (e : Cached D) : Cache D :=
  { mem := { c.mem with store := mset c.mem.store path e }, disk := mset c.disk (hash path) (.whole e) }

/-- lib.rs:288-299 `remove`. -/
def remove (c : Cache D) (path : Str) : Cache D :=
  { mem := { c.mem with store := mdel c.mem.store path }, disk := mdel c.disk (hash path) }

/-- lib.rs:301-315 `clear`. -/
def clear (c : Cache D) : Cache D := { mem := { c.mem with store := [] }, disk := [] }

/-- lib.rs:381-403 `put_package`: the entry it makes. -/
def packageEntry (w : World) (ttl : Option Nat) (path : Str) (data : D) : Cached D :=
  ⟨data, path, (w.mtime path).getD w.now, w.now, ttl⟩

/-- Where a process can die inside `put`: before the file is touched, or between its truncation and the end of the
write. -/
inductive CrashAt where
  | before
  | during
  deriving DecidableEq

/-- The operations, a restart of the process, and crashes. -/
inductive Op (D : Type) where
  | put (path : Str) (e : Cached D)
  | get (w : World) (path : Str)
  | remove (path : Str)
  | clear
  | restart
  | crashPut (path : Str) (e : Cached D) (at_ : CrashAt)
  | crashClear (gone : List Nat)

/-- One operation; after a crash the memory is gone. -/
def Op.run (c : Cache D) : Op D → Cache D
  | .put path e => FileCache.put hash c path e
  | .get w path => (FileCache.get hash w c path).1
  | .remove path => FileCache.remove hash c path
  | .clear => FileCache.clear c
  | .restart => { c with mem := Mem.new }
  | .crashPut _ _ .before => { c with mem := Mem.new }
  | .crashPut path _ .during => { mem := Mem.new, disk := mset c.disk (hash path) .torn }
  | .crashClear gone => { mem := Mem.new, disk := gone.foldl mdel c.disk }

/-- A history, the first operation first. -/
def run (h : List (Op D)) : Cache D := h.foldl (Op.run hash) Cache.new

end Rez.FileCache
