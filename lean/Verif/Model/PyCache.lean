import Verif.Model.Payload
import Verif.Model.Handle
/-!
# The payload cache as seen from Python

`crates/rez-next-python/src/package_cache_bindings.rs`, and the parts of
`crates/rez-next-package/src/package_cache.rs` that go over the whole cache.  A cache is its hash directories, each at its
place below the root; `Model/Payload.lean` models the work in one of them.  A directory that is not there and an empty one
are the same here.  Names and versions are taken to be single components of a path.  Handles are compared for equality,
the code compares their texts (see C94).
-/
namespace Rez.PyCache
open Rez.Payload Rez.Handle

deriving instance DecidableEq for Handle.Handle

/-- package_cache.rs:49-73 `CacheStatus`. -/
inductive CacheStatus where
  | notFound | found | created | copying | copyStalled | pending | removed | skipped
  deriving DecidableEq

/-- The statuses of `Model/Payload.lean` among them. -/
def ofStatus : Payload.Status → CacheStatus
  | .notFound => .notFound
  | .found => .found
  | .created => .created
  | .copying => .copying
  | .copyStalled => .copyStalled
  | .removed => .removed
  | .skipped => .skipped

/-- package_cache.rs:77-90 `CacheStatus::description`. -/
def description : CacheStatus → Str
  | .notFound => c!"was not found"
  | .found => c!"was found"
  | .created => c!"was created"
  | .copying => c!"payload is still being copied to cache"
  | .copyStalled => c!"payload copy has stalled (see docs for cleaning instructions)"
  | .pending => c!"is pending caching"
  | .removed => c!"was deleted"
  | .skipped => c!"is not being cached due to cache size limit"

/-- package_cache_bindings.rs:296-305, 331-340, 351-360, 383-392: the code of a status (four times the same match). -/
def code : CacheStatus → Int
  | .notFound => 0
  | .found => 1
  | .created => 2
  | .copying => 3
  | .copyStalled => 4
  | .pending => 5
  | .removed => 6
  | .skipped => 7

/-- package_cache_bindings.rs:154-167 `CacheStatus.description(code)`. -/
def descriptionOf (k : Int) : Str :=
  description
    (if k = 0 then .notFound
    else if k = 1 then .found
    else if k = 2 then .created
    else if k = 3 then .copying
    else if k = 4 then .copyStalled
    else if k = 5 then .pending
    else if k = 6 then .removed
    else if k = 7 then .skipped
    else .notFound)

/-- package_cache_bindings.rs:172-189 `CacheStatus.STATUS_DESCRIPTIONS`. -/
def statusDescriptions : List (Int × Str) :=
  [(0, c!"was not found"), (1, c!"was found"), (2, c!"was created"), (3, c!"payload is still being copied to cache"),
    (4, c!"payload copy has stalled (see docs for cleaning instructions)"), (5, c!"is pending caching"),
    (6, c!"was deleted"), (7, c!"is not being cached due to cache size limit")]

/-- package_cache_bindings.rs:104-150: the attributes of the class `CacheStatus`. -/
def attributes : List (Str × Int) :=
  [(c!"NOT_FOUND", 0), (c!"FOUND", 1), (c!"CREATED", 2), (c!"COPYING", 3), (c!"COPY_STALLED", 4), (c!"PENDING", 5),
    (c!"REMOVED", 6), (c!"SKIPPED", 7)]

/-- package_cache_bindings.rs:444-451: the constants of the module. -/
def constants : List (Str × Int) :=
  [(c!"VARIANT_NOT_FOUND", 0), (c!"VARIANT_FOUND", 1), (c!"VARIANT_CREATED", 2), (c!"VARIANT_COPYING", 3),
    (c!"VARIANT_COPY_STALLED", 4), (c!"VARIANT_PENDING", 5), (c!"VARIANT_REMOVED", 6), (c!"VARIANT_SKIPPED", 7)]

/-- package_cache_bindings.rs:31-35 `VariantHandle(name, version, index)`; package_cache.rs:145-152. -/
def newHandle (name : Str) (version : Option Str) (index : Option Nat) : Handle.Handle := ⟨name, version, index, []⟩

/-- Where a hash directory is: `<root>/<name>/<version>/<hash>`. -/
structure Place where
  name : Str
  version : Str
  hash : Str
  deriving DecidableEq

/-- package_cache.rs:309-320 `hash_path`; `sha` is the hexadecimal SHA1 of a text.  `to_lowercase` is modelled on the
characters that `lowerChar` covers. -/
def place (sha : Str → Str) (h : Handle.Handle) : Place :=
  ⟨h.name.map lowerChar, (h.version.getD c!"_NO_VERSION").map lowerChar, (sha (Handle.repr h)).take 4⟩

/-- The cache: its hash directories, in the order in which the nested `read_dir`s come to them. -/
abbrev Cache (F C : Type) := List (Place × Bucket Handle.Handle F C)

variable {F C : Type} [DecidableEq F]

/-- The hash directory at a place. -/
def bucket (c : Cache F C) (p : Place) : Bucket Handle.Handle F C := (mget c p).getD ⟨[], [], []⟩

/-- What the operations are given from outside: SHA1, the clock, and the order in which a hash directory is listed. -/
structure World (F C : Type) where
  sha : Str → Str
  now : Nat
  scan : Bucket Handle.Handle F C → List Str

/-- A path to a payload: the hash directory and the increment in it. -/
abbrev PayloadPath := Place × Str

/-- package_cache_bindings.rs:294-308 `get_cached_root`: the code, the path, and the cache afterwards. -/
def getCachedRoot (w : World F C) (c : Cache F C) (h : Handle.Handle) : Int × Option PayloadPath × Cache F C :=
  let p := place w.sha h
  let b := bucket c p
  let r := getCached w.now (w.scan b) b h
  (code (ofStatus r.1), r.2.1.map fun i => (p, i), if r.2.2.isEmpty then c else mset c p (applyAll b r.2.2))

/-- package_cache_bindings.rs:319-343 `add_variant`: a code and a path (for a variant that is skipped, its hash directory
alone), or `RuntimeError` when the source is no directory.  `space` is the outcome of the space check; failures of the
file system while copying are not modelled. -/
def addVariant (w : World F C) (c : Cache F C) (h : Handle.Handle) (source : Option (List (F × C))) (space : Bool)
    (force : Option Bool) : Option (Int × Place × Option Str × Cache F C) :=
  match source with
  | none => none
  | some src =>
    let p := place w.sha h
    let b := bucket c p
    let r := Payload.addVariant w.now (w.scan b) (force.getD false || space) b h src
    some (code (ofStatus r.1), p, r.2.1, if r.2.2.isEmpty then c else mset c p (applyAll b r.2.2))

/-- package_cache_bindings.rs:349-363 `remove_variant`. -/
def removeVariant (w : World F C) (c : Cache F C) (h : Handle.Handle) : Int × Option PayloadPath × Cache F C :=
  let p := place w.sha h
  let b := bucket c p
  let r := Payload.removeVariant w.now (w.scan b) b h
  (code (ofStatus r.1), r.2.1.map fun i => (p, i), if r.2.2.isEmpty then c else mset c p (applyAll b r.2.2))

/-- package_cache_bindings.rs:374-381: what a listed variant shows of its handle. -/
structure Shown where
  name : Str
  version : Option Str
  index : Option Nat
  deriving DecidableEq

/-- package_cache_bindings.rs:60-71, 374-381. -/
def toDict (h : Handle.Handle) : Shown := ⟨h.name, h.version, h.index⟩

/-- package_cache.rs:567-571. -/
def listStatus (b : Bucket Handle.Handle F C) (inc : Str) : CacheStatus :=
  if (mget b.payloads inc).isSome then .found else .pending

/-- package_cache_bindings.rs:369-399 `list_cached`; package_cache.rs:528-584, which passes over directories below the
root whose name begins with a dot. -/
def listCached (w : World F C) (c : Cache F C) : List (Shown × PayloadPath × Int) :=
  c.flatMap fun e =>
    if e.1.name.head? = some '.' then []
    else (listed (w.scan e.2) e.2).map fun p => (toDict p.2, (e.1, p.1), code (listStatus e.2 p.1))

end Rez.PyCache
