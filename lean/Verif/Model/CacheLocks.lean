import Verif.Model.Locks
/-!
# The lock operations of the caches

The locks each operation of `SolverCache` and `RepositoryCache` takes and drops, in program order.  A guard bound by
`let` is dropped at the end of its block, the last one first.
-/
namespace Rez.Locks

/-- The locks of `SolverCache` (cache.rs:114-125). -/
inductive SLock where
  | entries
  | order
  | stats
deriving DecidableEq

/-- A guard that is dropped at once. -/
def brief {L : Type} (l : L) (m : Mode) : List (Instr L) := [.acquire l m, .release l m]

/-- `n` times the same. -/
def times {L : Type} : Nat → List (Instr L) → List (Instr L)
  | 0, _ => []
  | n + 1, p => p ++ times n p

/-- The operations of `SolverCache`, with what decides their lock operations. -/
inductive SOp where
  /-- `touched`: the key is present, fresh or not -/
  | get (touched : Bool)
  /-- no eviction -/
  | put
  /-- `evict_lru` of `n` keys -/
  | putLru (n : Nat)
  /-- another eviction of `n` keys -/
  | putEvict (n : Nat)
  | remove (found : Bool)
  | clear
  | getStats
  /-- `n` keys have expired -/
  | cleanup (n : Nat)

/-- rez-next-solver/src/cache.rs:222-232: the part of `put` after the insertion; `estimate_memory_usage` (409-422)
reads the entries again. -/
def sPutTail : List (Instr SLock) :=
  brief .order .write ++ [.acquire .stats .write] ++ brief .entries .read ++ brief .entries .read ++ [.release .stats .write]

/-- The lock operations of `SolverCache`. -/
def sProg : SOp → List (Instr SLock)
  -- cache.rs:180-201
  | .get touched => [.acquire .entries .write, .acquire .stats .write] ++
      (if touched then brief .order .write else []) ++ [.release .stats .write, .release .entries .write]
  -- cache.rs:204-233
  | .put => brief .entries .write ++ sPutTail
  -- and cache.rs:301-324, 327-342
  | .putLru n => [.acquire .entries .write] ++ brief .order .read ++ times n (brief .order .write) ++
      brief .stats .write ++ [.release .entries .write] ++ sPutTail
  -- and cache.rs:301-324, 345-388
  | .putEvict n => [.acquire .entries .write] ++ times n (brief .order .write) ++
      brief .stats .write ++ [.release .entries .write] ++ sPutTail
  -- cache.rs:236-248
  | .remove found => [.acquire .entries .write] ++
      (if found then brief .order .write ++ brief .stats .write else []) ++ [.release .entries .write]
  -- cache.rs:251-266
  | .clear => brief .entries .write ++ brief .order .write ++ brief .stats .write
  -- cache.rs:269-272
  | .getStats => brief .stats .read
  -- cache.rs:275-298
  | .cleanup n => [.acquire .entries .write] ++ times n (brief .order .write) ++
      [.acquire .stats .write] ++ brief .entries .read ++ [.release .stats .write, .release .entries .write]

/-- The locks of `RepositoryCache` (rez-next-repository/src/cache.rs:121-129). -/
inductive RLock where
  | index
  | stats
deriving DecidableEq

/-- The operations of `RepositoryCache`. -/
inductive ROp where
  | get
  /-- `cleanup`: the cleanup interval has passed -/
  | put (cleanup : Bool)
  | remove (found : Bool)
  | clear
  | getStats
  | cleanup
  | load

/-- The lock operations of `RepositoryCache`. -/
def rProg : ROp → List (Instr RLock)
  -- cache.rs:173-190
  | .get => [.acquire .index .write, .acquire .stats .write, .release .stats .write, .release .index .write]
  -- cache.rs:193-223, 311-330 `cleanup_if_needed`, 278-308
  | .put cleanup => brief .index .write ++ [.acquire .stats .write] ++ brief .index .read ++ [.release .stats .write] ++
      brief .stats .read ++
      (if cleanup then [.acquire .index .write] ++ brief .stats .write ++ [.release .index .write] else [])
  -- cache.rs:226-238
  | .remove found => [.acquire .index .write] ++ (if found then brief .stats .write else []) ++ [.release .index .write]
  -- cache.rs:241-269
  | .clear => brief .index .write ++ brief .stats .write
  -- cache.rs:272-275
  | .getStats => brief .stats .read
  -- cache.rs:278-308
  | .cleanup => [.acquire .index .write] ++ brief .stats .write ++ [.release .index .write]
  -- cache.rs:333-349
  | .load => brief .index .write

end Rez.Locks
