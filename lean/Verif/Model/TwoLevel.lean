import Verif.Base.Map
/-!
# The two-level cache

`crates/rez-next-cache/src/intelligent_manager.rs`, `IntelligentCacheManager`.  Keys and values are any types.  Times are
nanoseconds.  Statistics, the preheater, the tuner and the monitor are left out: they are written by the operations but
never read by them (`predict_and_preheat` only records predictions).  `DashMap` and `HashMap` are association lists.
-/
namespace Rez.TwoLevel

/-- intelligent_manager.rs:23-41 `struct MultiLevelCacheEntry`; the size is the same for all entries, the level is the
map an entry is in. -/
structure Entry (V : Type) where
  value : V
  created : Nat
  accessed : Nat
  count : Nat
  ttl : Nat

/-- The fields of `UnifiedCacheConfig` that the operations read. -/
structure Config where
  max1 : Nat
  max2 : Nat
  ttl : Nat
  promotion : Nat

variable {K V : Type} [DecidableEq K]

/-- intelligent_manager.rs:60-71 `is_valid`: a clock that went back makes an entry invalid. -/
def Entry.isValid (e : Entry V) (now : Nat) : Bool :=
  e.ttl == 0 || (decide (e.created ≤ now) && decide ((now - e.created) / 10 ^ 9 < e.ttl))

/-- intelligent_manager.rs:74-77 `mark_accessed`. -/
def Entry.mark (e : Entry V) (now : Nat) : Entry V := { e with accessed := now, count := e.count + 1 }

/-- The two maps. -/
structure Cache (K V : Type) where
  l1 : List (K × Entry V)
  l2 : List (K × Entry V)

/-- intelligent_manager.rs:121-137 `new`. -/
def Cache.new : Cache K V := ⟨[], []⟩

/-- The time, and the keys of a map sorted by priority, the lowest first (intelligent_manager.rs:80-91, 255-266,
285-296: floating-point arithmetic on age and access count over the map in hash order; the order is left open). -/
structure Moment (K V : Type) where
  now : Nat
  order : List (K × Entry V) → List K

/-- `(len as f64 * 0.1).max(1.0) as usize`. -/
def evictCount (len : Nat) : Nat := max 1 (len / 10)

/-- intelligent_manager.rs:282-304 `evict_l2_entries`. -/
def evictL2 (m : Moment K V) (c : Cache K V) : Cache K V :=
  { c with l2 := ((m.order c.l2).take (evictCount c.l2.length)).foldl mdel c.l2 }

/-- intelligent_manager.rs:216-249 `demote_to_l2`. -/
def demote (cfg : Config) (m : Moment K V) (c : Cache K V) (k : K) (e : Entry V) : Cache K V :=
  let c := if c.l2.length ≥ cfg.max2 then evictL2 m c else c
  { c with l2 := mset c.l2 k e, l1 := mdel c.l1 k }

/-- intelligent_manager.rs:271: a victim is taken out of the first level. -/
def take (c : Cache K V) (k : K) : Cache K V × Option (Entry V) := ({ c with l1 := mdel c.l1 k }, mget c.l1 k)

/-- intelligent_manager.rs:273-275: and moved to the second if it was used. -/
def settle (cfg : Config) (m : Moment K V) (c : Cache K V) (k : K) : Option (Entry V) → Cache K V
  | none => c
  | some e => if e.count > 1 then demote cfg m c k e else c

/-- intelligent_manager.rs:269-276: one victim. -/
def evictOne (cfg : Config) (m : Moment K V) (c : Cache K V) (k : K) : Cache K V :=
  settle cfg m (take c k).1 k (take c k).2

/-- intelligent_manager.rs:252-279 `evict_l1_entries`. -/
def evictL1 (cfg : Config) (m : Moment K V) (c : Cache K V) : Cache K V :=
  ((m.order c.l1).take (evictCount c.l1.length)).foldl (evictOne cfg m) c

/-- intelligent_manager.rs:191-193, 444-446: room is made in the first level. -/
def makeRoom (cfg : Config) (m : Moment K V) (c : Cache K V) : Cache K V :=
  if c.l1.length ≥ cfg.max1 then evictL1 cfg m c else c

/-- intelligent_manager.rs:195-204: the entry is moved up. -/
def raise (m : Moment K V) (c : Cache K V) (k : K) (e : Entry V) : Cache K V :=
  { l1 := mset c.l1 k (e.mark m.now), l2 := mdel c.l2 k }

/-- intelligent_manager.rs:185-213 `promote_to_l1`. -/
def promote (cfg : Config) (m : Moment K V) (c : Cache K V) (k : K) (e : Entry V) : Cache K V :=
  raise m (makeRoom cfg m c) k e

/-- intelligent_manager.rs:377-413: the second level. -/
def getL2 (cfg : Config) (m : Moment K V) (c : Cache K V) (k : K) : Cache K V × Option V :=
  match mget c.l2 k with
  | none => (c, none)
  | some e =>
    if e.isValid m.now then
      let e := e.mark m.now
      if e.count ≥ cfg.promotion then (promote cfg m { c with l2 := mdel c.l2 k } k e, some e.value)
      else ({ c with l2 := mset c.l2 k e }, some e.value)
    else ({ c with l2 := mdel c.l2 k }, none)

/-- intelligent_manager.rs:349-429 `get`. -/
def get (cfg : Config) (m : Moment K V) (c : Cache K V) (k : K) : Cache K V × Option V :=
  match mget c.l1 k with
  | some e =>
    if e.isValid m.now then ({ c with l1 := mset c.l1 k (e.mark m.now) }, some e.value)
    else getL2 cfg m { c with l1 := mdel c.l1 k } k
  | none => getL2 cfg m c k

/-- intelligent_manager.rs:448-449: the new entry, made before room is. -/
def enter (cfg : Config) (m : Moment K V) (c : Cache K V) (k : K) (v : V) : Cache K V :=
  { c with l1 := mset c.l1 k ⟨v, m.now, m.now, 1, cfg.ttl⟩ }

/-- intelligent_manager.rs:432-462 `put`. -/
def put (cfg : Config) (m : Moment K V) (c : Cache K V) (k : K) (v : V) : Cache K V :=
  enter cfg m (makeRoom cfg m c) k v

/-- intelligent_manager.rs:465-479 `remove`. -/
def remove (c : Cache K V) (k : K) : Cache K V × Bool :=
  (⟨mdel c.l1 k, mdel c.l2 k⟩, (mget c.l1 k).isSome || (mget c.l2 k).isSome)

/-- `if let Some(entry) = … { entry.is_valid() }`. -/
def validAt (now : Nat) : Option (Entry V) → Bool
  | some e => e.isValid now
  | none => false

/-- intelligent_manager.rs:482-497 `contains_key`. -/
def containsKey (m : Moment K V) (c : Cache K V) (k : K) : Bool :=
  validAt m.now (mget c.l1 k) || validAt m.now (mget c.l2 k)

/-- intelligent_manager.rs:506-521 `clear`. -/
def clear (_ : Cache K V) : Cache K V := Cache.new

/-- intelligent_manager.rs:524-531 `size`. -/
def size (c : Cache K V) : Nat := c.l1.length + c.l2.length

/-- The operations. -/
inductive Op (K V : Type) where
  | put (m : Moment K V) (k : K) (v : V)
  | get (m : Moment K V) (k : K)
  | remove (k : K)
  | clear

/-- One operation. -/
def Op.run (cfg : Config) (c : Cache K V) : Op K V → Cache K V
  | .put m k v => TwoLevel.put cfg m c k v
  | .get m k => (TwoLevel.get cfg m c k).1
  | .remove k => (TwoLevel.remove c k).1
  | .clear => TwoLevel.clear c

/-- A history, the first operation first. -/
def run (cfg : Config) (h : List (Op K V)) : Cache K V := h.foldl (Op.run cfg) Cache.new

end Rez.TwoLevel
