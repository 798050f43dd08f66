import Verif.Lemmas.SolverCache
/-!
# C39, C40, C85–C87: the solver cache
-/
namespace Rez.Props
open Rez Rez.Spec Rez.SolverCache
variable {V : Type}

/-- A moment at which the clock says `t`. -/
def at' (t : Nat) : Moment V := ⟨id, fun _ => some t⟩

/-! ## C39 -/

/-- C39, refuted: with the clock before 1970 a `put` is dropped silently, and `get` returns the older value. -/
theorem C39_clock_false :
    (get none (run ⟨10, 60, .lru⟩ [.put (at' 100) c!"k" 1, .put ⟨id, fun _ => none⟩ c!"k" 2]) c!"k").2 = some 1 := by
  decide

/-- C39, partial: after any history in which the clock is readable at each `put`, `get` is a miss or gives exactly the
value of the last `put` of the key not followed by a `remove` or `clear`, within its time to live.  Missing: clocks
before 1970, for which the claim is false. -/
theorem C39_last_put_partial (cfg : Config) (h : List (Op V)) (hc : ClockOk h) (now : Option Nat) (k : Str) :
    (get now (run cfg h) k).2 = none ∨
      ∃ v t, lastPut k h = some (v, t) ∧ (get now (run cfg h) k).2 = some v ∧ now.getD 0 ≤ t + cfg.ttl := by
  unfold SolverCache.get
  cases hk : mget (run cfg h).entries k with
  | none => exact .inl rfl
  | some e =>
    simp only
    by_cases hv : e.isValid now = true
    · rw [if_pos hv]
      obtain ⟨h1, h2⟩ := faithful_run hc k e hk
      refine .inr ⟨e.result, e.timestamp, h1, rfl, ?_⟩
      unfold Entry.isValid at hv
      have := Nat.mod_le (e.timestamp + e.ttl) (2 ^ 64)
      simp only [decide_eq_true_eq] at hv
      rw [← h2]
      omega
    · rw [if_neg hv]; exact .inl rfl

/-- A hit with the last value, and a miss after the time to live. -/
example : let h : List (Op Nat) := [.put (at' 100) c!"k" 1, .put (at' 101) c!"j" 2, .put (at' 130) c!"k" 3]
    (∀ o ∈ h, (match o with | .put m k _ => (m.now k).isSome | _ => true) = true) ∧
    (get (some 190) (run ⟨10, 60, .lru⟩ h) c!"k").2 = some 3 ∧ (get (some 191) (run ⟨10, 60, .lru⟩ h) c!"k").2 = none := by
  decide

/-! ## C40 -/

/-- C40, refuted: with the strategy `TTL` nothing is evicted unless it has expired. -/
theorem C40_ttl_false :
    (run ⟨2, 60, .ttl⟩ [.put (at' 1) c!"a" 0, .put (at' 1) c!"b" 0, .put (at' 1) c!"c" 0]).entries.length = 3 := by decide

/-- C40, refuted: a cache of capacity zero takes an entry, whatever the strategy. -/
theorem C40_zero_false (s : Strategy) : (run ⟨0, 60, s⟩ [.put (at' 1) c!"a" 0]).entries.length = 1 := by
  cases s <;> decide

/-- C40, refuted: two `put`s at a time.  The second inserts before the first has entered its key in the order of use,
so there is nothing to evict. -/
theorem C40_concurrent_false :
    let cfg : Config := ⟨1, 60, .lru⟩
    let c := putInsert cfg (at' 1) (putInsert cfg (at' 1) Cache.new c!"a" 0) c!"b" 1
    (putFinish (putFinish c c!"a") c!"b").entries.length = 2 := by decide

/-- C40, partial: with the strategies LRU, LFU and FIFO and a capacity of at least one, the number of entries never
exceeds the capacity, after any sequence of operations one at a time.  Missing: `TTL`, capacity zero and concurrent
`put`s, for which the claim is false. -/
theorem C40_capacity_partial (cfg : Config) (hs : cfg.strategy ≠ .ttl) (hm : 1 ≤ cfg.maxEntries) (h : List (Op V))
    (hscan : ScansOk h) : (run cfg h).entries.length ≤ cfg.maxEntries := by
  induction h using List.reverseRecOn with
  | nil => exact Nat.zero_le _
  | append_singleton h o ih =>
    have hrun : run cfg (h ++ [o]) = o.run cfg (run cfg h) := by unfold run; rw [List.foldl_append]; rfl
    rw [hrun]
    refine op_length (fun m k v he => hscan m k v ?_) (tidy_run cfg h) hs hm
      (ih fun m k v hmem => hscan m k v (List.mem_append_left _ hmem))
    rw [he]; simp

/-- A history that fills the cache and goes on. -/
example : let h : List (Op Nat) := [.put (at' 1) c!"a" 0, .put (at' 2) c!"b" 0, .get (some 3) c!"a", .put (at' 4) c!"c" 0]
    ScansOk h ∧ mkeys (run ⟨2, 60, .lru⟩ h).entries = [c!"c", c!"a"] := by
  refine ⟨?_, by decide⟩
  intro m k v hm
  simp only [List.mem_cons, Op.put.injEq, List.not_mem_nil, or_false, reduceCtorEq, false_or] at hm
  rcases hm with ⟨rfl, _⟩ | ⟨rfl, _⟩ | ⟨rfl, _⟩ <;> exact fun l => List.Perm.refl l

/-! ## C85 -/

/-- C85: with LRU, an entry that a `put` evicts was last used before every entry that stays. -/
theorem C85_lru (cfg : Config) (hs : cfg.strategy = .lru) (h : List (Op V)) (m : Moment V) (k : Str) (v : V) (a b : Str)
    (ha : a ∈ mkeys (run cfg h).entries) (hgone : a ∉ mkeys (run cfg (h ++ [.put m k v])).entries)
    (hb : b ∈ mkeys (run cfg h).entries) (hstay : b ∈ mkeys (run cfg (h ++ [.put m k v])).entries) (hbk : b ≠ k) :
    UsedAfter (uses cfg h) a b := by
  have hrun : run cfg (h ++ [.put m k v]) = put cfg m (run cfg h) k v := by unfold run; rw [List.foldl_append]; rfl
  rw [hrun] at hgone hstay
  have h1 := put_evicted ha hgone
  have h2 := put_survivor hstay hbk ha hgone
  unfold victims at h1 h2
  rw [hs] at h1 h2
  exact pairwise_take_drop (byUse_run cfg h) h1 (((tidy_run cfg h).same b).mpr hb) h2

/-- C85: with LFU, an entry that a `put` evicts was found no more often since its own `put` than any entry that
stays. -/
theorem C85_lfu (cfg : Config) (hs : cfg.strategy = .lfu) (h : List (Op V)) (m : Moment V) (hm : ScanOk m) (k : Str)
    (v : V) (a b : Str)
    (ha : a ∈ mkeys (run cfg h).entries) (hgone : a ∉ mkeys (run cfg (h ++ [.put m k v])).entries)
    (hb : b ∈ mkeys (run cfg h).entries) (hstay : b ∈ mkeys (run cfg (h ++ [.put m k v])).entries) (hbk : b ≠ k) :
    hits cfg a h ≤ hits cfg b h := by
  have hrun : run cfg (h ++ [.put m k v]) = put cfg m (run cfg h) k v := by unfold run; rw [List.foldl_append]; rfl
  rw [hrun] at hgone hstay
  have h1 := put_evicted ha hgone
  have h2 := put_survivor hstay hbk ha hgone
  unfold victims at h1 h2
  rw [hs] at h1 h2
  obtain ⟨ea, hea⟩ := (mget_isSome_iff _ _).mpr ha
  obtain ⟨eb, heb⟩ := (mget_isSome_iff _ _).mpr hb
  have := sorted_victims hm (tidy_run cfg h).keys h1 h2 hea heb
  rw [← counts_run cfg h a ea hea, ← counts_run cfg h b eb heb]
  exact this

/-- C85: with FIFO, an entry that a `put` evicts was put no later, by the clock, than any entry that stays. -/
theorem C85_fifo (cfg : Config) (hs : cfg.strategy = .fifo) (h : List (Op V)) (hc : ClockOk h) (m : Moment V)
    (hm : ScanOk m) (k : Str) (v : V) (a b : Str)
    (ha : a ∈ mkeys (run cfg h).entries) (hgone : a ∉ mkeys (run cfg (h ++ [.put m k v])).entries)
    (hb : b ∈ mkeys (run cfg h).entries) (hstay : b ∈ mkeys (run cfg (h ++ [.put m k v])).entries) (hbk : b ≠ k) :
    ∃ va ta vb tb, lastPut a h = some (va, ta) ∧ lastPut b h = some (vb, tb) ∧ ta ≤ tb := by
  have hrun : run cfg (h ++ [.put m k v]) = put cfg m (run cfg h) k v := by unfold run; rw [List.foldl_append]; rfl
  rw [hrun] at hgone hstay
  have h1 := put_evicted ha hgone
  have h2 := put_survivor hstay hbk ha hgone
  unfold victims at h1 h2
  rw [hs] at h1 h2
  obtain ⟨ea, hea⟩ := (mget_isSome_iff _ _).mpr ha
  obtain ⟨eb, heb⟩ := (mget_isSome_iff _ _).mpr hb
  have := sorted_victims hm (tidy_run cfg h).keys h1 h2 hea heb
  exact ⟨_, _, _, _, (faithful_run hc a ea hea).1, (faithful_run hc b eb heb).1, this⟩

/-- Each strategy evicts another entry. -/
example : let h : List (Op Nat) := [.put (at' 5) c!"a" 0, .put (at' 4) c!"b" 0, .get (some 6) c!"a", .get (some 6) c!"b", .get (some 6) c!"b"]
    mkeys (run ⟨2, 60, .lru⟩ (h ++ [.put (at' 7) c!"c" 0])).entries = [c!"c", c!"b"] ∧
    mkeys (run ⟨2, 60, .lfu⟩ (h ++ [.put (at' 7) c!"c" 0])).entries = [c!"c", c!"b"] ∧
    mkeys (run ⟨2, 60, .fifo⟩ (h ++ [.put (at' 7) c!"c" 0])).entries = [c!"c", c!"a"] := by decide

/-! ## C86 -/

/-- C86, refuted: a `get` that drops an expired entry leaves the number of entries in the statistics as it was. -/
theorem C86_entries_false :
    let c := run ⟨2, 60, .lru⟩ [.put (at' 1) c!"a" 0, .get (some 100) c!"a"]
    c.stats.entries = 1 ∧ c.entries.length = 0 := by decide

/-- C86, refuted: evictions are counted that did not take place. -/
theorem C86_evictions_false :
    let c := run ⟨1, 60, .ttl⟩ [.put (at' 1) c!"a" 0, .put (at' 1) c!"b" 0]
    c.stats.evictions = 1 ∧ c.entries.length = 2 := by decide

theorem evict_lookups (cfg : Config) (scan : List (Str × Entry V) → List (Str × Entry V)) (now : Str → Option Nat)
    (c : Cache V) : (evict cfg scan now c).stats.hits = c.stats.hits ∧ (evict cfg scan now c).stats.misses = c.stats.misses := by
  unfold evict
  simp only [foldDrop_stats, and_self]

/-- C86, partial: hits and misses add up to the lookups since the cache was made or cleared.  Missing: the numbers of
entries and of evictions, which can be wrong. -/
theorem C86_lookups_partial (cfg : Config) (h : List (Op V)) :
    (run cfg h).stats.hits + (run cfg h).stats.misses = lookups h := by
  induction h using List.reverseRecOn with
  | nil => rfl
  | append_singleton h o ih =>
    have hrun : run cfg (h ++ [o]) = o.run cfg (run cfg h) := by unfold run; rw [List.foldl_append]; rfl
    rw [hrun]
    cases o with
    | put m k v =>
      have hl : lookups (h ++ [.put m k v]) = lookups h := by unfold lookups; rw [List.foldl_append]; rfl
      rw [hl, ← ih]
      simp only [Op.run, put]
      split
      · rfl
      · rename_i e he
        simp only [putFinish, Cache.touch, putInsert, he]
        split
        · rw [(evict_lookups _ _ _ _).1, (evict_lookups _ _ _ _).2]
        · rfl
    | get now k =>
      have hl : lookups (h ++ [.get now k]) = lookups h + 1 := by unfold lookups; rw [List.foldl_append]; rfl
      rw [hl, ← ih]
      simp only [Op.run, SolverCache.get]
      split
      · simp only; omega
      · split
        · simp only [Cache.touch]; omega
        · simp only [Cache.drop, Cache.forget]; omega
    | remove k =>
      have hl : lookups (h ++ [.remove k]) = lookups h := by unfold lookups; rw [List.foldl_append]; rfl
      rw [hl, ← ih]
      simp only [Op.run, remove]
      split
      · rfl
      · rfl
    | clear =>
      have hl : lookups (h ++ [.clear]) = 0 := by unfold lookups; rw [List.foldl_append]; rfl
      rw [hl]; rfl

/-- Hits and misses. -/
example : let h : List (Op Nat) := [.put (at' 1) c!"a" 0, .get (some 2) c!"a", .get (some 2) c!"b"]
    (run ⟨2, 60, .lru⟩ h).stats = ⟨1, 1, 1, 0⟩ ∧ lookups h = 2 := by decide

/-! ## C87 -/

/-- C87, refuted: with a time to live of 2^64 - 1 ("for ever") the sum wraps around and the value is gone at once. -/
theorem C87_overflow_false :
    (get (some 100) (run ⟨10, 2 ^ 64 - 1, .lru⟩ [.put (at' 100) c!"k" 1]) c!"k").2 = none := by decide

/-- The operation neither replaces nor removes the key, does not look it up after `until`, and evicts nothing. -/
def Spares (cfg : Config) (c : Cache V) (key : Str) (tUntil : Nat) : Op V → Prop
  | .put _ k _ => k ≠ key ∧ c.entries.length < cfg.maxEntries
  | .get now k => k = key → now.getD 0 ≤ tUntil
  | .remove k => k ≠ key
  | .clear => False

/-- C87, partial: a value that was put is found until its time has passed, as long as it is not replaced, removed,
cleared or evicted.  Missing: times beyond 2^64, for which the claim is false. -/
theorem C87_found_partial (cfg : Config) (h h' : List (Op V)) (m : Moment V) (k : Str) (v : V) (t : Nat)
    (ht : m.now k = some t) (hover : t + cfg.ttl < 2 ^ 64)
    (hs : ∀ pre o post, h' = pre ++ o :: post → Spares cfg (run cfg (h ++ .put m k v :: pre)) k (t + cfg.ttl) o)
    (now : Option Nat) (hnow : now.getD 0 ≤ t + cfg.ttl) :
    (get now (run cfg (h ++ .put m k v :: h')) k).2 = some v := by
  have key : ∃ e, mget (run cfg (h ++ .put m k v :: h')).entries k = some e ∧ e.result = v ∧ e.timestamp = t ∧
      e.ttl = cfg.ttl := by
    induction h' using List.reverseRecOn with
    | nil =>
      have hrun : run cfg (h ++ [.put m k v]) = put cfg m (run cfg h) k v := by unfold run; rw [List.foldl_append]; rfl
      rw [hrun, put_entries]
      unfold putInsert
      rw [ht]
      simp only [Entry.new, Option.map_some, mget_mset, if_true]
      exact ⟨_, rfl, rfl, rfl, rfl⟩
    | append_singleton h' o ih =>
      obtain ⟨e, he, h1, h2, h3⟩ := ih fun pre o' post hp => hs pre o' (post ++ [o]) (by rw [hp]; simp)
      have hsp := hs h' o [] rfl
      have hrun : run cfg (h ++ .put m k v :: (h' ++ [o])) = o.run cfg (run cfg (h ++ .put m k v :: h')) := by
        unfold run
        rw [← List.cons_append, ← List.append_assoc, List.foldl_append]
        rfl
      rw [hrun]
      cases o with
      | put m' k' v' =>
        obtain ⟨hk, hlen⟩ := hsp
        simp only [Op.run, put_entries]
        unfold putInsert
        split
        · exact ⟨e, he, h1, h2, h3⟩
        · simp only [mget_mset, if_neg (Ne.symm hk)]
          rw [if_neg (by omega)]
          exact ⟨e, he, h1, h2, h3⟩
      | get now' k' =>
        simp only [Op.run, SolverCache.get]
        split
        · exact ⟨e, he, h1, h2, h3⟩
        · rename_i e' he'
          split
          · simp only [Cache.touch, mget_mupd]
            by_cases hk : k = k'
            · rw [if_pos hk, he]; exact ⟨_, rfl, h1, h2, h3⟩
            · rw [if_neg hk]; exact ⟨e, he, h1, h2, h3⟩
          · rename_i hv
            simp only [mget_drop]
            by_cases hk : k = k'
            · exfalso
              subst hk
              rw [he] at he'
              cases he'
              have hle := hsp rfl
              apply hv
              unfold Entry.isValid
              rw [h2, h3, Nat.mod_eq_of_lt hover]
              simpa using hle
            · rw [if_neg hk]; exact ⟨e, he, h1, h2, h3⟩
      | remove k' =>
        simp only [Op.run, remove_entries]
        rw [if_neg (Ne.symm hsp)]
        exact ⟨e, he, h1, h2, h3⟩
      | clear => exact hsp.elim
  obtain ⟨e, he, h1, h2, h3⟩ := key
  unfold SolverCache.get
  rw [he]
  simp only
  rw [if_pos]
  · rw [h1]
  · unfold Entry.isValid
    rw [h2, h3, Nat.mod_eq_of_lt hover]
    simpa using hnow

/-- A value found at the last moment, after other operations. -/
example : (get (some 160) (run ⟨3, 60, .lru⟩ [.put (at' 100) c!"k" 1, .put (at' 101) c!"j" 2, .get (some 102) c!"k",
    .remove c!"j"]) c!"k").2 = some 1 := by decide

end Rez.Props
