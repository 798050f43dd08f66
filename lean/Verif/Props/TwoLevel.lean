import Verif.Lemmas.TwoLevel
/-!
# The two-level cache: C42, C43, C44, C88
-/
namespace Rez.Props
open Rez Rez.TwoLevel Rez.Spec.TwoLevel
variable {K V : Type} [DecidableEq K]

/-! ## Data -/

/-- All keys in the order of the map, at time `t` seconds. -/
def mom (t : Nat) : Moment Nat Nat := ⟨t * 10 ^ 9, mkeys⟩

theorem mom_ok (t : Nat) : MomentOk (mom t) := fun _ => List.Perm.refl _

/-- A cache of two and two entries, an hour, promoted at the third use. -/
def small : TwoLevel.Config := ⟨2, 2, 3600, 3⟩

/-- Key 1 is put and used, then pushed down by two others. -/
def pushed : List (TwoLevel.Op Nat Nat) :=
  [.put (mom 0) 1 10, .get (mom 1) 1, .put (mom 2) 2 20, .get (mom 3) 2, .put (mom 4) 3 30]

example : (TwoLevel.run small pushed).l1.map Prod.fst = [3, 1] ∧ (TwoLevel.run small pushed).l2.map Prod.fst = [2] := by
  decide +kernel

/-! ## C42 -/

/-- C42 is false: `put` leaves the copy of the key in the second level.  When the new value is pushed out of the first
level before it was used, it is dropped, and the old value is served. -/
theorem C42_overwrite_false : ∃ (cfg : TwoLevel.Config) (h : List (TwoLevel.Op Nat Nat)) (m : Moment Nat Nat) (k : Nat),
    cfg.max1 ≥ 1 ∧ cfg.max2 ≥ 1 ∧ MomentsOk h ∧ lastPut k h = some (11, 4 * 10 ^ 9) ∧
      (TwoLevel.get cfg m (TwoLevel.run cfg h) k).2 = some 10 := by
  refine ⟨⟨1, 1, 3600, 5⟩, [.put (mom 0) 1 10, .get (mom 1) 1, .put (mom 2) 2 20, .put (mom 4) 1 11, .put (mom 5) 2 21],
    mom 6, 1, by decide, by decide, ⟨?_, ?_⟩, by decide +kernel, by decide +kernel⟩
  · intro m k v hm
    simp only [List.mem_cons, TwoLevel.Op.put.injEq, reduceCtorEq, List.not_mem_nil, or_false, false_or] at hm
    rcases hm with ⟨rfl, _⟩ | ⟨rfl, _⟩ | ⟨rfl, _⟩ | ⟨rfl, _⟩ <;> exact mom_ok _
  · intro m k hm
    simp only [List.mem_cons, TwoLevel.Op.get.injEq, reduceCtorEq, List.not_mem_nil, or_false, false_or] at hm
    obtain ⟨rfl, _⟩ := hm; exact mom_ok _

/-- What holds of every history: a lookup returns something that was put for that key since it was last removed, and
that has not expired.  Missing from C42: that it is the last such put. -/
theorem C42_some_put_partial (cfg : TwoLevel.Config) (h : List (TwoLevel.Op K V)) (m : Moment K V) (k : K) (v : V)
    (hg : (TwoLevel.get cfg m (TwoLevel.run cfg h) k).2 = some v) :
    ∃ t, (v, t) ∈ putsSince k h ∧ Fresh cfg t m.now := by
  obtain ⟨e, ⟨h1, h2⟩, rfl, hv⟩ := get_sound (all_run cfg h) hg
  exact ⟨e.created, h1, valid_fresh h2 hv⟩

example : (TwoLevel.get small (mom 5) (TwoLevel.run small pushed) 2).2 = some 20 := by decide +kernel

/-- With keys that are removed before they are put again, C42 holds.  Missing: keys that are put again. -/
theorem C42_no_overwrite_partial (cfg : TwoLevel.Config) (h : List (TwoLevel.Op K V)) (hn : NoOverwrite h) (m : Moment K V)
    (k : K) (v : V) (hg : (TwoLevel.get cfg m (TwoLevel.run cfg h) k).2 = some v) :
    ∃ t, lastPut k h = some (v, t) ∧ Fresh cfg t m.now := by
  obtain ⟨t, h1, h2⟩ := C42_some_put_partial cfg h m k v hg
  have hlen := putsSince_single hn k
  refine ⟨t, ?_, h2⟩
  rw [lastPut]
  rcases hp : putsSince k h with _ | ⟨a, _ | ⟨b, l⟩⟩
  · rw [hp] at h1; cases h1
  · rw [hp] at h1; simp at h1; simp [← h1]
  · rw [hp] at hlen; simp at hlen

/-- Removed and put again, in a cache that moves entries down and up. -/
example : (TwoLevel.get small (mom 8) (TwoLevel.run small (pushed ++ [.get (mom 5) 2, .remove 2, .put (mom 7) 2 22])) 2).2
    = some 22 := by decide +kernel

/-- As long as the first level has room, C42 holds even for keys put again.  Missing: histories that evict. -/
theorem C42_roomy_partial (cfg : TwoLevel.Config) (h : List (TwoLevel.Op K V)) (hr : Roomy cfg h) (m : Moment K V)
    (k : K) (v : V) (hg : (TwoLevel.get cfg m (TwoLevel.run cfg h) k).2 = some v) :
    ∃ t, lastPut k h = some (v, t) ∧ Fresh cfg t m.now := by
  have hp := plain_run hr
  have hall : All (fun k e => lastPut k h = some (e.value, e.created) ∧ e.ttl = cfg.ttl) (TwoLevel.run cfg h) :=
    ⟨hp.2, fun k e he => by rw [hp.1] at he; cases he⟩
  obtain ⟨e, ⟨h1, h2⟩, rfl, hv⟩ := get_sound hall hg
  exact ⟨e.created, h1, valid_fresh h2 hv⟩

/-- And with no expiry the lookup returns exactly the last put. -/
theorem C42_exact_partial (cfg : TwoLevel.Config) (ht : cfg.ttl = 0) (h : List (TwoLevel.Op K V)) (hr : Roomy cfg h)
    (m : Moment K V) (k : K) :
    (TwoLevel.get cfg m (TwoLevel.run cfg h) k).2 = (lastPut k h).map Prod.fst := by
  rcases hg : (TwoLevel.get cfg m (TwoLevel.run cfg h) k).2 with _ | v
  · rcases hl : lastPut k h with _ | ⟨v, t⟩
    · rfl
    · obtain ⟨e, he, _⟩ := kept_run ht hr hl
      have hv : e.isValid m.now = true := by
        simp [TwoLevel.Entry.isValid, ((plain_run hr).2 k e he).2, ht]
      have := get_hit cfg m (TwoLevel.run cfg h) k
      rw [hg, containsKey, he] at this
      simp [validAt, hv] at this
  · obtain ⟨t, h1, _⟩ := C42_roomy_partial cfg h hr m k v hg
    rw [h1]; rfl

/-- Three operations in a first level of four. -/
def roomyDemo : List (TwoLevel.Op Nat Nat) := [.put (mom 0) 1 10, .put (mom 1) 2 20, .put (mom 2) 1 11]

theorem roomyDemo_ok : Roomy ⟨4, 1, 0, 3⟩ roomyDemo := by
  intro pre o post he
  have hlen := congrArg List.length he
  simp [roomyDemo] at hlen
  have hpre : pre = roomyDemo.take pre.length := by rw [he]; simp
  have hl : pre.length = 0 ∨ pre.length = 1 ∨ pre.length = 2 := by omega
  rcases hl with h | h | h <;> rw [hpre, h] <;> decide +kernel

example : (TwoLevel.get ⟨4, 1, 0, 3⟩ (mom 9) (TwoLevel.run ⟨4, 1, 0, 3⟩ roomyDemo) 1).2 = some 11 := by decide +kernel

/-- In any state, a value just put is found while it is fresh. -/
theorem C42_just_put (cfg : TwoLevel.Config) (c : TwoLevel.Cache K V) (m m' : Moment K V) (k : K) (v : V)
    (hf : Fresh cfg m.now m'.now) : (TwoLevel.get cfg m' (TwoLevel.put cfg m c k v) k).2 = some v := by
  have hv : TwoLevel.Entry.isValid (⟨v, m.now, m.now, 1, cfg.ttl⟩ : TwoLevel.Entry V) m'.now = true :=
    fresh_valid (cfg := cfg) rfl hf
  simp only [TwoLevel.put, enter, TwoLevel.get, mget_mset, if_true, hv]

example : (TwoLevel.get small (mom 3599) (TwoLevel.put small (mom 0) (TwoLevel.run small pushed) 1 11) 1).2 = some 11 :=
  C42_just_put small _ _ _ _ _ (.inr ⟨by decide, by decide⟩)

/-- In any state, a value that was served is served again at the same moment, also when the lookup moved it up. -/
theorem C42_served_again (cfg : TwoLevel.Config) (c : TwoLevel.Cache K V) (m m' : Moment K V) (hm : m'.now = m.now) (k : K)
    (v : V) (hg : (TwoLevel.get cfg m c k).2 = some v) :
    (TwoLevel.get cfg m' (TwoLevel.get cfg m c k).1 k).2 = some v := by
  have hmark : ∀ (e : TwoLevel.Entry V), (e.mark m.now).isValid m'.now = e.isValid m.now := by
    intro e; rw [hm]; rfl
  have hval : ∀ (e : TwoLevel.Entry V), (e.mark m.now).value = e.value := fun _ => rfl
  have h2 : ∀ d : TwoLevel.Cache K V, mget d.l1 k = none → (getL2 cfg m d k).2 = some v →
      (TwoLevel.get cfg m' (getL2 cfg m d k).1 k).2 = some v := by
    intro d hd hg
    unfold getL2 at hg ⊢
    rcases he : mget d.l2 k with _ | e
    · rw [he] at hg; simp at hg
    · rw [he] at hg
      simp only at hg ⊢
      by_cases hv : e.isValid m.now = true
      · rw [if_pos hv] at hg ⊢
        by_cases hp : (e.mark m.now).count ≥ cfg.promotion
        · rw [if_pos hp] at hg ⊢
          have hv' : (e.mark m.now).isValid m.now = true := hv
          simp only [promote, raise, TwoLevel.get, mget_mset, if_true, hmark, hv']
          exact hg
        · rw [if_neg hp] at hg ⊢
          simp only [TwoLevel.get, hd, getL2, mget_mset, if_true, hmark, hv]
          split <;> exact hg
      · rw [if_neg hv] at hg; simp at hg
  unfold TwoLevel.get at hg
  rcases he : mget c.l1 k with _ | e
  · rw [he] at hg
    have : TwoLevel.get cfg m c k = getL2 cfg m c k := by unfold TwoLevel.get; rw [he]
    rw [this]; exact h2 c he hg
  · rw [he] at hg; simp only at hg
    by_cases hv : e.isValid m.now = true
    · have : TwoLevel.get cfg m c k = ({ c with l1 := mset c.l1 k (e.mark m.now) }, some e.value) := by
        unfold TwoLevel.get; rw [he]; simp only; rw [if_pos hv]
      rw [if_pos hv] at hg
      rw [this]
      simp only [TwoLevel.get, mget_mset, if_true, hmark, hv]; exact hg
    · have : TwoLevel.get cfg m c k = getL2 cfg m { c with l1 := mdel c.l1 k } k := by
        unfold TwoLevel.get; rw [he]; simp only; rw [if_neg hv]
      rw [if_neg hv] at hg
      rw [this]
      exact h2 { c with l1 := mdel c.l1 k } (by simp [mget_mdel]) hg

/-- The lookup moves the key up. -/
example : let c := TwoLevel.run small pushed
    (TwoLevel.get small (mom 5) c 2).2 = some 20 ∧ (mget (TwoLevel.get small (mom 5) c 2).1.l1 2).isSome = true ∧
      (TwoLevel.get small (mom 5) (TwoLevel.get small (mom 5) c 2).1 2).2 = some 20 := by decide +kernel

/-! ## C43 -/

/-- With limits of at least one, neither level is ever over its limit, whatever is evicted. -/
theorem C43_capacity_partial (cfg : TwoLevel.Config) (h1 : 1 ≤ cfg.max1) (h2 : 1 ≤ cfg.max2) (h : List (TwoLevel.Op K V))
    (hm : MomentsOk h) :
    (TwoLevel.run cfg h).l1.length ≤ cfg.max1 ∧ (TwoLevel.run cfg h).l2.length ≤ cfg.max2 :=
  within_run h1 h2 hm

theorem pushed_ok : MomentsOk pushed := by
  refine ⟨?_, ?_⟩
  · intro m k v hm
    simp only [pushed, List.mem_cons, TwoLevel.Op.put.injEq, reduceCtorEq, List.not_mem_nil, or_false, false_or] at hm
    rcases hm with ⟨rfl, _⟩ | ⟨rfl, _⟩ | ⟨rfl, _⟩ <;> exact mom_ok _
  · intro m k hm
    simp only [pushed, List.mem_cons, TwoLevel.Op.get.injEq, reduceCtorEq, List.not_mem_nil, or_false, false_or] at hm
    rcases hm with ⟨rfl, _⟩ | ⟨rfl, _⟩ <;> exact mom_ok _

example : (TwoLevel.run small pushed).l1.length ≤ 2 ∧ (TwoLevel.run small pushed).l2.length ≤ 2 :=
  C43_capacity_partial small (by decide) (by decide) pushed pushed_ok

/-- A limit of zero is not kept, on either level. -/
theorem C43_zero_false :
    (∃ (cfg : TwoLevel.Config) (h : List (TwoLevel.Op Nat Nat)), cfg.max1 = 0 ∧ (TwoLevel.run cfg h).l1.length = 1) ∧
    ∃ (cfg : TwoLevel.Config) (h : List (TwoLevel.Op Nat Nat)), cfg.max2 = 0 ∧ (TwoLevel.run cfg h).l2.length = 1 :=
  ⟨⟨⟨0, 1, 0, 3⟩, [.put (mom 0) 1 10], rfl, by decide +kernel⟩,
    ⟨1, 0, 0, 3⟩, [.put (mom 0) 1 10, .get (mom 1) 1, .put (mom 2) 2 20], rfl, by decide +kernel⟩

/-- Two tasks that put at the same time overrun the limit: both find room, then both enter. -/
theorem C43_concurrent_false : ∃ (cfg : TwoLevel.Config) (h : List (TwoLevel.Op Nat Nat)) (m : Moment Nat Nat),
    let c := TwoLevel.run cfg h
    makeRoom cfg m c = c ∧
      (enter cfg m (enter cfg m (makeRoom cfg m (makeRoom cfg m c)) 2 20) 3 30).l1.length > cfg.max1 := by
  refine ⟨⟨2, 2, 0, 3⟩, [.put (mom 0) 1 10], mom 1, rfl, by decide +kernel⟩

/-! ## C44 -/

theorem not_put_run {cfg : TwoLevel.Config} (key : K) (h : List (TwoLevel.Op K V)) (hn : ∀ o ∈ h, NotPut key o)
    {c : TwoLevel.Cache K V} (hc : All (fun k _ => k ≠ key) c) : All (fun k _ => k ≠ key) (h.foldl (TwoLevel.Op.run cfg) c) := by
  induction h generalizing c with
  | nil => exact hc
  | cons o h ih =>
    refine ih (fun o ho => hn o (by simp [ho])) ?_
    have ho := hn o (by simp)
    rcases o with ⟨m, k, v⟩ | ⟨m, k⟩ | k | _
    · exact all_put hc cfg m ho
    · exact all_get (fun _ _ _ hp => hp) hc cfg m k
    · exact ⟨mdel_all hc.1 k, mdel_all hc.2 k⟩
    · exact all_new _

theorem absent_of {cfg : TwoLevel.Config} {key : K} {c : TwoLevel.Cache K V} (hc : All (fun k _ => k ≠ key) c)
    (m : Moment K V) : (TwoLevel.get cfg m c key).2 = none ∧ containsKey m c key = false := by
  have hg : (TwoLevel.get cfg m c key).2 = none := by
    rcases hg : (TwoLevel.get cfg m c key).2 with _ | v
    · rfl
    · obtain ⟨e, h1, _⟩ := get_sound hc hg
      exact absurd rfl h1
  exact ⟨hg, by rw [← get_hit cfg, hg]; rfl⟩

/-- C44, one operation at a time: after `remove` a key is absent until it is put. -/
theorem C44_remove (cfg : TwoLevel.Config) (before after : List (TwoLevel.Op K V)) (key : K)
    (hn : ∀ o ∈ after, NotPut key o) (m : Moment K V) :
    let c := TwoLevel.run cfg (before ++ .remove key :: after)
    (TwoLevel.get cfg m c key).2 = none ∧ containsKey m c key = false := by
  simp only [TwoLevel.run, List.foldl_append, List.foldl_cons]
  refine absent_of (not_put_run key after hn ?_) m
  have : ∀ (l : List (K × TwoLevel.Entry V)) k e, mget (mdel l key) k = some e → k ≠ key := by
    intro l k e he hk
    rw [mget_mdel, if_pos hk] at he; cases he
  exact ⟨this _, this _⟩

/-- C44, one operation at a time: after `clear` every key is absent until it is put. -/
theorem C44_clear (cfg : TwoLevel.Config) (before after : List (TwoLevel.Op K V)) (key : K)
    (hn : ∀ o ∈ after, NotPut key o) (m : Moment K V) :
    let c := TwoLevel.run cfg (before ++ .clear :: after)
    (TwoLevel.get cfg m c key).2 = none ∧ containsKey m c key = false := by
  simp only [TwoLevel.run, List.foldl_append, List.foldl_cons]
  exact absent_of (not_put_run key after hn (all_new _)) m

example : (TwoLevel.get small (mom 9) (TwoLevel.run small pushed) 2).2 = some 20 ∧
    (TwoLevel.get small (mom 9) (TwoLevel.run small (pushed ++ .remove 2 :: [.put (mom 5) 4 40, .get (mom 6) 2])) 2).2 = none :=
  ⟨by decide +kernel, (C44_remove small pushed [.put (mom 5) 4 40, .get (mom 6) 2] 2
    (by simp [NotPut]) (mom 9)).1⟩

/-- With two tasks C44 is false: one evicts the key, which is then in neither level; the other removes it, finds nothing
and returns; the first puts it in the second level, where it is found. -/
theorem C44_concurrent_false : ∃ (cfg : TwoLevel.Config) (h : List (TwoLevel.Op Nat Nat)) (m : Moment Nat Nat) (k : Nat),
    let c := TwoLevel.run cfg h
    let taken := TwoLevel.take c k
    let removed := TwoLevel.remove taken.1 k
    containsKey m c k = true ∧ removed.2 = false ∧
      (TwoLevel.get cfg m (settle cfg m removed.1 k taken.2) k).2 = some 10 :=
  ⟨⟨2, 2, 0, 5⟩, [.put (mom 0) 1 10, .get (mom 1) 1], mom 2, 1, by decide +kernel, by decide +kernel, by decide +kernel⟩

/-! ## C88 -/

/-- C88: `contains_key` says whether a lookup at that moment returns a value, in any state. -/
theorem C88_contains (cfg : TwoLevel.Config) (m : Moment K V) (c : TwoLevel.Cache K V) (k : K) :
    containsKey m c k = true ↔ ∃ v, (TwoLevel.get cfg m c k).2 = some v := by
  rw [← get_hit cfg, Option.isSome_iff_exists]

example : containsKey (mom 5) (TwoLevel.run small pushed) 2 = true ∧ containsKey (mom 5) (TwoLevel.run small pushed) 7 = false := by
  decide +kernel

/-- `size` counts a key twice when it is in both levels. -/
theorem C88_size_false : ∃ (cfg : TwoLevel.Config) (h : List (TwoLevel.Op Nat Nat)), MomentsOk h ∧
    (∀ k, containsKey (mom 9) (TwoLevel.run cfg h) k = true → k = 1) ∧ TwoLevel.size (TwoLevel.run cfg h) = 2 := by
  refine ⟨⟨1, 1, 0, 5⟩, [.put (mom 0) 1 10, .get (mom 1) 1, .put (mom 2) 2 20, .put (mom 3) 1 11], ⟨?_, ?_⟩, ?_, by decide +kernel⟩
  · intro m k v hm
    simp only [List.mem_cons, TwoLevel.Op.put.injEq, reduceCtorEq, List.not_mem_nil, or_false, false_or] at hm
    rcases hm with ⟨rfl, _⟩ | ⟨rfl, _⟩ | ⟨rfl, _⟩ <;> exact mom_ok _
  · intro m k hm
    simp only [List.mem_cons, TwoLevel.Op.get.injEq, reduceCtorEq, List.not_mem_nil, or_false, false_or] at hm
    obtain ⟨rfl, _⟩ := hm; exact mom_ok _
  · have h1 : (TwoLevel.run (⟨1, 1, 0, 5⟩ : TwoLevel.Config)
        [.put (mom 0) 1 10, .get (mom 1) 1, .put (mom 2) 2 20, .put (mom 3) 1 11]) =
        ⟨[(1, ⟨11, 3 * 10 ^ 9, 3 * 10 ^ 9, 1, 0⟩)], [(1, ⟨10, 0, 1 * 10 ^ 9, 2, 0⟩)]⟩ := by rfl
    rw [h1]
    intro k hk
    by_contra hne
    simp [containsKey, mget, Ne.symm hne, validAt] at hk

end Rez.Props
