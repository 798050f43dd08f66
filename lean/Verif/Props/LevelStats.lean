import Verif.Spec.LevelStats
import Mathlib.Tactic.Linarith
import Mathlib.Tactic.Positivity
import Mathlib.Tactic.FieldSimp
import Mathlib.Tactic.Ring
import Mathlib.Tactic.NormNum
/-!
# C236: statistics and entries of the cache
-/
namespace Rez.Props
open Rez.LevelStats Rez.Spec.LevelStats

/-! ## Statistics -/

/-- C236: what is calculated of a level: the quotients, if there is something to divide by, and what was there otherwise; the counts stay. -/
theorem C236_level (l : Level) : let u := l.update
    (l.hits + l.misses ≠ 0 → u.hitRate * ((l.hits : ℚ) + (l.misses : ℚ)) = l.hits ∧ 0 ≤ u.hitRate ∧ u.hitRate ≤ 1) ∧
    (l.hits + l.misses = 0 → u.hitRate = l.hitRate) ∧
    (l.capacity ≠ 0 → u.loadFactor * (l.capacity : ℚ) = l.entries) ∧ (l.capacity = 0 → u.loadFactor = l.loadFactor) ∧
    (l.entries ≠ 0 → u.avgSize * (l.entries : ℚ) = l.usage) ∧ (l.entries = 0 → u.avgSize = l.avgSize) ∧
    (u.hits, u.misses, u.entries, u.capacity, u.usage, u.maxUsage, u.evictions) =
      (l.hits, l.misses, l.entries, l.capacity, l.usage, l.maxUsage, l.evictions) := by
  intro u
  have e1 : u.hitRate = if l.hits + l.misses > 0 then (l.hits : ℚ) / ((l.hits + l.misses : Nat) : ℚ) else l.hitRate := by
    simp only [u, Level.update, Level.updateHitRate, Level.updateLoadFactor, Level.updateAvgSize]
    split_ifs <;> rfl
  have e2 : u.loadFactor = if l.capacity > 0 then (l.entries : ℚ) / (l.capacity : ℚ) else l.loadFactor := by
    simp only [u, Level.update, Level.updateHitRate, Level.updateLoadFactor, Level.updateAvgSize]
    split_ifs <;> simp_all
  have e3 : u.avgSize = if l.entries > 0 then (l.usage : ℚ) / (l.entries : ℚ) else l.avgSize := by
    simp only [u, Level.update, Level.updateHitRate, Level.updateLoadFactor, Level.updateAvgSize]
    split_ifs <;> simp_all
  refine ⟨fun h => ?_, fun h => ?_, fun h => ?_, fun h => ?_, fun h => ?_, fun h => ?_, ?_⟩
  · have hp : (0 : ℚ) < ((l.hits + l.misses : Nat) : ℚ) := by exact_mod_cast Nat.pos_of_ne_zero h
    rw [e1, if_pos (Nat.pos_of_ne_zero h)]
    refine ⟨?_, by positivity, ?_⟩
    · rw [show (l.hits : ℚ) + (l.misses : ℚ) = ((l.hits + l.misses : Nat) : ℚ) by push_cast; rfl, div_mul_cancel₀ _ hp.ne']
    · rw [div_le_one hp]
      exact_mod_cast Nat.le_add_right _ _
  · rw [e1, if_neg (by omega)]
  · rw [e2, if_pos (by omega), div_mul_cancel₀]
    exact_mod_cast h
  · rw [e2, if_neg (by omega)]
  · rw [e3, if_pos (by omega), div_mul_cancel₀]
    exact_mod_cast h
  · rw [e3, if_neg (by omega)]
  · simp only [u, Level.update, Level.updateHitRate, Level.updateLoadFactor, Level.updateAvgSize]
    split_ifs <;> rfl

/-- C236: the overall statistics are the sums of the levels; the rate is the quotient; the efficiency is between 0 and 1 while the memory is
within its limit. -/
theorem C236_overall (s : Stats) : let o := s.update.overall
    o.hits = s.l1.hits + s.l2.hits ∧ o.misses = s.l1.misses + s.l2.misses ∧ o.entries = s.l1.entries + s.l2.entries ∧
    o.memory = s.l1.usage ∧ o.disk = s.l2.usage ∧ o.promotions = s.overall.promotions ∧
    (o.hits + o.misses ≠ 0 → o.hitRate * ((o.hits : ℚ) + (o.misses : ℚ)) = o.hits ∧ 0 ≤ o.hitRate ∧ o.hitRate ≤ 1) ∧
    (o.hits + o.misses = 0 → o.hitRate = s.overall.hitRate) ∧
    (s.l1.maxUsage = 0 → o.efficiency = (o.hitRate + 1) / 2) ∧
    (s.l1.maxUsage ≠ 0 → (2 * o.efficiency - o.hitRate - 1) * (s.l1.maxUsage : ℚ) = - (s.l1.usage : ℚ)) ∧
    (s.l1.usage ≤ s.l1.maxUsage → o.hits + o.misses ≠ 0 → 0 ≤ o.efficiency ∧ o.efficiency ≤ 1) ∧
    (s.update.l1, s.update.l2, s.update.getLatency, s.update.stability) = (s.l1, s.l2, s.getLatency, s.stability) := by
  intro o
  have hr : o.hits + o.misses ≠ 0 → o.hitRate = (o.hits : ℚ) / ((o.hits + o.misses : Nat) : ℚ) := fun h =>
    if_pos (Nat.pos_of_ne_zero h)
  have hr1 : o.hits + o.misses ≠ 0 → o.hitRate * ((o.hits : ℚ) + (o.misses : ℚ)) = o.hits ∧ 0 ≤ o.hitRate ∧ o.hitRate ≤ 1 := by
    intro h
    have hp : (0 : ℚ) < ((o.hits + o.misses : Nat) : ℚ) := by exact_mod_cast Nat.pos_of_ne_zero h
    rw [hr h]
    refine ⟨?_, by positivity, ?_⟩
    · rw [show (o.hits : ℚ) + (o.misses : ℚ) = ((o.hits + o.misses : Nat) : ℚ) by push_cast; rfl, div_mul_cancel₀ _ hp.ne']
    · rw [div_le_one hp]
      exact_mod_cast Nat.le_add_right _ _
  have he : o.efficiency = (o.hitRate + if s.l1.maxUsage > 0 then 1 - (s.l1.usage : ℚ) / (s.l1.maxUsage : ℚ) else 1) / 2 := rfl
  refine ⟨rfl, rfl, rfl, rfl, rfl, rfl, hr1, fun h => if_neg (by show ¬ (o.hits + o.misses > 0); omega), fun h => ?_, fun h => ?_, fun h h' => ?_, rfl⟩
  · rw [he, if_neg (by omega)]
  · have hm : (s.l1.maxUsage : ℚ) ≠ 0 := by exact_mod_cast h
    rw [he, if_pos (by omega)]
    field_simp
    ring
  · obtain ⟨-, h1, h2⟩ := hr1 h'
    rw [he]
    split
    · rename_i hm
      have hm' : (0 : ℚ) < (s.l1.maxUsage : ℚ) := by exact_mod_cast hm
      have h3 : (s.l1.usage : ℚ) / (s.l1.maxUsage : ℚ) ≤ 1 := by
        rw [div_le_one hm']
        exact_mod_cast h
      have h4 : 0 ≤ (s.l1.usage : ℚ) / (s.l1.maxUsage : ℚ) := by positivity
      constructor <;> linarith
    · constructor <;> linarith

/-- C236: a cache performs well if all three are high enough, and only then. -/
theorem C236_well (s : Stats) (target : ℚ) : s.well target = true ↔
    target ≤ s.overall.hitRate ∧ 7 / 10 ≤ s.overall.efficiency ∧ 4 / 5 ≤ s.stability := by
  unfold Stats.well
  simp only [ge_iff_le, Bool.and_eq_true, decide_eq_true_eq, and_assoc]
  norm_num

/-- C236: without any lookup the levels give no rate: the one from before stays, even 1; with more memory in use than three times the limit
the efficiency is below 0. -/
theorem C236_range_false (l l2 : Level) (o : Overall) (x y : ℚ) :
    ({ l with hits := 0, misses := 0, hitRate := 1 } : Level).update.hitRate = 1 ∧
    ((Stats.mk { l with hits := 0, misses := 1, usage := 4, maxUsage := 1 } { l2 with hits := 0, misses := 0 } o x y).update).overall.efficiency < 0 := by
  constructor
  · exact (C236_level { l with hits := 0, misses := 0, hitRate := 1 }).2.1 rfl
  · norm_num [Stats.update]

example : (Level.mk 80 20 100 200 1024 0 0 0 0 0).update.hitRate = 4 / 5 := by
  norm_num [Level.update, Level.updateHitRate, Level.updateLoadFactor, Level.updateAvgSize]

/-! ## Entries -/

/-- C236: an entry is expired exactly when more than its time to live has passed since it was made, however often and whenever it was
accessed; accesses give the value it was made with and are counted. -/
theorem C236_entry {V : Type} (v : V) (ttl size : Nat) (tier : Tier) (made : Nat) (times : List Nat) (now : Nat) :
    let e := after (Entry.new v ttl size tier made) times
    (e.expired now = true ↔ ttl < now - made) ∧ (e.access now).1 = v ∧ e.count = times.length ∧ e.accessed = times.getLastD made ∧
    (e.created, e.ttl, e.size, e.tier, e.priority) = (made, ttl, size, tier, 1) := by
  intro e
  have key : e.value = v ∧ e.count = times.length ∧ e.accessed = times.getLastD made ∧
      (e.created, e.ttl, e.size, e.tier, e.priority) = (made, ttl, size, tier, 1) := by
    induction times using List.reverseRecOn with
    | nil => exact ⟨rfl, rfl, rfl, rfl⟩
    | append_singleton ts t ih =>
      have e1 : ∀ e : Entry V, after e (ts ++ [t]) = ((after e ts).access t).2 := fun e => by simp [after]
      simp only [e, e1, Entry.access]
      refine ⟨ih.1, by simp [ih.2.1], by simp, ih.2.2.2⟩
  obtain ⟨h1, h2, h3, h4⟩ := key
  refine ⟨?_, h1, h2, h3, h4⟩
  simp only [Prod.mk.injEq] at h4
  unfold Entry.expired
  rw [h4.1, h4.2.1, decide_eq_true_eq]
  omega

/-- C236: with a clock that does not go backwards the score is above 0 and does not exceed the logarithm of the accesses, or 1; of two entries
that differ in one of these the one with more accesses, the smaller one, and the one accessed sooner after it was made has the greater or
the same score. -/
theorem C236_retention {V : Type} (ln : Nat → ℚ) (hl : Grows ln) (e : Entry V) (hp : 0 < e.priority) (ht : e.created ≤ e.accessed) :
    0 < e.retention ln ∧ e.retention ln ≤ e.priority * max (ln e.count) 1 ∧
    (∀ n, e.count ≤ n → e.retention ln ≤ ({ e with count := n } : Entry V).retention ln) ∧
    (∀ n, e.size ≤ n → ({ e with size := n } : Entry V).retention ln ≤ e.retention ln) ∧
    (∀ t, e.accessed ≤ t → ({ e with accessed := t } : Entry V).retention ln ≤ e.retention ln) := by
  have hq : (0 : ℚ) ≤ (e.accessed : ℚ) - (e.created : ℚ) := by
    have : (e.created : ℚ) ≤ (e.accessed : ℚ) := by exact_mod_cast ht
    linarith
  have hf : ∀ n : Nat, (1 : ℚ) ≤ if n = 0 then 1 else max (ln n) 1 := fun n => by
    split
    · exact le_refl _
    · exact le_max_right _ _
  have hfm : ∀ n : Nat, (if n = 0 then 1 else max (ln n) 1) ≤ max (ln n) 1 := fun n => by
    split
    · exact le_max_right _ _
    · exact le_refl _
  have ha : ∀ x : ℚ, 0 ≤ x → 0 < 1 / (1 + x) ∧ 1 / (1 + x) ≤ 1 := fun x hx => by
    constructor
    · positivity
    · rw [div_le_one (by linarith)]
      linarith
  have hd : ∀ x y : ℚ, 0 ≤ x → x ≤ y → 1 / (1 + y) ≤ 1 / (1 + x) := fun x y hx hxy =>
    one_div_le_one_div_of_le (by linarith) (by linarith)
  have a1 := ha (((e.accessed : ℚ) - (e.created : ℚ)) / 3600) (by positivity)
  have a2 := ha ((e.size : ℚ) / 1024) (by positivity)
  have f1 := hf e.count
  unfold Entry.retention
  simp only
  generalize hF : (if e.count = 0 then (1 : ℚ) else max (ln e.count) 1) = F at f1 ⊢
  have hpF : 0 < e.priority * F := by positivity
  refine ⟨?_, ?_, fun n hn => ?_, fun n hn => ?_, fun t htt => ?_⟩
  · exact mul_pos (mul_pos hpF a1.1) a2.1
  · have h1 : e.priority * F * (1 / (1 + ((e.accessed : ℚ) - (e.created : ℚ)) / 3600)) ≤ e.priority * F :=
      mul_le_of_le_one_right hpF.le a1.2
    have h2 := mul_le_of_le_one_right (mul_pos hpF a1.1).le a2.2
    have h3 : e.priority * F ≤ e.priority * max (ln e.count) 1 := mul_le_mul_of_nonneg_left (hF ▸ hfm e.count) hp.le
    linarith
  · have h : F ≤ if n = 0 then (1 : ℚ) else max (ln n) 1 := by
      rw [← hF]
      by_cases hc : e.count = 0
      · rw [if_pos hc]
        exact hf n
      · rw [if_neg hc, if_neg (by omega)]
        exact max_le_max (hl _ _ hn) (le_refl _)
    exact mul_le_mul_of_nonneg_right (mul_le_mul_of_nonneg_right (mul_le_mul_of_nonneg_left h hp.le) a1.1.le) a2.1.le
  · refine mul_le_mul_of_nonneg_left (hd _ _ (by positivity) ?_) (mul_pos hpF a1.1).le
    have : (e.size : ℚ) ≤ (n : ℚ) := by exact_mod_cast hn
    linarith
  · refine mul_le_mul_of_nonneg_right (mul_le_mul_of_nonneg_left (hd _ _ (by positivity) ?_) hpF.le) a2.1.le
    have : (e.accessed : ℚ) ≤ (t : ℚ) := by exact_mod_cast htt
    linarith

/-- C236: the levels are ordered by speed as by size: the faster is the smaller. -/
theorem C236_tiers (a b : Tier) : (a.speed < b.speed ↔ a.capacity < b.capacity) ∧ (a.speed = b.speed ↔ a = b) ∧ Tier.l1.speed < Tier.l2.speed ∧
    Tier.l2.speed < Tier.l3.speed := by
  cases a <;> cases b <;> decide

/-- C236 is false of a score that favours entries in use: the later the last access, the smaller the score. -/
theorem C236_recent_false : ((Entry.new () 60 0 .l1 0).retention fun _ => 0) = 1 ∧
    (((Entry.new () 60 0 .l1 0).access 3600).2.retention fun _ => 0) = 1 / 2 := by
  norm_num [Entry.new, Entry.access, Entry.retention]

/-- C236 is false of entries as old as their time to live, and of accesses that keep an entry. -/
theorem C236_kept_false : (Entry.new () 60 0 .l1 0).expired 60 = false ∧ (after (Entry.new () 60 0 .l1 0) [60]).expired 61 = true := by decide

example : Grows (fun _ => 0) ∧ 0 < (Entry.new () 60 0 .l1 5).priority := ⟨fun _ _ _ => le_refl _, by norm_num [Entry.new]⟩

end Rez.Props
