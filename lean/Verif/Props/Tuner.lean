import Verif.Spec.Tuner
import Verif.Lemmas.Locks
import Mathlib.Tactic.Linarith
import Mathlib.Tactic.Positivity
import Mathlib.Tactic.FieldSimp
import Mathlib.Tactic.NormNum
import Mathlib.Tactic.Ring
/-!
# C219 Tuning the cache
-/
namespace Rez.Props
open Rez Rez.Tuner Rez.Tuner.Spec

/-! ## The history -/

/-- The history is the last snapshots, as many as the window holds. -/
theorem C219_window (c : Config) (stats : List CacheStats) :
    stats.foldl (fun h s => push c h (snapshot s)) [] = (stats.map snapshot).drop (stats.length - c.window) := by
  induction stats using List.reverseRecOn with
  | nil => simp
  | append_singleton l s ih =>
    rw [List.foldl_append, ih]
    simp only [List.foldl_cons, List.foldl_nil, push, List.map_append, List.map_cons, List.map_nil, List.length_append,
      List.length_drop, List.length_map, List.length_singleton]
    by_cases hw : l.length ≤ c.window
    · rw [show l.length - c.window = 0 by omega]
      simp only [List.drop_zero, Nat.sub_zero]
    · rw [← List.drop_append_of_le_length (by simp), List.drop_drop]
      congr 1
      omega

/-- What is measured: the share of the first level in use in percent, nothing if it has no limit; the evictions of both levels; the hit
rate and the latency as told. -/
theorem C219_measured (st : CacheStats) :
    (0 < st.max1 → (snapshot st).memory * st.max1 = 100 * st.usage1) ∧ (st.max1 = 0 → (snapshot st).memory = 0) ∧
    (snapshot st).hitRate = st.hitRate ∧ (snapshot st).latency = st.latency ∧
    (snapshot st).evictions = st.evictions1 + st.evictions2 := by
  refine ⟨fun h => ?_, fun h => ?_, rfl, rfl, rfl⟩
  · have : (0 : ℚ) < st.max1 := by exact_mod_cast h
    simp only [snapshot, if_pos (show st.max1 > 0 from h)]
    field_simp
  · simp [snapshot, h]

/-- However often an outcome is told, successes and failures are counted, nothing else moves, and from the first outcome after a
tuning operation on the confidence is the number of successes per operation. -/
theorem C219_outcomes (s : State) (l : List Bool) :
    (l.foldl outcome s).stats.successful = s.stats.successful + l.count true ∧
    (l.foldl outcome s).stats.failed = s.stats.failed + l.count false ∧
    (l.foldl outcome s).stats.operations = s.stats.operations ∧ (l.foldl outcome s).params = s.params ∧
    (l.foldl outcome s).history = s.history ∧
    (l ≠ [] → 0 < s.stats.operations →
      (l.foldl outcome s).stats.confidence * s.stats.operations = (s.stats.successful + l.count true : Nat)) ∧
    (s.stats.operations = 0 → (l.foldl outcome s).stats.confidence = s.stats.confidence) := by
  induction l using List.reverseRecOn with
  | nil => simp
  | append_singleton l b ih =>
    obtain ⟨h1, h2, h3, h4, h5, -, h7⟩ := ih
    rw [List.foldl_append]
    generalize l.foldl outcome s = s' at *
    simp only [List.foldl_cons, List.foldl_nil]
    by_cases ho : s.stats.operations = 0
    · cases b <;> simp [outcome, h1, h2, h3, h4, h5, h7 ho, ho, List.count_append, Nat.add_assoc]
    · have hp : 0 < s.stats.operations := Nat.pos_of_ne_zero ho
      have hq : (s.stats.operations : ℚ) ≠ 0 := by exact_mod_cast ho
      cases b <;> simp [outcome, h1, h2, h3, h4, h5, ho, hp, hq, List.count_append, Nat.add_assoc]

example : (([true, false, true].foldl outcome { State.new with stats := { State.new.stats with operations := 4 } })).stats.confidence
    = 1 / 2 := by decide +kernel

/-! ## What is recommended -/

theorem three_prefix {α : Type} {h : List α} (h3 : 3 ≤ h.length) : ∃ a b d, [a, b, d] <+: h ∧ h.take 3 = [a, b, d] := by
  match h, h3 with
  | a :: b :: d :: t, _ => exact ⟨a, b, d, ⟨t, rfl⟩, rfl⟩

theorem prefix_three {α : Type} {h : List α} {a b d : α} (hp : [a, b, d] <+: h) : h.take 3 = [a, b, d] := by
  obtain ⟨t, rfl⟩ := hp; rfl

theorem mean3_iff (f : Snapshot → ℚ) {h : List Snapshot} {a b d : Snapshot} (hp : h.take 3 = [a, b, d]) (m : ℚ) :
    Mean (f a) (f b) (f d) m ↔ mean3 (h.map f) = m := by
  unfold mean3 Mean
  rw [← List.map_take, hp]
  simp only [List.map_cons, List.map_nil, List.sum_cons, List.sum_nil]
  constructor
  · intro e; rw [div_eq_iff (by norm_num)]; linarith
  · intro e; rw [div_eq_iff (by norm_num)] at e; linarith

theorem hitRate_iff (c : Config) (h : List Snapshot) (p : Params) :
    (analyzeHitRate c h p = some ⟨.l1, p.l1, min (p.l1 * (12 / 10)) 2, 8 / 10⟩ ∧ HitRateFalls c h) ∨
      (analyzeHitRate c h p = none ∧ ¬HitRateFalls c h) := by
  unfold analyzeHitRate
  by_cases h3 : h.length < 3
  · right
    rw [if_pos h3]
    refine ⟨rfl, ?_⟩
    rintro ⟨a, b, d, x, y, z, e, l, -, -, hp, -⟩
    have := hp.length_le
    simp at this; omega
  · rw [if_neg h3]
    have e0 : ∀ a b d, [a, b, d] <+: h → ∀ m, (Mean a.hitRate b.hitRate d.hitRate m ↔ mean3 (h.map Snapshot.hitRate) = m) :=
      fun a b d hp m => mean3_iff Snapshot.hitRate (prefix_three hp) m
    have e1 : ∀ x y z, [x, y, z] <:+ h → ∀ m, (Mean x.hitRate y.hitRate z.hitRate m ↔ mean3 (h.reverse.map Snapshot.hitRate) = m) := by
      intro x y z hp m
      have hr : [z, y, x] <+: h.reverse := by simpa using List.reverse_prefix.mpr hp
      rw [← mean3_iff Snapshot.hitRate (prefix_three hr) m]
      unfold Mean
      constructor <;> intro e <;> linarith
    obtain ⟨a, b, d, hp, -⟩ := three_prefix (Nat.le_of_not_lt h3)
    obtain ⟨z, y, x, hs, -⟩ := three_prefix (h := h.reverse) (by simpa using Nat.le_of_not_lt h3)
    have hs' : [x, y, z] <:+ h := by rw [← List.reverse_prefix]; simpa using hs
    have hiff : HitRateFalls c h ↔ mean3 (h.reverse.map Snapshot.hitRate) < mean3 (h.map Snapshot.hitRate) - 5 / 100 ∧
        mean3 (h.reverse.map Snapshot.hitRate) < c.target := by
      constructor
      · rintro ⟨a', b', d', x', y', z', e, l, h1, h2, h3', h4, h5, h6⟩
        rw [(e0 a' b' d' h3' e).mp h1, (e1 x' y' z' h4 l).mp h2]
        exact ⟨h5, h6⟩
      · rintro ⟨h5, h6⟩
        exact ⟨a, b, d, x, y, z, _, _, (e0 a b d hp _).mpr rfl, (e1 x y z hs' _).mpr rfl, hp, hs', h5, h6⟩
    simp only
    by_cases hc : mean3 (h.reverse.map Snapshot.hitRate) < mean3 (h.map Snapshot.hitRate) - 5 / 100 ∧
        mean3 (h.reverse.map Snapshot.hitRate) < c.target
    · rw [if_pos hc]; exact Or.inl ⟨rfl, hiff.mpr hc⟩
    · rw [if_neg hc]; exact Or.inr ⟨rfl, fun x => hc (hiff.mp x)⟩

theorem latency_iff (h : List Snapshot) (p : Params) :
    (analyzeLatency h p = some ⟨.ttl, p.ttl, max (p.ttl * (8 / 10)) (5 / 10), 7 / 10⟩ ∧ GetsSlow h) ∨
      (analyzeLatency h p = none ∧ ¬GetsSlow h) := by
  unfold analyzeLatency
  by_cases h5 : h.length < 5
  · right
    rw [if_pos h5]
    exact ⟨rfl, fun hh => by have := hh.1; omega⟩
  · rw [if_neg h5]
    have e0 : ∀ a b d, [a, b, d] <+: h → ∀ m, (Mean a.latency b.latency d.latency m ↔ mean3 (h.map Snapshot.latency) = m) :=
      fun a b d hp m => mean3_iff Snapshot.latency (prefix_three hp) m
    have e1 : ∀ x y z, [x, y, z] <:+ h → ∀ m, (Mean x.latency y.latency z.latency m ↔ mean3 (h.reverse.map Snapshot.latency) = m) := by
      intro x y z hp m
      have hr : [z, y, x] <+: h.reverse := by simpa using List.reverse_prefix.mpr hp
      rw [← mean3_iff Snapshot.latency (prefix_three hr) m]
      unfold Mean
      constructor <;> intro e <;> linarith
    obtain ⟨a, b, d, hp, -⟩ := three_prefix (h := h) (by omega)
    obtain ⟨z, y, x, hs, -⟩ := three_prefix (h := h.reverse) (by simp; omega)
    have hs' : [x, y, z] <:+ h := by rw [← List.reverse_prefix]; simpa using hs
    have hiff : GetsSlow h ↔ mean3 (h.reverse.map Snapshot.latency) > mean3 (h.map Snapshot.latency) * (15 / 10) ∧
        mean3 (h.reverse.map Snapshot.latency) > 1000 := by
      constructor
      · rintro ⟨-, a', b', d', x', y', z', e, l, h1, h2, h3', h4, h5, h6⟩
        rw [(e0 a' b' d' h3' e).mp h1, (e1 x' y' z' h4 l).mp h2]
        exact ⟨by linarith, h6⟩
      · rintro ⟨h5, h6⟩
        exact ⟨by omega, a, b, d, x, y, z, _, _, (e0 a b d hp _).mpr rfl, (e1 x y z hs' _).mpr rfl, hp, hs', by linarith, h6⟩
    simp only
    by_cases hc : mean3 (h.reverse.map Snapshot.latency) > mean3 (h.map Snapshot.latency) * (15 / 10) ∧
        mean3 (h.reverse.map Snapshot.latency) > 1000
    · rw [if_pos hc]; exact Or.inl ⟨rfl, hiff.mpr hc⟩
    · rw [if_neg hc]; exact Or.inr ⟨rfl, fun x => hc (hiff.mp x)⟩

theorem average_iff (f : Snapshot → ℚ) (h : List Snapshot) (m : ℚ) : Average f h m ↔ meanAll (h.map f) = some m := by
  unfold Average meanAll
  cases h with
  | nil => simp
  | cons a h =>
    have hn : (((a :: h).length : Nat) : ℚ) ≠ 0 := by simp; positivity
    simp only [List.map_cons, List.isEmpty_cons, Bool.false_eq_true, if_false, Option.some.injEq, ne_eq, reduceCtorEq,
      not_false_eq_true, true_and]
    rw [div_eq_iff (by simpa using hn)]
    simp only [List.length_cons, List.length_map]
    constructor <;> intro e <;> linarith

/-- What is recommended, and when: more of the first level when the hit rate falls, eviction up when memory is used above 90 per cent
on average and down below 50, shorter times to live when gets become slow, more of the second level above 100 evictions on
average; each by its factor up to its limit; and nothing else. -/
theorem C219_recommended (c : Config) (h : List Snapshot) (p : Params) (r : Rec) :
    r ∈ allAnalyses.filterMap (analyze c h p) ↔
      (HitRateFalls c h ∧ r = ⟨.l1, p.l1, min (p.l1 * (6 / 5)) 2, 8 / 10⟩) ∨
      (∃ m, Average Snapshot.memory h m ∧ 90 < m ∧ r = ⟨.eviction, p.eviction, min (p.eviction + 1 / 10) 1, 9 / 10⟩) ∨
      (∃ m, Average Snapshot.memory h m ∧ m < 50 ∧ r = ⟨.eviction, p.eviction, max (p.eviction - 1 / 10) (1 / 10), 7 / 10⟩) ∨
      (GetsSlow h ∧ r = ⟨.ttl, p.ttl, max (p.ttl * (4 / 5)) (1 / 2), 7 / 10⟩) ∨
      (∃ m, Average Snapshot.evictions h m ∧ 100 < m ∧ r = ⟨.l2, p.l2, min (p.l2 * (13 / 10)) 3, 8 / 10⟩) := by
  have hl1 : min (p.l1 * (12 / 10)) 2 = min (p.l1 * (6 / 5)) 2 := by congr 1; ring
  have httl : max (p.ttl * (8 / 10)) (5 / 10) = max (p.ttl * (4 / 5)) (1 / 2) := by congr 1 <;> ring
  have a1 : analyze c h p .hitRate = some r ↔ HitRateFalls c h ∧ r = ⟨.l1, p.l1, min (p.l1 * (6 / 5)) 2, 8 / 10⟩ := by
    rcases hitRate_iff c h p with ⟨h1, h2⟩ | ⟨h1, h2⟩
    · simp only [analyze, h1, Option.some.injEq, h2, true_and, hl1]; exact eq_comm
    · simp [analyze, h1, h2]
  have a3 : analyze c h p .latency = some r ↔ GetsSlow h ∧ r = ⟨.ttl, p.ttl, max (p.ttl * (4 / 5)) (1 / 2), 7 / 10⟩ := by
    rcases latency_iff h p with ⟨h1, h2⟩ | ⟨h1, h2⟩
    · simp only [analyze, h1, Option.some.injEq, h2, true_and, httl]; exact eq_comm
    · simp [analyze, h1, h2]
  have a2 : analyze c h p .memory = some r ↔
      (∃ m, Average Snapshot.memory h m ∧ 90 < m ∧ r = ⟨.eviction, p.eviction, min (p.eviction + 1 / 10) 1, 9 / 10⟩) ∨
      (∃ m, Average Snapshot.memory h m ∧ m < 50 ∧ r = ⟨.eviction, p.eviction, max (p.eviction - 1 / 10) (1 / 10), 7 / 10⟩) := by
    simp only [average_iff, analyze, analyzeMemory]
    rcases hm : meanAll (h.map Snapshot.memory) with _ | m
    · simp
    · simp only [Option.some.injEq, exists_eq_left', gt_iff_lt]
      by_cases h90 : 90 < m
      · have : ¬m < 50 := by linarith
        simp only [h90, this, if_true, true_and, false_and, or_false, Option.some.injEq]; exact eq_comm
      · by_cases h50 : m < 50
        · simp only [h90, h50, if_true, if_false, true_and, false_and, false_or, Option.some.injEq]; exact eq_comm
        · simp [h90, h50]
  have a4 : analyze c h p .evictions = some r ↔
      ∃ m, Average Snapshot.evictions h m ∧ 100 < m ∧ r = ⟨.l2, p.l2, min (p.l2 * (13 / 10)) 3, 8 / 10⟩ := by
    simp only [average_iff, analyze, analyzeEvictions]
    rcases hm : meanAll (h.map Snapshot.evictions) with _ | m
    · simp
    · simp only [Option.some.injEq, exists_eq_left', gt_iff_lt]
      by_cases h100 : 100 < m
      · simp only [h100, if_true, true_and, Option.some.injEq]; exact eq_comm
      · simp [h100]
  simp only [List.mem_filterMap, allAnalyses, List.mem_cons, List.not_mem_nil, or_false]
  constructor
  · rintro ⟨a, ha, hr⟩
    rcases ha with rfl | rfl | rfl | rfl
    · exact Or.inl (a1.mp hr)
    · rcases a2.mp hr with x | x
      · exact Or.inr (Or.inl x)
      · exact Or.inr (Or.inr (Or.inl x))
    · exact Or.inr (Or.inr (Or.inr (Or.inl (a3.mp hr))))
    · exact Or.inr (Or.inr (Or.inr (Or.inr (a4.mp hr))))
  · rintro (x | x | x | x | x)
    · exact ⟨_, Or.inl rfl, a1.mpr x⟩
    · exact ⟨_, Or.inr (Or.inl rfl), a2.mpr (Or.inl x)⟩
    · exact ⟨_, Or.inr (Or.inl rfl), a2.mpr (Or.inr x)⟩
    · exact ⟨_, Or.inr (Or.inr (Or.inl rfl)), a3.mpr x⟩
    · exact ⟨_, Or.inr (Or.inr (Or.inr rfl)), a4.mpr x⟩

/-! ## The parameters -/

/-- A value that a parameter may take. -/
def Allowed : Name → ℚ → Prop
  | .l1, v => 1 ≤ v ∧ v ≤ 2
  | .l2, v => 1 ≤ v ∧ v ≤ 3
  | .eviction, v => 1 / 10 ≤ v ∧ v ≤ 1
  | .ttl, v => 1 / 2 ≤ v ∧ v ≤ 1

theorem analyze_allowed {c : Config} {h : List Snapshot} {p : Params} (hp : InRange p) {a : Analysis} {r : Rec}
    (hr : analyze c h p a = some r) : Allowed r.name r.value := by
  have hm : r ∈ allAnalyses.filterMap (analyze c h p) :=
    List.mem_filterMap.mpr ⟨a, by cases a <;> simp [allAnalyses], hr⟩
  obtain ⟨⟨l1a, l1b⟩, ⟨l2a, l2b⟩, ⟨ea, eb⟩, ⟨ta, tb⟩, -, -⟩ := hp
  rcases (C219_recommended c h p r).mp hm with ⟨-, rfl⟩ | ⟨m, -, -, rfl⟩ | ⟨m, -, -, rfl⟩ | ⟨-, rfl⟩ | ⟨m, -, -, rfl⟩
  · exact ⟨le_min (by linarith) (by norm_num), min_le_right _ _⟩
  · exact ⟨le_min (by linarith) (by norm_num), min_le_right _ _⟩
  · exact ⟨le_max_right _ _, max_le (by linarith) (by norm_num)⟩
  · exact ⟨le_max_right _ _, max_le (by linarith) (by norm_num)⟩
  · exact ⟨le_min (by linarith) (by norm_num), min_le_right _ _⟩

theorem set_inRange {p : Params} (hp : InRange p) {r : Rec} (hr : Allowed r.name r.value) : InRange (p.set r) := by
  obtain ⟨h1, h2, h3, h4, h5, h6⟩ := hp
  unfold Params.set
  cases hn : r.name <;> rw [hn] at hr
  · exact ⟨hr, h2, h3, h4, h5, h6⟩
  · exact ⟨h1, hr, h3, h4, h5, h6⟩
  · exact ⟨h1, h2, hr, h4, h5, h6⟩
  · exact ⟨h1, h2, h3, hr, h5, h6⟩

theorem applyRecs_cons (c : Config) (p : Params) (r : Rec) (recs : List Rec) :
    (applyRecs c p (r :: recs)).1 = (applyRecs c (if r.confidence ≥ c.minConfidence then p.set r else p) recs).1 := by
  have gen : ∀ (recs : List Rec) (p : Params) (n m : Nat),
      (recs.foldl (fun (acc : Params × Nat) r => if r.confidence ≥ c.minConfidence then (acc.1.set r, acc.2 + 1) else acc) (p, n)).1 =
      (recs.foldl (fun (acc : Params × Nat) r => if r.confidence ≥ c.minConfidence then (acc.1.set r, acc.2 + 1) else acc) (p, m)).1 := by
    intro recs
    induction recs with
    | nil => intros; rfl
    | cons r recs ih =>
      intro p n m
      simp only [List.foldl_cons]
      split <;> exact ih _ _ _
  unfold applyRecs
  simp only [List.foldl_cons]
  split <;> exact gen _ _ _ _

theorem applyRecs_inRange (c : Config) (recs : List Rec) (hr : ∀ r ∈ recs, Allowed r.name r.value) (p : Params) (hp : InRange p) :
    InRange (applyRecs c p recs).1 := by
  induction recs generalizing p with
  | nil => exact hp
  | cons r recs ih =>
    rw [applyRecs_cons]
    refine ih (fun r' h' => hr r' (List.mem_cons_of_mem _ h')) _ ?_
    split
    · exact set_inRange hp (hr r (by simp))
    · exact hp

/-- Whatever is recorded and however calls interleave, the parameters stay in their ranges; the promotion threshold and the
preheating are never tuned. -/
theorem C219_bounds (c : Config) (y : System) (h : Reachable c y) : InRange y.state.params := by
  have key : InRange y.state.params ∧ ∀ t ∈ y.tasks, ∀ r ∈ t.recs, Allowed r.name r.value := by
    induction h with
    | start =>
      refine ⟨⟨?_, ?_, ?_, ?_, rfl, rfl⟩, by simp⟩ <;> norm_num [State.new, Params.default]
    | @step y y' _ hs ih =>
      cases hs with
      | record st => exact ih
      | outcome b => exact ih
      | begin h hb =>
        refine ⟨ih.1, ?_⟩
        intro t ht r hr
        rcases List.mem_cons.mp ht with rfl | ht
        · cases hr
        · exact ih.2 t ht r hr
      | analyze before after t a rest ht htodo =>
        refine ⟨ih.1, ?_⟩
        intro t' ht' r hr
        simp only [List.mem_append, List.mem_cons] at ht'
        rcases ht' with h1 | rfl | h1
        · exact ih.2 t' (by rw [ht]; simp [h1]) r hr
        · simp only [List.mem_append, Option.mem_toList] at hr
          rcases hr with hr | hr
          · exact ih.2 t (by rw [ht]; simp) r hr
          · exact analyze_allowed ih.1 hr
        · exact ih.2 t' (by rw [ht]; simp [h1]) r hr
      | apply before after t ht htodo =>
        refine ⟨applyRecs_inRange c t.recs (ih.2 t (by rw [ht]; simp)) _ ih.1, ?_⟩
        intro t' ht' r hr
        simp only [List.mem_append] at ht'
        exact ih.2 t' (by rw [ht]; simp only [List.mem_append, List.mem_cons]; tauto) r hr
  exact key.1

/-- The history never exceeds the window, however calls interleave. -/
theorem C219_history (c : Config) (y : System) (h : Reachable c y) : y.state.history.length ≤ c.window := by
  induction h with
  | start => exact Nat.zero_le _
  | @step y y' _ hs ih =>
    cases hs with
    | record st => simp [push]; omega
    | outcome b => exact ih
    | begin h hb => exact ih
    | analyze before after t a rest ht htodo => exact ih
    | apply before after t ht htodo => exact ih

/-- A recommendation that is too unsure is not followed; one that is not is, if no later one is about the same parameter. -/
theorem C219_followed (c : Config) (p : Params) (before after : List Rec) (r : Rec) (hr : c.minConfidence ≤ r.confidence)
    (ha : ∀ r' ∈ after, r'.name ≠ r.name ∨ r'.confidence < c.minConfidence) :
    valueOf (applyRecs c p (before ++ r :: after)).1 r.name = r.value := by
  induction before generalizing p with
  | cons b before ih =>
    rw [List.cons_append, applyRecs_cons]
    exact ih _
  | nil =>
    rw [List.nil_append, applyRecs_cons, if_pos hr]
    have keep : ∀ (after : List Rec) (p : Params), (∀ r' ∈ after, r'.name ≠ r.name ∨ r'.confidence < c.minConfidence) →
        valueOf p r.name = r.value → valueOf (applyRecs c p after).1 r.name = r.value := by
      intro after
      induction after with
      | nil => intro p _ h; exact h
      | cons r' after ih =>
        intro p ha hv
        rw [applyRecs_cons]
        refine ih _ (fun x hx => ha x (List.mem_cons_of_mem _ hx)) ?_
        rcases ha r' (by simp) with hne | hlt
        · split
          · unfold Params.set
            revert hne hv
            cases r.name <;> cases r'.name <;> simp [valueOf]
          · exact hv
        · rw [if_neg (not_le.mpr hlt)]; exact hv
    refine keep after _ ha ?_
    unfold Params.set
    cases r.name <;> rfl

/-- Nothing changes if all confidences are too low, if tuning is off, or if there are too few snapshots. -/
theorem C219_still (c : Config) (s : State)
    (h : c.enabled = false ∨ s.history.length < c.minSamples ∨ 9 / 10 < c.minConfidence) : (tune c s).2 = s := by
  unfold tune begin
  rcases h with h | h | h
  · simp [h]
  · by_cases he : c.enabled = true <;> simp [he, h]
  · by_cases he : c.enabled = true
    · by_cases hm : s.history.length < c.minSamples
      · simp [he, hm]
      · simp only [he, hm, Bool.not_true, Bool.false_eq_true, if_false]
        have hlow : ∀ r ∈ allAnalyses.filterMap (analyze c s.history s.params), ¬r.confidence ≥ c.minConfidence := by
          intro r hr hge
          rcases (C219_recommended c s.history s.params r).mp hr with
            ⟨-, rfl⟩ | ⟨m, -, -, rfl⟩ | ⟨m, -, -, rfl⟩ | ⟨-, rfl⟩ | ⟨m, -, -, rfl⟩ <;> simp only at hge <;> linarith
        have e : applyRecs c s.params (allAnalyses.filterMap (analyze c s.history s.params)) = (s.params, 0) := by
          unfold applyRecs
          generalize allAnalyses.filterMap (analyze c s.history s.params) = l at *
          induction l with
          | nil => rfl
          | cons r l ih =>
            simp only [List.foldl_cons]
            rw [if_neg (hlow r (by simp))]
            exact ih fun r' h' => hlow r' (List.mem_cons_of_mem _ h')
        rw [e]
        rfl
    · simp [he]

/-- Undisturbed, tuning never makes the levels smaller or the times to live longer. -/
theorem C219_monotone (c : Config) (s : State) (hp : InRange s.params) :
    s.params.l1 ≤ (tune c s).2.params.l1 ∧ s.params.l2 ≤ (tune c s).2.params.l2 ∧ (tune c s).2.params.ttl ≤ s.params.ttl := by
  unfold tune
  rcases begin c s with _ | h
  · exact ⟨le_refl _, le_refl _, le_refl _⟩
  · simp only
    have hall : ∀ r ∈ allAnalyses.filterMap (analyze c h s.params),
        (r.name = .l1 → s.params.l1 ≤ r.value) ∧ (r.name = .l2 → s.params.l2 ≤ r.value) ∧ (r.name = .ttl → r.value ≤ s.params.ttl) := by
      intro r hr
      obtain ⟨⟨l1a, l1b⟩, ⟨l2a, l2b⟩, ⟨ea, eb⟩, ⟨ta, tb⟩, -, -⟩ := hp
      rcases (C219_recommended c h s.params r).mp hr with
        ⟨-, rfl⟩ | ⟨m, -, -, rfl⟩ | ⟨m, -, -, rfl⟩ | ⟨-, rfl⟩ | ⟨m, -, -, rfl⟩
      · exact ⟨fun _ => le_min (by linarith) l1b, by simp, by simp⟩
      · exact ⟨by simp, by simp, by simp⟩
      · exact ⟨by simp, by simp, by simp⟩
      · exact ⟨by simp, by simp, fun _ => max_le (by linarith) ta⟩
      · exact ⟨by simp, fun _ => le_min (by linarith) l2b, by simp⟩
    generalize allAnalyses.filterMap (analyze c h s.params) = recs at *
    have gen : ∀ (recs : List Rec) (p : Params), (∀ r ∈ recs,
        (r.name = .l1 → s.params.l1 ≤ r.value) ∧ (r.name = .l2 → s.params.l2 ≤ r.value) ∧ (r.name = .ttl → r.value ≤ s.params.ttl)) →
        s.params.l1 ≤ p.l1 ∧ s.params.l2 ≤ p.l2 ∧ p.ttl ≤ s.params.ttl →
        s.params.l1 ≤ (applyRecs c p recs).1.l1 ∧ s.params.l2 ≤ (applyRecs c p recs).1.l2 ∧
          (applyRecs c p recs).1.ttl ≤ s.params.ttl := by
      intro recs
      induction recs with
      | nil => intro p _ h; exact h
      | cons r recs ih =>
        intro p ha hq
        rw [applyRecs_cons]
        refine ih _ (fun x hx => ha x (List.mem_cons_of_mem _ hx)) ?_
        split
        · have := ha r (by simp)
          unfold Params.set
          cases hn : r.name <;> simp only [hn, true_implies, reduceCtorEq, false_implies] at this ⊢ <;> tauto
        · exact hq
    exact gen recs s.params hall ⟨le_refl _, le_refl _, le_refl _⟩

/-- The undisturbed call is one of the ways the steps can go. -/
theorem C219_undisturbed (c : Config) (y : System) (hy : Reachable c y) : Reachable c { y with state := (tune c y.state).2 } := by
  unfold tune
  rcases hb : begin c y.state with _ | h
  · exact hy
  · simp only
    have s1 := hy.step (Step.begin y h hb)
    have s2 := s1.step (Step.analyze _ [] y.tasks ⟨h, [], allAnalyses⟩ .hitRate [.memory, .latency, .evictions] rfl rfl)
    have s3 := s2.step (Step.analyze _ [] y.tasks _ .memory [.latency, .evictions] rfl rfl)
    have s4 := s3.step (Step.analyze _ [] y.tasks _ .latency [.evictions] rfl rfl)
    have s5 := s4.step (Step.analyze _ [] y.tasks _ .evictions [] rfl rfl)
    have s6 := s5.step (Step.apply _ [] y.tasks _ rfl rfl)
    have e : allAnalyses.filterMap (analyze c h y.state.params) =
        [] ++ (analyze c h y.state.params .hitRate).toList ++ (analyze c h y.state.params .memory).toList ++
          (analyze c h y.state.params .latency).toList ++ (analyze c h y.state.params .evictions).toList := by
      simp only [allAnalyses, List.filterMap_cons, List.filterMap_nil]
      cases analyze c h y.state.params .hitRate <;> cases analyze c h y.state.params .memory <;>
        cases analyze c h y.state.params .latency <;> cases analyze c h y.state.params .evictions <;> rfl
    rw [e]
    exact s6

/-- The cache manager calls `analyze_and_tune` but never records anything: however it is used, its parameters never change. -/
theorem C219_manager (c : Config) (n : Nat) : ((fun s => (tune c s).2)^[n]) State.new = State.new := by
  have h : (tune c State.new).2 = State.new := by
    unfold tune begin
    by_cases he : c.enabled = true
    · by_cases hm : State.new.history.length < c.minSamples
      · simp [he, hm]
      · simp only [he, hm, Bool.not_true, Bool.false_eq_true, if_false]
        rfl
    · simp [he]
  exact Function.iterate_fixed h n

/-! ## Locks -/

open Rez.Locks in
/-- Any number of threads running any operations of the tuner never deadlock. -/
theorem C219_locks {ι : Type} [DecidableEq ι] (ops : ι → List TOp) {s : Locks.State ι TLock}
    (hs : Locks.Reachable (fun i => (ops i).flatMap tProg) s) : ¬ Deadlocked s := by
  have htimes : ∀ n, Ordered (fun | TLock.history => 0 | .params => 1 | .stats => 2) []
      (times n (brief (TLock.params) .read)) := by
    intro n
    induction n with
    | zero => exact rfl
    | succ n ih => exact ordered_append (by decide) ih
  refine no_deadlock (rank := fun | .history => 0 | .params => 1 | .stats => 2) (bound := 3)
    (fun l => by cases l <;> decide) (fun i => ordered_flatMap fun o ho => ?_) hs
  match o with
  | .record | .idle | .parameters | .getStats | .outcome => decide
  | .tune n => exact ordered_append (ordered_append (by decide) (htimes n)) (by decide)

/-! ## Concrete cases -/

def tuneConfig : Tuner.Config := ⟨true, 10, 1, 7 / 10, 8 / 10⟩

/-- A snapshot of a cache that is full, slow and evicts much. -/
def badStats : CacheStats := ⟨1 / 10, 95, 100, 2000, 100, 50⟩

/-- One that is fine. -/
def goodStats : CacheStats := ⟨9 / 10, 95, 100, 100, 100, 50⟩

def badHistory : List CacheStats := [goodStats, goodStats, goodStats, badStats, badStats, badStats]

def badState : Tuner.State := { State.new with history := badHistory.map snapshot }

/-- Everything is recommended and followed. -/
example : (tune tuneConfig badState).2.params = ⟨6 / 5, 13 / 10, 3, 3 / 5, 4 / 5, 3 / 10⟩ ∧
    (tune tuneConfig badState).2.stats.operations = 4 := by decide +kernel

theorem badState_reachable : Reachable tuneConfig ⟨badState, []⟩ := by
  have s1 := Reachable.start.step (Step.record (c := tuneConfig) _ goodStats)
  have s2 := s1.step (Step.record _ goodStats)
  have s3 := s2.step (Step.record _ goodStats)
  have s4 := s3.step (Step.record _ badStats)
  have s5 := s4.step (Step.record _ badStats)
  exact s5.step (Step.record _ badStats)

example : HitRateFalls tuneConfig (badHistory.map snapshot) :=
  ⟨_, _, _, _, _, _, 9 / 10, 1 / 10, by norm_num [Mean, snapshot, goodStats], by norm_num [Mean, snapshot, badStats],
    ⟨_, rfl⟩, ⟨(badHistory.map snapshot).take 3, rfl⟩, by norm_num, by norm_num [tuneConfig]⟩

/-! ## What does not hold -/

/-- With several calls at once a level can become smaller: a call that read the size before others enlarged it sets it back. -/
theorem C219_shrinks_false : ¬∀ (c : Tuner.Config) (y y' : System), Reachable c y → Step c y y' →
    y.state.params.l1 ≤ y'.state.params.l1 := by
  intro h
  -- one call has made its analyses
  have s1 := badState_reachable.step (Step.begin _ (badHistory.map snapshot) rfl)
  have s2 := s1.step (Step.analyze _ [] [] ⟨_, [], allAnalyses⟩ .hitRate [.memory, .latency, .evictions] rfl rfl)
  have s3 := s2.step (Step.analyze _ [] [] _ .memory [.latency, .evictions] rfl rfl)
  have s4 := s3.step (Step.analyze _ [] [] _ .latency [.evictions] rfl rfl)
  have s5 := s4.step (Step.analyze _ [] [] _ .evictions [] rfl rfl)
  -- two others run
  have s6 := C219_undisturbed _ _ (C219_undisturbed _ _ s5)
  -- and it goes on
  have := h _ _ _ s6 (Step.apply _ [] [] _ rfl rfl)
  revert this
  decide +kernel

/-- The success rate can exceed one: outcomes are counted whatever was tuned. -/
theorem C219_rate_false : ¬∀ (c : Tuner.Config) (y : System), Reachable c y → successRate y.state ≤ 1 := by
  intro h
  have s0 := C219_undisturbed _ _ badState_reachable
  have s1 := s0.step (Step.outcome _ true)
  have s2 := s1.step (Step.outcome _ true)
  have s3 := s2.step (Step.outcome _ true)
  have s4 := s3.step (Step.outcome _ true)
  have s5 := s4.step (Step.outcome _ true)
  have := h _ _ s5
  revert this
  decide +kernel

/-- Settings that change nothing are counted as tuning. -/
theorem C219_counted_false : ¬∀ (c : Tuner.Config) (s : Tuner.State), InRange s.params →
    (tune c s).2.stats.operations ≠ s.stats.operations → (tune c s).2.params ≠ s.params := by
  intro h
  have := h tuneConfig { badState with params := ⟨2, 3, 3, 1, 1 / 2, 3 / 10⟩ }
    ⟨by norm_num, by norm_num, by norm_num, by norm_num, rfl, rfl⟩ (by decide +kernel)
  exact this (by decide +kernel)

end Rez.Props
