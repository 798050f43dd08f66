import Verif.Spec.VariantCache
import Verif.Base.Map
import Mathlib.Tactic.Positivity
import Mathlib.Algebra.Order.Field.Rat
import Mathlib.Algebra.Order.Field.Basic
/-!
# C234: the cache of variants over histories; reductions; modes
-/
namespace Rez.Props
open Rez Rez.VariantCache Rez.Spec.VariantCache

variable {α : Type}

namespace VariantCacheLemmas

theorem run_snoc (c : Cache α) (cs : List (Call α)) (x : Call α) : c.run (cs ++ [x]) = (c.run cs).step x := by
  unfold Cache.run
  rw [List.foldl_append]
  rfl

theorem kept_snoc (cs : List (Call α)) (x : Call α) (n : Str) (vs : List α) :
    Kept (cs ++ [x]) n vs ↔ x = .put n vs ∨ ¬ Ends n x ∧ Kept cs n vs := by
  constructor
  · rintro ⟨b, a, he, ha⟩
    rcases List.eq_nil_or_concat a with rfl | ⟨a', y, rfl⟩
    · have := List.append_inj' he rfl
      exact .inl (by simpa using this.2)
    · rw [List.concat_eq_append, ← List.cons_append, ← List.append_assoc] at he
      have := List.append_inj' he rfl
      have hy : x = y := by simpa using this.2
      refine .inr ⟨hy ▸ ha y (by simp), b, a', this.1, fun c hc => ha c (by simp [hc])⟩
  · rintro (rfl | ⟨hx, b, a, rfl, ha⟩)
    · exact ⟨cs, [], rfl, fun c hc => by cases hc⟩
    · refine ⟨b, a ++ [x], by simp, fun c hc => ?_⟩
      rcases List.mem_append.mp hc with hc | hc
      · exact ha c hc
      · rwa [List.mem_singleton.mp hc]

theorem mget_step (c : Cache α) (x : Call α) (n : Str) (vs : List α) :
    mget (c.step x).variants n = some vs ↔ x = .put n vs ∨ ¬ Ends n x ∧ mget c.variants n = some vs := by
  cases x with
  | get m =>
    have : ((c.get m).2).variants = c.variants := by
      unfold Cache.get
      split <;> rfl
    simp [Cache.step, this, Ends]
  | put m ws =>
    simp only [Cache.step, Cache.put, mget_mset, Ends]
    by_cases h : n = m
    · subst h
      simp
    · simp [h, Ne.symm h]
  | invalidate m =>
    simp only [Cache.step, Cache.invalidate, mget_mdel, Ends]
    by_cases h : n = m
    · subst h
      simp
    · simp [h, Ne.symm h]
  | clear => simp [Cache.step, Cache.clear, Ends]

theorem kept_iff (cs : List (Call α)) (n : Str) (vs : List α) :
    mget ((Cache.new : Cache α).run cs).variants n = some vs ↔ Kept cs n vs := by
  induction cs using List.reverseRecOn generalizing vs with
  | nil =>
    constructor
    · intro h
      cases h
    · rintro ⟨b, a, he, -⟩
      cases b <;> cases he
  | append_singleton cs x ih => rw [run_snoc, mget_step, kept_snoc, ih]

theorem get_fst (c : Cache α) (n : Str) : (c.get n).1 = mget c.variants n := by
  unfold Cache.get
  split
  · rfl
  · rename_i h
    cases hm : mget c.variants n with
    | none => rfl
    | some v => rw [hm] at h; exact absurd rfl h

theorem count_congr {p q : Nat → Prop} {a b k : Nat} (h : Count p a b k) (hpq : ∀ i, i < b → (p i ↔ q i)) : Count q a b k := by
  induction h with
  | zero => exact .zero
  | yes _ hp ih => exact .yes (ih fun i hi => hpq i (by omega)) ((hpq _ (by omega)).mp hp)
  | no _ hp ih => exact .no (ih fun i hi => hpq i (by omega)) fun hq => hp ((hpq _ (by omega)).mpr hq)

theorem answered_take (cs : List (Call α)) (x : Call α) (i : Nat) (hi : i < cs.length) :
    (Answered cs i ↔ Answered (cs ++ [x]) i) ∧ (Unanswered cs i ↔ Unanswered (cs ++ [x]) i) := by
  unfold Answered Unanswered
  rw [List.getElem?_append_left hi, List.take_append_of_le_length (by omega)]
  exact ⟨.rfl, .rfl⟩

theorem counters (before since : List (Call α)) (hb : before = [] ∨ ∃ b, before = b ++ [.clear]) (hs : .clear ∉ since) :
    Count (Answered (before ++ since)) before.length (before ++ since).length ((Cache.new : Cache α).run (before ++ since)).hits ∧
    Count (Unanswered (before ++ since)) before.length (before ++ since).length
      ((Cache.new : Cache α).run (before ++ since)).misses := by
  induction since using List.reverseRecOn with
  | nil =>
    rw [List.append_nil]
    rcases hb with rfl | ⟨b, rfl⟩
    · exact ⟨.zero, .zero⟩
    · rw [run_snoc]
      exact ⟨.zero, .zero⟩
  | append_singleton since x ih =>
    obtain ⟨h1, h2⟩ := ih fun hc => hs (by simp [hc])
    have e : before ++ (since ++ [x]) = (before ++ since) ++ [x] := by rw [List.append_assoc]
    rw [e, run_snoc]
    generalize hcs : before ++ since = cs at h1 h2
    have h1 := count_congr h1 fun i hi => (answered_take cs x i hi).1
    have h2 := count_congr h2 fun i hi => (answered_take cs x i hi).2
    have hat : (cs ++ [x])[cs.length]? = some x := by simp
    have htake : (cs ++ [x]).take cs.length = cs := by simp
    rw [List.length_append, List.length_singleton]
    cases x with
    | clear => exact absurd (by simp) hs
    | put m ws =>
      refine ⟨.no h1 ?_, .no h2 ?_⟩
      · rintro ⟨n, vs, hn, -⟩
        rw [hat] at hn
        cases hn
      · rintro ⟨n, hn, -⟩
        rw [hat] at hn
        cases hn
    | invalidate m =>
      refine ⟨.no h1 ?_, .no h2 ?_⟩
      · rintro ⟨n, vs, hn, -⟩
        rw [hat] at hn
        cases hn
      · rintro ⟨n, hn, -⟩
        rw [hat] at hn
        cases hn
    | get m =>
      have hk := kept_iff cs m
      simp only [Cache.step, Cache.get]
      cases hm : mget ((Cache.new : Cache α).run cs).variants m with
      | some vs =>
        refine ⟨.yes h1 ⟨m, vs, hat, by rw [htake]; exact (hk vs).mp hm⟩, .no h2 ?_⟩
        rintro ⟨n, hn, hno⟩
        rw [hat] at hn
        cases hn
        rw [htake] at hno
        exact hno vs ((hk vs).mp hm)
      | none =>
        refine ⟨.no h1 ?_, .yes h2 ⟨m, hat, fun vs hvs => ?_⟩⟩
        · rintro ⟨n, vs, hn, hkn⟩
          rw [hat] at hn
          cases hn
          rw [htake] at hkn
          have := (hk vs).mpr hkn
          rw [hm] at this
          cases this
        · rw [htake] at hvs
          have := (hk vs).mpr hvs
          rw [hm] at this
          cases this

end VariantCacheLemmas
open VariantCacheLemmas

/-- C234: after any calls a lookup gives the variants put last for the name, if they were not taken away. -/
theorem C234_get (calls : List (Call α)) (n : Str) :
    (∀ vs, (((Cache.new : Cache α).run calls).get n).1 = some vs ↔ Kept calls n vs) ∧
    ((((Cache.new : Cache α).run calls).get n).1 = none ↔ ∀ vs, ¬ Kept calls n vs) := by
  simp only [get_fst]
  refine ⟨fun vs => kept_iff calls n vs, ?_⟩
  rw [Option.eq_none_iff_forall_ne_some]
  exact forall_congr' fun vs => not_congr (kept_iff calls n vs)

/-- C234: at most one list is kept for a name. -/
theorem C234_one (calls : List (Call α)) (n : Str) (vs ws : List α) (h1 : Kept calls n vs) (h2 : Kept calls n ws) : vs = ws := by
  have h1 := (kept_iff calls n vs).mpr h1
  have h2 := (kept_iff calls n ws).mpr h2
  rw [h1] at h2
  exact Option.some.inj h2

/-- C234: the counters count the lookups since the last `clear`: those that were answered and those that were not. -/
theorem C234_counters (calls before since : List (Call α)) (h : Since calls before since) :
    Count (Answered calls) before.length calls.length ((Cache.new : Cache α).run calls).hits ∧
    Count (Unanswered calls) before.length calls.length ((Cache.new : Cache α).run calls).misses := by
  obtain ⟨rfl, hb, hs⟩ := h
  exact counters before since hb hs

/-- C234: there is always a last `clear`, or the beginning. -/
theorem C234_since (calls : List (Call α)) : ∃ before since, Since calls before since := by
  induction calls using List.reverseRecOn with
  | nil => exact ⟨[], [], rfl, .inl rfl, by simp⟩
  | append_singleton cs x ih =>
    obtain ⟨b, s, rfl, hb, hs⟩ := ih
    cases x with
    | clear => exact ⟨b ++ s ++ [.clear], [], by simp, .inr ⟨_, rfl⟩, by simp⟩
    | get m => exact ⟨b, s ++ [.get m], by simp, hb, by simp [hs]⟩
    | put m vs => exact ⟨b, s ++ [.put m vs], by simp, hb, by simp [hs]⟩
    | invalidate m => exact ⟨b, s ++ [.invalidate m], by simp, hb, by simp [hs]⟩

/-- C234: the rate is the part of the lookups that were answered: between 0 and 1, 1 if all were, 0 if none or there were none. -/
theorem C234_rate (c : Cache α) : 0 ≤ c.hitRate ∧ c.hitRate ≤ 1 ∧ (c.hitRate = 0 ↔ c.hits = 0) ∧
    (c.hitRate = 1 ↔ c.misses = 0 ∧ c.hits ≠ 0) ∧ c.hitRate * ((c.hits : ℚ) + (c.misses : ℚ)) = c.hits := by
  unfold Cache.hitRate
  by_cases h : c.hits + c.misses = 0
  · have h1 : c.hits = 0 := by omega
    have h2 : c.misses = 0 := by omega
    simp [h1, h2]
  · simp only [if_neg h]
    have hq : (0 : ℚ) < ((c.hits + c.misses : ℕ) : ℚ) := by exact_mod_cast Nat.pos_of_ne_zero h
    have hle : (c.hits : ℚ) ≤ ((c.hits + c.misses : ℕ) : ℚ) := by exact_mod_cast Nat.le_add_right _ _
    refine ⟨div_nonneg (by positivity) hq.le, (div_le_one hq).mpr hle, ?_, ?_, ?_⟩
    · rw [div_eq_zero_iff]
      constructor
      · rintro (h1 | h1)
        · exact_mod_cast h1
        · exact absurd h1 hq.ne'
      · intro h1
        left
        exact_mod_cast h1
    · rw [div_eq_one_iff_eq hq.ne']
      constructor
      · intro h1
        have h1 : c.hits = c.hits + c.misses := by exact_mod_cast h1
        omega
      · rintro ⟨h1, -⟩
        rw [h1]
        rfl
    · rw [← Nat.cast_add, div_mul_cancel₀ _ hq.ne']

/-- C234: looking something up changes nothing that can be looked up. -/
theorem C234_lookup (c : Cache α) (m n : Str) : ((c.get m).2.get n).1 = (c.get n).1 ∧ (c.get m).2.hits + (c.get m).2.misses = c.hits + c.misses + 1 := by
  constructor
  · rw [get_fst, get_fst]
    unfold Cache.get
    split <;> rfl
  · unfold Cache.get
    split <;> simp only <;> omega

/-! ## Reductions -/

/-- C234: reductions are kept in the order they were added, and the count is their number. -/
theorem C234_reductions (rs : List Reduction) : let t := rs.foldl Total.add Total.new
    t.reductions = rs ∧ t.count = rs.length ∧ t.len = t.count ∧ (t.isEmpty = true ↔ rs = []) ∧
    t.repr = c!"<TotalReduction count=" ++ decimal rs.length ++ c!">" := by
  have h : ∀ t : Total, (rs.foldl Total.add t).reductions = t.reductions ++ rs ∧ (rs.foldl Total.add t).count = t.count + rs.length := by
    induction rs with
    | nil => exact fun t => ⟨by simp, by simp⟩
    | cons r rs ih =>
      intro t
      obtain ⟨h1, h2⟩ := ih (t.add r)
      rw [List.foldl_cons, h1, h2]
      simp only [Total.add, List.append_assoc, List.singleton_append, List.length_cons]
      exact ⟨trivial, by omega⟩
  obtain ⟨h1, h2⟩ := h Total.new
  simp only [Total.new, List.nil_append, Nat.zero_add] at h1 h2
  simp only [Total.len, Total.isEmpty, Total.repr, Total.new, h1, h2, List.isEmpty_iff, and_self]

/-! ## Modes and statuses -/

/-- C234: a mode is its number and its text. -/
theorem C234_modes (m : Mode) (v : Int) : (Mode.ofValue v = some m ↔ v = m.value) ∧ (Mode.ofValue v = none ↔ v ≠ 0 ∧ v ≠ 1) ∧
    ∀ m', m.show = m'.show → m = m' := by
  refine ⟨?_, ?_, fun m' => by cases m <;> cases m' <;> decide⟩
  · unfold Mode.ofValue
    cases m <;> simp only [Mode.value] <;> split
    · simp_all
    · split <;> simp_all
    · simp_all
    · split <;> simp_all
  · unfold Mode.ofValue
    split
    · simp_all
    · split <;> simp_all

/-- C234: statuses are told apart by name, and what is shown begins with it. -/
theorem C234_statuses (s t : Status) : (s.name = t.name → s = t) ∧ (s.show = t.show → s = t) ∧ (s.name ++ c!" (") <+: s.show := by
  refine ⟨by cases s <;> cases t <;> decide, ?_, ?_⟩
  · cases s <;> cases t <;> intro h <;> first | rfl | (revert h; decide +kernel)
  · unfold Status.show
    rw [List.append_assoc (s.name ++ c!" (")]
    exact List.prefix_append _ _

/-! ## Where it is false, and examples -/

/-- C234 is false of reductions read from a file: the count is whatever was written. -/
theorem C234_file_false : ∃ t : Total, t.count ≠ t.len := ⟨⟨[], 5⟩, by decide⟩

/-- C234 is false of the counters over the whole life: `clear` forgets them. -/
theorem C234_clear_false : ((Cache.new : Cache Nat).run [.put c!"a" [1], .get c!"a", .clear, .get c!"a"]).hits = 0 ∧
    ((Cache.new : Cache Nat).run [.put c!"a" [1], .get c!"a", .clear, .get c!"a"]).misses = 1 ∧
    ((Cache.new : Cache Nat).run [.put c!"a" [1], .get c!"a", .invalidate c!"a", .get c!"a"]).hits = 1 := by decide +kernel

example : Kept [Call.put c!"a" [1], .put c!"b" [2], .put c!"a" [3], .get c!"b", .invalidate c!"b"] c!"a" [3] :=
  ⟨[.put c!"a" [1], .put c!"b" [2]], [.get c!"b", .invalidate c!"b"], rfl, by
    intro c hc
    simp only [List.mem_cons, List.not_mem_nil, or_false] at hc
    rcases hc with rfl | rfl
    · exact fun h => h
    · exact fun h => by
        unfold Ends at h
        revert h
        decide⟩

example : Since [Call.get c!"a", .clear, .put c!"a" [1], .get c!"a"] [.get c!"a", .clear] [.put c!"a" [1], .get c!"a"] :=
  ⟨rfl, .inr ⟨[.get c!"a"], rfl⟩, by simp⟩

example : ((Cache.new : Cache Nat).run [.put c!"a" [1], .get c!"a", .get c!"b", .get c!"a"]).hits = 2 := by decide +kernel

end Rez.Props
