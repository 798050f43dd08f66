import Verif.Spec.Preheater
import Verif.Lemmas.Locks
import Verif.Lemmas.LocksExec
import Mathlib.Tactic.Linarith
import Mathlib.Tactic.Positivity
import Mathlib.Tactic.FieldSimp
import Mathlib.Tactic.NormNum
import Mathlib.Algebra.Order.BigOperators.Group.List
/-!
# C218 Predicting accesses
-/
namespace Rez.Props
open Rez Rez.Preheater Rez.Preheater.Spec

/-! ## What is kept of the accesses -/

theorem record_times (root : ℚ → ℚ) (p : Pattern) (t : Int) :
    (p.record root t).times = (p.times ++ [t]).dropWhile fun x => x < t - day := by
  unfold Pattern.record Pattern.update
  split <;> rfl

theorem dropWhile_lt_filter (c : Int) (l : List Int) (h : l.Pairwise (· ≤ ·)) :
    (l.dropWhile fun x => x < c) = l.filter fun x => decide (c ≤ x) := by
  induction l with
  | nil => rfl
  | cons a l ih =>
    rw [List.pairwise_cons] at h
    by_cases ha : a < c
    · rw [List.dropWhile_cons_of_pos (by simpa using ha), List.filter_cons_of_neg (by simpa using ha), ih h.2]
    · rw [List.dropWhile_cons_of_neg (by simpa using ha), List.filter_cons_of_pos (by simpa using ha)]
      congr 1
      symm
      apply List.filter_eq_self.mpr
      intro x hx
      have := h.1 x hx
      simp only [decide_eq_true_eq]; omega

/-- The history of one key. -/
def patternOf (root : ℚ → ℚ) (times : List Int) : Pattern := times.foldl (Pattern.record root) Pattern.new

theorem patternOf_append (root : ℚ → ℚ) (times : List Int) (t : Int) :
    patternOf root (times ++ [t]) = (patternOf root times).record root t := by simp [patternOf]

theorem lastDay_day (times : List Int) : lastDay times = match times.getLast? with
    | none => []
    | some last => times.filter fun t => decide (last - day ≤ t) := by
  have : (day : Int) = 24 * 60 * 60 * 1000000000 := by decide
  unfold lastDay
  rw [this]
  cases times.getLast? <;> rfl

/-- With a clock that does not go back, the accesses kept are those of the 24 hours before the last one. -/
theorem patternOf_times (root : ℚ → ℚ) (times : List Int) (h : Forward times) : (patternOf root times).times = lastDay times := by
  induction times using List.reverseRecOn with
  | nil => rfl
  | append_singleton times t ih =>
    have hp := List.pairwise_append.mp h
    rw [patternOf_append, record_times, ih hp.1, lastDay_day, lastDay_day]
    rw [List.getLast?_append]
    simp only [List.getLast?_singleton, Option.some_or]
    rcases hl : times.getLast? with _ | last
    · have : times = [] := List.getLast?_eq_none_iff.mp hl
      subst this
      exact dropWhile_lt_filter _ _ (by simp)
    · have hlast : last ≤ t := hp.2.2 last (List.mem_of_getLast? hl) t (by simp)
      simp only
      rw [dropWhile_lt_filter]
      · rw [List.filter_append, List.filter_append, List.filter_filter]
        congr 1
        apply List.filter_congr
        intro x hx
        have : (t - (day : Int) ≤ x → last - day ≤ x) := by omega
        by_cases h1 : t - (day : Int) ≤ x
        · simp [h1, this h1]
        · simp [h1]
      · refine List.pairwise_append.mpr ⟨hp.1.filter _, by simp, fun a ha b hb => hp.2.2 a (List.mem_filter.mp ha).1 b hb⟩

/-- The pattern of a key depends on its accesses only. -/
theorem run_pattern {K : Type} [DecidableEq K] (c : Config) (hc : c.learning = true) (root : ℚ → ℚ) (score : Pattern → Int → ℚ)
    (ops : List (Op K)) (k : K) :
    (mget (run c root score ops).patterns k = none ∧ accesses k ops = []) ∨
      (mget (run c root score ops).patterns k = some (patternOf root (accesses k ops)) ∧ accesses k ops ≠ []) := by
  have acc : ∀ (ops : List (Op K)) (o : Op K), accesses k (ops ++ [o]) = accesses k ops ++ accesses k [o] := by
    intro ops o
    induction ops with
    | nil => rfl
    | cons a ops ih =>
      cases a with
      | access k' t => by_cases h : k' = k <;> simp [accesses, h, ih]
      | _ => simpa [accesses] using ih
  induction ops using List.reverseRecOn with
  | nil => exact Or.inl ⟨rfl, rfl⟩
  | append_singleton ops o ih =>
    have hr : run c root score (ops ++ [o]) = step c root score (run c root score ops) o := by simp [run]
    rw [hr, acc]
    generalize run c root score ops = s at *
    cases o with
    | access k' t =>
      simp only [step, recordAccess, hc, Bool.not_true, Bool.false_eq_true, if_false, mget_mset]
      by_cases h : k = k'
      · subst h
        right
        simp only [if_true, accesses]
        refine ⟨?_, by simp⟩
        rw [patternOf_append]
        rcases ih with ⟨h1, h2⟩ | ⟨h1, -⟩
        · rw [h1, h2]; rfl
        · rw [h1]; rfl
      · have h' : ¬k' = k := fun e => h e.symm
        simpa [h, h', accesses] using ih
    | predict k' t =>
      have : (step c root score s (.predict k' t)).patterns = s.patterns := by
        simp only [step, predictAndPreheat]
        split
        · rfl
        · split
          · rfl
          · split
            · rfl
            · split <;> rfl
      rw [this]
      simpa [accesses] using ih
    | recommend t => simpa [accesses, step, recommendations] using ih
    | outcome hit =>
      have : (step c root score s (.outcome hit)).patterns = s.patterns := by simp only [step, outcome]; split <;> rfl
      rw [this]
      simpa [accesses] using ih

/-- What is known about a key are its accesses of the 24 hours before the last one, while learning is on and the clock does not go
back. -/
theorem C218_kept {K : Type} [DecidableEq K] (c : Config) (hc : c.learning = true) (root : ℚ → ℚ) (score : Pattern → Int → ℚ)
    (ops : List (Op K)) (k : K) (hf : Forward (accesses k ops)) :
    ((mget (run c root score ops).patterns k).map Pattern.times).getD [] = lastDay (accesses k ops) := by
  rcases run_pattern c hc root score ops k with ⟨h1, h2⟩ | ⟨h1, -⟩
  · rw [h1, h2]; rfl
  · rw [h1]; exact patternOf_times root _ hf

/-- How many patterns are learned: one for each key that was accessed, while learning is on. -/
theorem C218_learned {K : Type} [DecidableEq K] (c : Config) (hc : c.learning = true) (root : ℚ → ℚ) (score : Pattern → Int → ℚ)
    (ops : List (Op K)) : (run c root score ops).stats.learned = (accessed ops).toFinset.card := by
  have key : (mkeys (run c root score ops).patterns).Nodup ∧
      (∀ k, k ∈ mkeys (run c root score ops).patterns ↔ k ∈ accessed ops) ∧
      (run c root score ops).stats.learned = (run c root score ops).patterns.length := by
    induction ops using List.reverseRecOn with
    | nil => exact ⟨List.nodup_nil, fun k => by simp [run, State.new, accessed, mkeys], rfl⟩
    | append_singleton ops o ih =>
      have hr : run c root score (ops ++ [o]) = step c root score (run c root score ops) o := by simp [run]
      have ha : accessed (ops ++ [o]) = accessed ops ++ accessed [o] := by simp [accessed]
      rw [hr, ha]
      generalize run c root score ops = s at *
      obtain ⟨h1, h2, h3⟩ := ih
      cases o with
      | access k t =>
        have e : step c root score s (.access k t) = { s with
            patterns := mset s.patterns k (((mget s.patterns k).getD Pattern.new).record root t)
            stats := { s.stats with
              learned := (mset s.patterns k (((mget s.patterns k).getD Pattern.new).record root t)).length } } := by
          simp only [step, recordAccess, hc, Bool.not_true, Bool.false_eq_true, if_false]
        rw [e]
        refine ⟨nodup_mset h1 _ _, fun j => ?_, rfl⟩
        rw [mem_mkeys_mset, h2]
        simp [accessed, or_comm]
      | predict k t =>
        have e : (step c root score s (.predict k t)).patterns = s.patterns ∧
            (step c root score s (.predict k t)).stats.learned = s.stats.learned := by
          simp only [step, predictAndPreheat]
          split
          · exact ⟨rfl, rfl⟩
          · split
            · exact ⟨rfl, rfl⟩
            · split
              · exact ⟨rfl, rfl⟩
              · split <;> exact ⟨rfl, rfl⟩
        rw [e.1, e.2]
        exact ⟨h1, fun j => by rw [h2]; simp [accessed], h3⟩
      | recommend t => exact ⟨h1, fun j => by rw [show (step c root score s (.recommend t)).patterns = s.patterns from rfl, h2]; simp [accessed], h3⟩
      | outcome hit =>
        have e : (step c root score s (.outcome hit)).patterns = s.patterns ∧
            (step c root score s (.outcome hit)).stats.learned = s.stats.learned := by
          simp only [step, outcome]; split <;> exact ⟨rfl, rfl⟩
        rw [e.1, e.2]
        exact ⟨h1, fun j => by rw [h2]; simp [accessed], h3⟩
  obtain ⟨h1, h2, h3⟩ := key
  rw [h3, ← List.length_map (f := Prod.fst)]
  show (mkeys _).length = _
  rw [← List.toFinset_card_of_nodup h1]
  congr 1
  ext k
  simp [h2]

/-! ## Numbers -/

/-- The frequency after an access: the accesses kept per hour between the first and the last of them, and nothing if they were at the
same time. -/
theorem C218_frequency (root : ℚ → ℚ) (p : Pattern) (t first last : Int) (h2 : 2 ≤ (p.record root t).times.length)
    (hf : (p.record root t).times.head? = some first) (hl : (p.record root t).times.getLast? = some last) :
    (first < last → (p.record root t).frequency * (last - first) = (p.record root t).times.length * (60 * 60 * 1000000000)) ∧
    (first = last → (p.record root t).frequency = 0) := by
  have hfr : (p.record root t).frequency = frequencyOf (p.record root t).times := by
    rw [record_times] at *
    unfold Pattern.record Pattern.update
    rw [if_neg (by simpa using (by omega))]
  rw [hfr]
  generalize (p.record root t).times = ts at *
  have he : frequencyOf ts = if (if first ≤ last then gap first last else second) = 0 then 0
      else (ts.length : ℚ) / (((if first ≤ last then gap first last else second : Nat) : ℚ) / second / 3600) := by
    simp only [frequencyOf, hf, hl]
  rw [he]
  constructor
  · intro h
    have hn : (last - first).toNat ≠ 0 := by omega
    have hc : (((last - first).toNat : Nat) : ℚ) = last - first := by
      have : (((last - first).toNat : Nat) : Int) = last - first := Int.toNat_of_nonneg (by omega)
      exact_mod_cast congrArg (Int.cast (R := ℚ)) this
    have hpos : (last : ℚ) - first ≠ 0 := by
      have : (first : ℚ) < last := by exact_mod_cast h
      linarith
    rw [show (if first ≤ last then gap first last else second) = (last - first).toNat from if_pos h.le, if_neg hn, hc]
    simp only [second]
    push_cast
    field_simp
    try norm_num
  · rintro rfl
    simp [gap]

theorem gap_sum (times : List Int) (h : Forward times) (a b : Int) (ha : times.head? = some a) (hb : times.getLast? = some b) :
    ((intervals times).sum : Int) = b - a := by
  induction times generalizing a with
  | nil => cases ha
  | cons x l ih =>
    have hx : x = a := by simpa using ha
    subst hx
    unfold Forward at h
    rw [List.pairwise_cons] at h
    cases l with
    | nil =>
      have : x = b := by simpa using hb
      subst this
      simp [intervals]
    | cons y l =>
      have := ih h.2 y rfl (by simpa using hb)
      have hxy := h.1 y (by simp)
      have e : intervals (x :: y :: l) = gap x y :: intervals (y :: l) := rfl
      rw [e, List.sum_cons]
      push_cast
      rw [this, gap, Int.toNat_of_nonneg (by omega)]
      omega

theorem intervals_length (times : List Int) : (intervals times).length = times.length - 1 := by
  simp [intervals]

/-- A prediction needs two accesses and a confidence of 0.3, and is then the last access plus the average interval. -/
theorem C218_predicted (p : Pattern) (hf : Forward p.times) (t : Int) :
    p.predict = some t ↔ 2 ≤ p.times.length ∧ 3 / 10 ≤ p.confidence ∧
      ∃ first last, p.times.head? = some first ∧ p.times.getLast? = some last ∧
        t = last + (last - first) / (p.times.length - 1 : Nat) := by
  unfold Pattern.predict
  by_cases h : p.times.length < 2 ∨ p.confidence < 3 / 10
  · rw [if_pos h]
    constructor
    · intro hh; cases hh
    · rintro ⟨h1, h2, -⟩
      rcases h with h | h
      · omega
      · exact absurd h2 (not_le.mpr h)
  · rw [if_neg h]
    simp only [not_or, not_lt] at h
    obtain ⟨a, l, hl⟩ : ∃ a l, p.times = a :: l := by
      cases hp : p.times with
      | nil => simp [hp] at h
      | cons a l => exact ⟨a, l, rfl⟩
    obtain ⟨b, hb⟩ : ∃ b, p.times.getLast? = some b := by rw [hl]; exact ⟨_, List.getLast?_eq_some_getLast (by simp)⟩
    have hs := gap_sum p.times hf a b (by rw [hl]; rfl) hb
    rw [hb]
    simp only [Option.some.injEq]
    have he : ((intervals p.times).sum / (intervals p.times).length : Nat) = (b - a) / ((p.times.length - 1 : Nat) : Int) := by
      rw [intervals_length, Int.natCast_div, hs]
    constructor
    · intro hh
      refine ⟨h.1, h.2, a, b, by rw [hl]; rfl, rfl, ?_⟩
      rw [← hh, he]
    · rintro ⟨-, -, a', b', ha', hb', rfl⟩
      have : a' = a := by rw [hl] at ha'; simpa using ha'.symm
      have : b' = b := hb'.symm
      subst_vars
      rw [he]

theorem frequencyOf_nonneg (times : List Int) : 0 ≤ frequencyOf times := by
  unfold frequencyOf
  split
  · simp only
    rename_i a b _ _
    generalize (if a ≤ b then gap a b else second) = n
    split
    · exact le_refl (0 : ℚ)
    · have : (0 : ℚ) ≤ second := by simp [second]
      positivity
  · exact le_refl (0 : ℚ)

theorem mean_nonneg (l : List Nat) : 0 ≤ mean l := by
  unfold mean
  apply div_nonneg _ (by positivity)
  apply List.sum_nonneg
  intro x hx
  obtain ⟨y, -, rfl⟩ := List.mem_map.mp hx
  positivity

theorem regularityOf_range (root : ℚ → ℚ) (hr : Root root) (times : List Int) :
    0 ≤ regularityOf root times ∧ regularityOf root times ≤ 1 := by
  unfold regularityOf
  simp only
  split
  · rename_i hm
    have h0 := div_nonneg (hr.nonneg (variance (intervals times))) hm.le
    constructor
    · exact one_div_nonneg.mpr (by linarith)
    · rw [div_le_one (by linarith)]; linarith
  · exact ⟨le_refl _, by norm_num⟩

/-- The numbers of a pattern are in their ranges. -/
def InRange (p : Pattern) : Prop :=
  0 ≤ p.frequency ∧ (0 ≤ p.regularity ∧ p.regularity ≤ 1) ∧ (0 ≤ p.confidence ∧ p.confidence ≤ 1)

theorem record_range (root : ℚ → ℚ) (hr : Root root) (p : Pattern) (h : InRange p) (t : Int) : InRange (p.record root t) := by
  unfold Pattern.record Pattern.update
  split
  · exact h
  · simp only
    generalize List.dropWhile (fun x => decide (x < t - (day : Int))) (p.times ++ [t]) = ts
    have hreg : 0 ≤ (if ts.length ≥ 3 then regularityOf root ts else p.regularity) ∧
        (if ts.length ≥ 3 then regularityOf root ts else p.regularity) ≤ 1 := by
      split
      · exact regularityOf_range root hr ts
      · exact h.2.1
    generalize (if ts.length ≥ 3 then regularityOf root ts else p.regularity) = r at *
    have hf := frequencyOf_nonneg ts
    have h1 : 0 ≤ min (frequencyOf ts) 10 / 10 := by
      have : 0 ≤ min (frequencyOf ts) 10 := le_min hf (by norm_num)
      linarith
    have h2 : min (frequencyOf ts) 10 / 10 ≤ 1 := by
      have : min (frequencyOf ts) 10 ≤ 10 := min_le_right _ _
      linarith
    refine ⟨hf, hreg, mul_nonneg h1 hreg.1, ?_⟩
    exact mul_le_one₀ h2 hreg.1 hreg.2

/-- Regularity and confidence are between 0 and 1 after any history of accesses. -/
theorem C218_range {K : Type} [DecidableEq K] (c : Config) (root : ℚ → ℚ) (hr : Root root) (score : Pattern → Int → ℚ)
    (ops : List (Op K)) (k : K) (p : Pattern) (h : mget (run c root score ops).patterns k = some p) :
    0 ≤ p.frequency ∧ (0 ≤ p.regularity ∧ p.regularity ≤ 1) ∧ (0 ≤ p.confidence ∧ p.confidence ≤ 1) := by
  have key : ∀ times, InRange (patternOf root times) := by
    intro times
    induction times using List.reverseRecOn with
    | nil => exact ⟨le_refl _, ⟨le_refl _, by norm_num [patternOf, Pattern.new]⟩, le_refl _, by norm_num [patternOf, Pattern.new]⟩
    | append_singleton times t ih => rw [patternOf_append]; exact record_range root hr _ ih t
  by_cases hc : c.learning = true
  · rcases run_pattern c hc root score ops k with ⟨h1, -⟩ | ⟨h1, -⟩
    · rw [h1] at h; cases h
    · rw [h1] at h; cases h; exact key _
  · -- nothing is learnt
    exfalso
    have : ∀ ops : List (Op K), (run c root score ops).patterns = [] := by
      intro ops
      induction ops using List.reverseRecOn with
      | nil => rfl
      | append_singleton ops o ih =>
        have hr : run c root score (ops ++ [o]) = step c root score (run c root score ops) o := by simp [run]
        rw [hr]
        generalize run c root score ops = s at *
        cases o with
        | access k' t => simp [step, recordAccess, hc, ih]
        | predict k' t => simp [step, predictAndPreheat, ih]
        | recommend t => simpa [step, recommendations] using ih
        | outcome hit => simp only [step, outcome]; split <;> exact ih
    rw [this] at h; cases h

/-- The average of equal numbers. -/
theorem mean_even {l : List Nat} {d : Nat} (hl : l ≠ []) (h : ∀ x ∈ l, x = d) : mean l = (d : ℚ) / second := by
  have e : l = List.replicate l.length d := List.eq_replicate_iff.mpr ⟨rfl, h⟩
  have hn : (l.length : ℚ) ≠ 0 := by simpa using hl
  unfold mean
  have : (l.map fun x : Nat => (x : ℚ) / second) = List.replicate l.length ((d : ℚ) / second) := by
    rw [List.eq_replicate_iff]
    exact ⟨by simp, by intro b hb; obtain ⟨x, hx, rfl⟩ := List.mem_map.mp hb; rw [h x hx]⟩
  rw [this, List.sum_replicate, nsmul_eq_mul]
  field_simp

theorem variance_zero_iff (l : List Nat) : variance l = 0 ↔ AllEqual l := by
  by_cases hl : l = []
  · subst hl; simp [variance, AllEqual]
  have hn : (l.length : ℚ) ≠ 0 := by simpa using hl
  have hsec : (second : ℚ) ≠ 0 := by simp [second]
  unfold variance
  rw [div_eq_zero_iff, or_iff_left hn]
  constructor
  · intro h
    have hz : ∀ x ∈ l, ((x : ℚ) / second - mean l) ^ 2 = 0 := by
      intro x hx
      have hall : ∀ y ∈ (l.map fun x : Nat => ((x : ℚ) / second - mean l) ^ 2), 0 ≤ y := by
        intro y hy
        obtain ⟨z, -, rfl⟩ := List.mem_map.mp hy
        positivity
      have hle := List.single_le_sum hall _ (List.mem_map.mpr ⟨x, hx, rfl⟩)
      rw [h] at hle
      exact le_antisymm hle (by positivity)
    intro a ha b hb
    have h1 : (a : ℚ) / second = mean l := sub_eq_zero.mp (pow_eq_zero_iff (two_ne_zero) |>.mp (hz a ha))
    have h2 : (b : ℚ) / second = mean l := sub_eq_zero.mp (pow_eq_zero_iff (two_ne_zero) |>.mp (hz b hb))
    have h3 : (a : ℚ) / second = (b : ℚ) / second := h1.trans h2.symm
    have := (div_left_inj' hsec).mp h3
    exact_mod_cast this
  · intro h
    obtain ⟨d, l', rfl⟩ := List.exists_cons_of_ne_nil hl
    have hd : ∀ x ∈ d :: l', x = d := fun x hx => h x hx d (by simp)
    rw [mean_even hl hd]
    apply List.sum_eq_zero
    intro y hy
    obtain ⟨x, hx, rfl⟩ := List.mem_map.mp hy
    rw [hd x hx]; simp

/-- Three accesses or more are perfectly regular exactly if they are evenly spaced, at different times. -/
theorem C218_regular (root : ℚ → ℚ) (hr : Root root) (p : Pattern) (t : Int)
    (h3 : 3 ≤ (p.record root t).times.length) :
    (p.record root t).regularity = 1 ↔
      AllEqual (intervals (p.record root t).times) ∧ ∃ d ∈ intervals (p.record root t).times, 0 < d := by
  have hreg : (p.record root t).regularity = regularityOf root (p.record root t).times := by
    rw [record_times] at *
    unfold Pattern.record Pattern.update
    rw [if_neg (by simpa using (by omega))]
    simp only [ge_iff_le]
    rw [if_pos h3]
  rw [hreg]
  generalize (p.record root t).times = ts at *
  have hlen : (intervals ts).length ≠ 0 := by rw [intervals_length]; omega
  have hne : intervals ts ≠ [] := fun e => hlen (by rw [e]; rfl)
  have hsec : (0 : ℚ) < second := by simp [second]
  have hmean : mean (intervals ts) > 0 ↔ ∃ d ∈ intervals ts, 0 < d := by
    unfold mean
    rw [gt_iff_lt, div_pos_iff_of_pos_right (by exact_mod_cast Nat.pos_of_ne_zero hlen)]
    constructor
    · intro h
      by_contra hn
      push Not at hn
      have : ((intervals ts).map fun x : Nat => (x : ℚ) / second).sum = 0 := by
        apply List.sum_eq_zero
        intro y hy
        obtain ⟨x, hx, rfl⟩ := List.mem_map.mp hy
        have := hn x hx
        have : x = 0 := by omega
        simp [this]
      rw [this] at h; exact absurd h (lt_irrefl _)
    · rintro ⟨d, hd, hpos⟩
      have hall : ∀ y ∈ ((intervals ts).map fun x : Nat => (x : ℚ) / second), 0 ≤ y := by
        intro y hy
        obtain ⟨x, -, rfl⟩ := List.mem_map.mp hy
        positivity
      have hle := List.single_le_sum hall _ (List.mem_map.mpr ⟨d, hd, rfl⟩)
      have : (0 : ℚ) < (d : ℚ) / second := div_pos (by exact_mod_cast hpos) hsec
      linarith
  unfold regularityOf
  simp only
  by_cases hm : mean (intervals ts) > 0
  · rw [if_pos hm]
    rw [and_iff_left (hmean.mp hm), ← variance_zero_iff]
    have h0 := div_nonneg (hr.nonneg (variance (intervals ts))) hm.le
    rw [div_eq_one_iff_eq (by linarith)]
    constructor
    · intro h
      have hz : root (variance (intervals ts)) / mean (intervals ts) = 0 := by linarith
      have hz' : root (variance (intervals ts)) = 0 := by
        rcases div_eq_zero_iff.mp hz with h | h
        · exact h
        · exact absurd h (ne_of_gt hm)
      by_contra hv
      have hvn : 0 ≤ variance (intervals ts) := by
        unfold variance
        apply div_nonneg _ (by positivity)
        apply List.sum_nonneg
        intro y hy
        obtain ⟨x, -, rfl⟩ := List.mem_map.mp hy
        positivity
      have := hr.pos _ (lt_of_le_of_ne hvn (Ne.symm hv))
      linarith
    · intro h; rw [h, hr.zero]; simp
  · rw [if_neg hm]
    constructor
    · intro h; norm_num at h
    · rintro ⟨-, h⟩; exact absurd (hmean.mpr h) hm

/-! ## The queue -/

/-- When a prediction is queued: prediction is on, the key has a pattern that predicts, with the confidence asked for.  Otherwise
nothing changes. -/
theorem C218_queued {K : Type} [DecidableEq K] (c : Config) (score : Pattern → Int → ℚ) (s : State K) (k : K) (now : Int) :
    (∃ p t, c.predictive = true ∧ mget s.patterns k = some p ∧ p.predict = some t ∧ c.minConfidence ≤ p.confidence ∧
      (predictAndPreheat c score s k now).stats.predictions = s.stats.predictions + 1 ∧
      (predictAndPreheat c score s k now).queue <:+ s.queue ++ [(k, score p now, t)] ∧
      (s.queue.length < c.maxQueue → (predictAndPreheat c score s k now).queue = s.queue ++ [(k, score p now, t)])) ∨
    ((∀ p t, ¬(c.predictive = true ∧ mget s.patterns k = some p ∧ p.predict = some t ∧ c.minConfidence ≤ p.confidence)) ∧
      predictAndPreheat c score s k now = s) := by
  unfold predictAndPreheat
  by_cases hp : c.predictive = true
  swap
  · right; exact ⟨fun p t h => hp h.1, by simp [hp]⟩
  simp only [hp, Bool.not_true, Bool.false_eq_true, if_false]
  rcases hg : mget s.patterns k with _ | p
  · right; exact ⟨fun p t h => by simp at h, rfl⟩
  simp only
  rcases ht : p.predict with _ | t
  · right
    refine ⟨?_, rfl⟩
    rintro p' t ⟨-, h1, h2, -⟩
    cases h1; rw [ht] at h2; cases h2
  simp only
  by_cases hc : p.confidence ≥ c.minConfidence
  · left
    rw [if_pos hc]
    refine ⟨p, t, trivial, rfl, ht, hc, rfl, ?_, ?_⟩
    · simp only; split
      · exact List.tail_suffix _
      · exact List.suffix_refl _
    · intro hl
      simp only
      rw [if_neg]
      simp; omega
  · right
    rw [if_neg hc]
    refine ⟨?_, rfl⟩
    rintro p' t' ⟨-, h1, h2, h3⟩
    cases h1; exact hc h3

/-- The queue never holds more than it may. -/
theorem C218_bound {K : Type} [DecidableEq K] (c : Config) (root : ℚ → ℚ) (score : Pattern → Int → ℚ) (ops : List (Op K)) :
    (run c root score ops).queue.length ≤ c.maxQueue := by
  induction ops using List.reverseRecOn with
  | nil => exact Nat.zero_le _
  | append_singleton ops o ih =>
    have hr : run c root score (ops ++ [o]) = step c root score (run c root score ops) o := by simp [run]
    rw [hr]
    generalize run c root score ops = s at *
    cases o with
    | access k t => simp only [step, recordAccess]; split <;> exact ih
    | predict k t =>
      simp only [step, predictAndPreheat]
      split
      · exact ih
      · split
        · exact ih
        · split
          · exact ih
          · split
            · simp only
              split
              · simp; omega
              · rename_i h; omega
            · exact ih
    | recommend t => exact le_trans (List.length_filter_le _ _) ih
    | outcome hit => simp only [step, outcome]; split <;> exact ih

/-- A key is queued only after three accesses. -/
theorem C218_third {K : Type} [DecidableEq K] (c : Config) (root : ℚ → ℚ) (score : Pattern → Int → ℚ) (ops : List (Op K))
    (e : K × ℚ × Int) (he : e ∈ (run c root score ops).queue) : 3 ≤ (accesses e.1 ops).length := by
  have hlen : ∀ times, (patternOf root times).times.length ≤ times.length ∧
      ((patternOf root times).confidence ≠ 0 → 3 ≤ times.length) ∧ ((patternOf root times).regularity ≠ 0 → 3 ≤ times.length) := by
    intro times
    induction times using List.reverseRecOn with
    | nil => simp [patternOf, Pattern.new]
    | append_singleton times t ih =>
      rw [patternOf_append]
      generalize patternOf root times = p at *
      have h1 : (p.record root t).times.length ≤ (times ++ [t]).length := by
        rw [record_times]
        have := (List.dropWhile_suffix (fun x => decide (x < t - (day : Int))) (l := p.times ++ [t])).length_le
        simp at this ⊢; omega
      have hreg : (p.record root t).regularity ≠ 0 → 3 ≤ (times ++ [t]).length := by
        intro h
        by_contra hn
        apply h
        rw [record_times] at h1
        unfold Pattern.record Pattern.update
        split
        · by_contra h0; have := ih.2.2 h0; simp at hn; omega
        · simp only
          rw [if_neg (by omega)]
          by_contra h0; have := ih.2.2 h0; simp at hn; omega
      refine ⟨h1, ?_, hreg⟩
      intro h
      by_contra hn
      apply h
      have hr0 : (p.record root t).regularity = 0 := by by_contra h0; exact hn (hreg h0)
      revert hr0
      unfold Pattern.record Pattern.update
      split
      · intro _
        by_contra h0; have := ih.2.1 h0; simp at hn; omega
      · intro hr0
        simp only at hr0 ⊢
        rw [hr0, mul_zero]
  have hmono : ∀ (ops : List (Op K)) (o : Op K) (k : K), (accesses k ops).length ≤ (accesses k (ops ++ [o])).length := by
    intro ops o k
    induction ops with
    | nil => exact Nat.zero_le _
    | cons a ops ih =>
      cases a with
      | access k' t => by_cases h : k' = k <;> simp [accesses, h, ih]
      | _ => simpa [accesses] using ih
  induction ops using List.reverseRecOn with
  | nil => cases he
  | append_singleton ops o ih =>
    have hr : run c root score (ops ++ [o]) = step c root score (run c root score ops) o := by simp [run]
    rw [hr] at he
    have old : e ∈ (run c root score ops).queue → 3 ≤ (accesses e.1 (ops ++ [o])).length :=
      fun h => le_trans (ih h) (hmono ops o e.1)
    cases o with
    | access k t => apply old; simp only [step, recordAccess] at he; split at he <;> exact he
    | recommend t => exact old (List.mem_filter.mp he).1
    | outcome hit => apply old; simp only [step, outcome] at he; split at he <;> exact he
    | predict k t =>
      rcases C218_queued c score (run c root score ops) k t with ⟨p, t', -, h2, h3, -, -, h5, -⟩ | ⟨-, h⟩
      · have hm := h5.subset he
        rcases List.mem_append.mp hm with h | h
        · exact old h
        · have hek : e.1 = k := by rw [List.mem_singleton.mp h]
          refine le_trans ?_ (hmono ops _ e.1)
          rw [hek]
          by_cases hc : c.learning = true
          · rcases run_pattern c hc root score ops k with ⟨h1, -⟩ | ⟨h1, -⟩
            · rw [h1] at h2; cases h2
            · rw [h1] at h2; cases h2
              apply (hlen (accesses k ops)).2.1
              intro h0
              unfold Pattern.predict at h3
              rw [if_pos (Or.inr (by rw [h0]; norm_num))] at h3
              cases h3
          · exfalso
            have : ∀ ops : List (Op K), (run c root score ops).patterns = [] := by
              intro ops
              induction ops using List.reverseRecOn with
              | nil => rfl
              | append_singleton ops o ih =>
                have hr : run c root score (ops ++ [o]) = step c root score (run c root score ops) o := by simp [run]
                rw [hr]
                generalize run c root score ops = s at *
                cases o with
                | access k' t => simp [step, recordAccess, hc, ih]
                | predict k' t => simp [step, predictAndPreheat, ih]
                | recommend t => simpa [step, recommendations] using ih
                | outcome hit => simp only [step, outcome]; split <;> exact ih
            rw [this] at h2; cases h2
      · apply old; rw [show step c root score (run c root score ops) (.predict k t) = _ from h] at he; exact he

/-- What is recommended: predictions within the window, the highest scores first, as many as may run at once; all predictions within
the window, and no others, leave the queue. -/
theorem C218_recommended {K : Type} [DecidableEq K] (c : Config) (s : State K) (now : Int) :
    let r := recommendations c s now
    (∃ all : List (K × ℚ), all.Perm ((s.queue.filter fun e => Near c.window e.2.2 now).map fun e => (e.1, e.2.1)) ∧
      all.Pairwise (fun a b => b.2 ≤ a.2) ∧ r.1 = all.take c.maxConcurrent) ∧
    r.1.length = min c.maxConcurrent (s.queue.filter fun e => Near c.window e.2.2 now).length ∧
    r.2.queue = s.queue.filter (fun e => ¬Near c.window e.2.2 now) ∧ r.2.patterns = s.patterns := by
  intro r
  have hn : ∀ a b : Int, Near c.window a b ↔ secondsApart a b ≤ c.window := by
    intro a b
    unfold Near secondsApart second
    rw [Int.abs_eq_natAbs]
    omega
  simp only [hn]
  have hperm := List.mergeSort_perm ((s.queue.filter fun e => decide (secondsApart e.2.2 now ≤ c.window)).map fun e => (e.1, e.2.1))
    (fun a b => decide (b.2 ≤ a.2))
  refine ⟨⟨_, hperm, ?_, rfl⟩, ?_, by simp only [Nat.not_le]; rfl, rfl⟩
  · have := List.pairwise_mergeSort (le := fun a b : K × ℚ => decide (b.2 ≤ a.2))
      (by intro a b c h1 h2; simp only [decide_eq_true_eq] at *; linarith)
      (by intro a b; simp only [Bool.or_eq_true, decide_eq_true_eq]; exact le_total _ _)
      ((s.queue.filter fun e => decide (secondsApart e.2.2 now ≤ c.window)).map fun e => (e.1, e.2.1))
    simpa using this
  · simp only [r, recommendations, List.length_take, hperm.length_eq, List.length_map]

/-- The cache manager only ever asks for predictions, and never says that a key was accessed: however keys are fetched through it,
nothing is predicted. -/
theorem C218_manager {K : Type} [DecidableEq K] (c : Config) (root : ℚ → ℚ) (score : Pattern → Int → ℚ) (misses : List (K × Int)) :
    (run c root score (managerOps misses)).queue = [] ∧ (run c root score (managerOps misses)).stats.predictions = 0 := by
  have : run c root score (managerOps misses) = State.new := by
    induction misses using List.reverseRecOn with
    | nil => rfl
    | append_singleton l m ih =>
      have : run c root score (managerOps (l ++ [m])) = step c root score (run c root score (managerOps l)) (.predict m.1 m.2) := by
        simp [run, managerOps]
      rw [this, ih]
      simp [step, predictAndPreheat, State.new]
  rw [this]; exact ⟨rfl, rfl⟩

/-! ## Locks -/

open Rez.Locks in
/-- Any number of threads, each running any sequence of the operations other than `get_stats`, never deadlock. -/
theorem C218_locks {ι : Type} [DecidableEq ι] (ops : ι → List POp) (h : ∀ i, ∀ o ∈ ops i, o ≠ .getStats)
    {s : Locks.State ι PLock} (hs : Reachable (fun i => (ops i).flatMap pProg) s) : ¬ Deadlocked s := by
  refine no_deadlock (rank := fun | .patterns => 0 | .queue => 1 | .stats => 2) (bound := 3)
    (fun l => by cases l <;> decide) (fun i => ordered_flatMap fun o ho => ?_) hs
  have := h i o ho
  match o with
  | .access | .predict true | .predict false | .recommend | .score | .outcome => decide
  | .getStats => exact absurd rfl this

open Rez.Locks in
/-- An access and a `get_stats` at the same time can wait for each other for ever: the one holds the patterns and wants the
statistics, the other the statistics and wants the patterns. -/
theorem C218_deadlock_false :
    ∃ s, Reachable (fun b : Bool => pProg (if b then .access else .getStats)) s ∧ Deadlocked s :=
  deadlocks_sound (all := [true, false]) (by decide) (sched := [true, true, false, false, true, false]) (by decide)

/-- The outcomes told are counted, each once. -/
theorem C218_told {K : Type} [DecidableEq K] (c : Config) (root : ℚ → ℚ) (score : Pattern → Int → ℚ) (ops : List (Op K)) :
    (run c root score ops).stats.successful = told true ops ∧ (run c root score ops).stats.failed = told false ops := by
  induction ops using List.reverseRecOn with
  | nil => exact ⟨rfl, rfl⟩
  | append_singleton ops o ih =>
    have hr : run c root score (ops ++ [o]) = step c root score (run c root score ops) o := by simp [run]
    have ht : ∀ b, told b (ops ++ [o]) = told b ops + told b [o] := fun b => by simp [told, List.countP_append]
    rw [hr, ht, ht]
    generalize run c root score ops = s at *
    cases o with
    | access k t =>
      simp only [step, recordAccess]
      split <;> exact ih
    | predict k t =>
      simp only [step, predictAndPreheat]
      split
      · exact ih
      · split
        · exact ih
        · split
          · exact ih
          · split <;> exact ih
    | recommend t => exact ih
    | outcome hit => cases hit <;> simp [step, outcome, told, ih.1, ih.2]

/-- The confidence that is reported is the mean of the confidences of the patterns. -/
theorem C218_average {K : Type} [DecidableEq K] (s : State K) :
    averageConfidence s * s.patterns.length = (s.patterns.map fun p => p.2.confidence).sum := by
  unfold averageConfidence
  rcases h : s.patterns with _ | ⟨p, l⟩
  · simp
  · have : ((p :: l).length : ℚ) ≠ 0 := by simp only [List.length_cons]; positivity
    simp only [List.isEmpty_cons, Bool.false_eq_true, if_false]
    rw [div_mul_cancel₀ _ this]

/-! ## Concrete cases -/

/-- The square root of 0 and something positive elsewhere. -/
def someRoot (x : ℚ) : ℚ := if x = 0 then 0 else 1

theorem someRoot_root : Root someRoot :=
  ⟨fun x => by unfold someRoot; split <;> norm_num, by simp [someRoot], fun x hx => by simp [someRoot, ne_of_gt hx]⟩

/-- Accesses every minute. -/
def minutely (k : Nat) (n : Nat) : List (Op Nat) := (List.range n).map fun i => Op.access k (60 * second * i : Nat)

def demoConfig : Config := ⟨true, true, 7 / 10, 2, 300, 1⟩
def demoScore : Pattern → Int → ℚ := fun p _ => p.frequency

/-- Four accesses, one a minute, and a prediction for one minute later. -/
example : let s := run demoConfig someRoot demoScore (minutely 7 4 ++ [.predict 7 0])
    s.queue.map (fun e => (e.1, e.2.2)) = [(7, ((240 * second : Nat) : Int))] ∧
      accesses 7 (minutely 7 4 ++ [.predict 7 0]) = [0, (60 * second : Nat), (120 * second : Nat), (180 * second : Nat)] := by
  decide +kernel

/-- The three accesses are needed: two give no prediction. -/
example : (run demoConfig someRoot demoScore (minutely 7 2 ++ [.predict 7 0])).queue.length = 0 ∧
    (run demoConfig someRoot demoScore (minutely 7 3 ++ [.predict 7 0])).queue.length = 1 := by decide +kernel

example : Forward (accesses 7 (minutely 7 3)) := by unfold Forward; decide +kernel

/-- A pattern with regularity 1. -/
example : ((patternOf someRoot [0, 60, 120]).record someRoot 180).regularity = 1 :=
  (C218_regular someRoot someRoot_root (patternOf someRoot [0, 60, 120]) 180 (by decide +kernel)).mpr
    ⟨by unfold AllEqual; decide +kernel, 60, by decide +kernel, by decide⟩

/-! ## What does not hold -/

/-- Recommendations can be lost: two predictions within the window, one returned, none left. -/
theorem C218_lost_false : ¬∀ (c : Config) (s : State Nat) (now : Int), 0 < c.maxConcurrent →
    ∀ e ∈ s.queue, (∃ r ∈ (recommendations c s now).1, r.1 = e.1) ∨ e ∈ (recommendations c s now).2.queue := by
  intro h
  let s : State Nat := ⟨[], [(1, 1, 0), (2, 2, 0)], ⟨0, 0, 0, 0⟩⟩
  have hq : (recommendations demoConfig s 0).2.queue = [] := by decide +kernel
  have hl : (recommendations demoConfig s 0).1.length = 1 :=
    (C218_recommended demoConfig s 0).2.1.trans (by decide +kernel)
  obtain ⟨r, hr⟩ := List.length_eq_one_iff.mp hl
  have h1 := h demoConfig s 0 (by decide) (1, 1, 0) (by simp [s])
  have h2 := h demoConfig s 0 (by decide) (2, 2, 0) (by simp [s])
  rw [hq, hr] at h1 h2
  simp only [List.mem_singleton, exists_eq_left, List.not_mem_nil, or_false] at h1 h2
  rw [h1] at h2
  exact absurd h2 (by decide)

/-- A prediction of a time long past stays in the queue. -/
theorem C218_past_false : ¬∀ (c : Config) (s : State Nat) (now : Int),
    ∀ e ∈ (recommendations c s now).2.queue, now ≤ e.2.2 := by
  intro h
  have := h demoConfig ⟨[], [(1, 1, 0)], ⟨0, 0, 0, 0⟩⟩ (10 ^ 15) (1, 1, 0) (by decide +kernel)
  exact absurd this (by decide)

/-- The regularity need not be that of the accesses that are kept: after a day's pause two accesses count as regular as those before
the pause, and a prediction is made. -/
theorem C218_stale_false : ∃ times : List Int, Forward times ∧ (patternOf someRoot times).times.length = 2 ∧
    (patternOf someRoot times).regularity = 1 ∧ (patternOf someRoot times).predict ≠ none :=
  ⟨[0, 60 * second, 120 * second, 120 * second + 2 * day, 120 * second + 2 * day + 1], by unfold Forward; decide +kernel,
    by decide +kernel, by decide +kernel, by decide +kernel⟩

/-- Two accesses a minute apart are 120 an hour; two keys, two patterns. -/
example : (patternOf someRoot [0, 60 * second]).frequency = 120 ∧
    (run demoConfig someRoot demoScore (minutely 7 3 ++ minutely 8 2)).stats.learned = 2 := by decide +kernel

/-- The accuracy can exceed one: outcomes are counted whether or not there was a prediction. -/
theorem C218_accuracy_false : ¬∀ (c : Config) (root : ℚ → ℚ) (score : Pattern → Int → ℚ) (ops : List (Op Nat)),
    accuracy (run c root score ops) ≤ 1 := by
  intro h
  have := h demoConfig someRoot demoScore (minutely 7 4 ++ [.predict 7 0, .outcome true, .outcome true])
  exact absurd this (by decide +kernel)

end Rez.Props
