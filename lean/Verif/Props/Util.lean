import Verif.Spec.Util
import Verif.Props.Range
import Verif.Lemmas.VersionExtra
import Mathlib.Data.List.Infix
/-!
# Text utilities (C71)
-/
namespace Rez.Props
open Rez Rez.Util Rez.Spec.Util

namespace UtilLemmas

theorem prefixBytes_spec (n : Nat) (s p : Str) (h : prefixBytes n s = some p) : p <+: s ∧ byteLen p = n := by
  induction s generalizing n p with
  | nil =>
    cases n with
    | zero => cases h; exact ⟨List.nil_prefix, rfl⟩
    | succ n => cases h
  | cons c cs ih =>
    cases n with
    | zero => cases h; exact ⟨List.nil_prefix, rfl⟩
    | succ n =>
      rw [prefixBytes] at h
      split at h
      · rename_i hc
        obtain ⟨q, hq, rfl⟩ := Option.map_eq_some_iff.mp h
        obtain ⟨h1, h2⟩ := ih _ _ hq
        refine ⟨List.cons_prefix_cons.mpr ⟨rfl, h1⟩, ?_⟩
        have : byteLen (c :: q) = c.utf8Size + byteLen q := rfl
        omega
      · cases h

theorem prefixBytes_ascii (n : Nat) (s : Str) (hs : ∀ c ∈ s, c.utf8Size = 1) (hn : n ≤ byteLen s) :
    ∃ p, prefixBytes n s = some p := by
  induction s generalizing n with
  | nil =>
    cases n with
    | zero => exact ⟨[], rfl⟩
    | succ n => simp [byteLen] at hn
  | cons c cs ih =>
    cases n with
    | zero => exact ⟨[], rfl⟩
    | succ n =>
      have hc := hs c List.mem_cons_self
      have hb : byteLen (c :: cs) = c.utf8Size + byteLen cs := rfl
      obtain ⟨p, hp⟩ := ih (n + 1 - c.utf8Size) (fun d hd => hs d (List.mem_cons_of_mem _ hd)) (by omega)
      exact ⟨c :: p, by rw [prefixBytes, if_pos (by omega), hp]; rfl⟩

theorem byteLen_append (a b : Str) : byteLen (a ++ b) = byteLen a + byteLen b := by simp [byteLen]

theorem formatLoop_spec (conj last : Str) (n : Nat) (items : List Str) (i : Nat) (hi : 0 < i) (hn : i + items.length = n) :
    formatLoop conj n i (items ++ [last]) = (items.map (c!", " ++ ·)).flatten ++ c!", " ++ conj ++ c!" " ++ last := by
  induction items generalizing i with
  | nil =>
    simp only [List.length_nil, Nat.add_zero] at hn
    subst hn
    simp [formatLoop, Nat.ne_of_gt hi]
  | cons a items ih =>
    simp only [List.length_cons] at hn
    rw [List.cons_append, formatLoop, if_neg (by omega), if_neg (by omega), ih (i + 1) (by omega) (by omega)]
    simp

theorem joinWith_flatten (a : Str) (items : List Str) :
    joinWith c!", " (a :: items) = a ++ (items.map (c!", " ++ ·)).flatten := by
  induction items generalizing a with
  | nil => simp [joinWith]
  | cons b items ih => rw [joinWith, ih]; simp

theorem trim_noWs (s : Str) (h : ∀ c ∈ s, isWs c = false) : trim s = s := by
  have h1 : trimStart s = s := by
    unfold trimStart
    cases s with
    | nil => rfl
    | cons c cs => rw [List.dropWhile_cons, h c List.mem_cons_self]; rfl
  unfold trim
  rw [h1]
  unfold trimEnd
  cases hr : s.reverse with
  | nil => rw [List.reverse_eq_nil_iff.mp hr]; rfl
  | cons c cs =>
    have hc : c ∈ s := by rw [← List.mem_reverse, hr]; exact List.mem_cons_self
    rw [List.dropWhile_cons, h c hc]
    simp only [Bool.false_eq_true, if_false]
    rw [← hr, List.reverse_reverse]

theorem digit_noWs {c : Char} (h : isDigit c = true) : isWs c = false := by
  simp only [isDigit, Bool.and_eq_true, decide_eq_true_eq] at h
  unfold isWs
  simp only [Bool.or_eq_false_iff, Bool.and_eq_false_iff, decide_eq_false_iff_not, beq_eq_false_iff_ne]
  omega

theorem stripSuffix_snoc (c d : Char) (s : Str) : stripSuffix c (s ++ [d]) = if d = c then some s else none := by
  unfold stripSuffix
  simp

theorem stripSuffix_digit (c : Char) (s : Str) (hc : isDigit c = false) (h : ∀ d ∈ s, isDigit d = true) : stripSuffix c s = none := by
  unfold stripSuffix
  rw [if_neg]
  intro hl
  have := h c (List.mem_of_getLast? hl)
  rw [hc] at this
  cases this

end UtilLemmas
open UtilLemmas

/-- C71: the identifier made of a text is one, whatever counts as letter and digit. -/
theorem C71_identifier (alpha alnum : Char → Bool) (s : Str) :
    Identifier alpha alnum (toIdentifier alpha alnum s) := by
  unfold toIdentifier
  simp only
  generalize hs1 : (s.map fun c => if (decide (c = '-') || decide (c = ' ')) = true then '_' else c) = s1
  have hall : ∀ d ∈ s1.map (fun c => if (alnum c || c == '_') = true then c else '_'), alnum d = true ∨ d = '_' := by
    intro d hd
    obtain ⟨c, _, rfl⟩ := List.mem_map.mp hd
    split
    · rename_i h
      simpa using h
    · exact Or.inr rfl
  cases hm : s1.map (fun c => if (alnum c || c == '_') = true then c else '_') with
  | nil => exact ⟨'_', [], rfl, Or.inr rfl, by simp⟩
  | cons c cs =>
    rw [hm] at hall
    simp only
    by_cases ha : alpha c = true
    · rw [if_pos ha]
      exact ⟨c, cs, rfl, Or.inl ha, fun d hd => hall d (List.mem_cons_of_mem _ hd)⟩
    · rw [if_neg ha]
      exact ⟨'_', c :: cs, rfl, Or.inr rfl, hall⟩

/-- C71: the check for identifiers is exact. -/
theorem C71_check (alpha alnum : Char → Bool) (s : Str) : isIdentifier alpha alnum s = true ↔ Identifier alpha alnum s := by
  cases s with
  | nil => simp [isIdentifier, Identifier]
  | cons c cs =>
    have : Identifier alpha alnum (c :: cs) ↔ (alpha c = true ∨ c = '_') ∧ ∀ d ∈ cs, alnum d = true ∨ d = '_' := by
      constructor
      · rintro ⟨c', cs', h, h1, h2⟩
        cases h
        exact ⟨h1, h2⟩
      · rintro ⟨h1, h2⟩
        exact ⟨c, cs, rfl, h1, h2⟩
    rw [this, isIdentifier]
    cases ha : alpha c <;> by_cases hc : c = '_' <;> simp [hc]

/-- C71 is false of Python: a keyword is turned into itself, and different names into one. -/
theorem C71_identifier_false (alpha alnum : Char → Bool) (ha : ∀ c, isAlpha c = true → alpha c = true ∧ alnum c = true) :
    toIdentifier alpha alnum c!"class" = c!"class" ∧
    toIdentifier alpha alnum c!"a-b" = toIdentifier alpha alnum c!"a b" ∧ c!"a-b" ≠ c!"a b" := by
  have h := fun c hc => (ha c hc).2
  have hs : ∀ c, isAlpha c = true → (alnum c || c == '_') = true := fun c hc => by rw [h c hc]; rfl
  refine ⟨?_, ?_, by decide⟩
  · simp only [toIdentifier, List.map]
    simp [h 'c' (by decide), h 'l' (by decide), h 'a' (by decide), h 's' (by decide), (ha 'c' (by decide)).1]
  · rfl

/-- C71, partial: a text cut to `max ≥ 3` bytes has at most `max` bytes, and is the text or a beginning of it with three
dots.  Missing: `max < 3` and the panics (refuted below). -/
theorem C71_truncate_partial (s r : Str) (max : Nat) (hm : 3 ≤ max) (h : truncate s max = .ok r) :
    byteLen r ≤ max ∧ (r = s ∨ ∃ p, p <+: s ∧ r = p ++ c!"...") := by
  unfold truncate at h
  have h3 : byteLen c!"..." = 3 := by decide
  split at h
  · cases h
    exact ⟨by omega, Or.inr ⟨[], List.nil_prefix, rfl⟩⟩
  · split at h
    · cases h
      exact ⟨by omega, Or.inl rfl⟩
    · split at h
      · rename_i p hp
        cases h
        obtain ⟨h1, h2⟩ := prefixBytes_spec _ _ _ hp
        refine ⟨?_, Or.inr ⟨p, h1, rfl⟩⟩
        rw [byteLen_append]
        omega
      · cases h

/-- C71: text of one byte per character is never cut inside a character. -/
theorem C71_truncate_ascii (s : Str) (max : Nat) (hs : ∀ c ∈ s, c.utf8Size = 1) : ∃ r, truncate s max = .ok r := by
  unfold truncate
  split
  · exact ⟨_, rfl⟩
  · split
    · exact ⟨_, rfl⟩
    · obtain ⟨p, hp⟩ := prefixBytes_ascii (max - 3) s hs (by omega)
      rw [hp]
      exact ⟨_, rfl⟩

/-- C71 is false of small bounds: the three dots are longer than asked for, even for the empty text. -/
theorem C71_truncate_false (s : Str) (max : Nat) (h : max < 3) : ∃ r, truncate s max = .ok r ∧ byteLen r > max := by
  refine ⟨c!"...", by rw [truncate, if_pos (by omega)], ?_⟩
  have h3 : byteLen c!"..." = 3 := by decide
  omega

/-- C71 is false of other text: an `é` at the place of the cut is a panic, whatever stands before and after it. -/
theorem C71_truncate_panic_false (before after : Str) : truncate (before ++ 'é' :: after) (byteLen before + 4) = .panic := by
  have hb : byteLen (before ++ 'é' :: after) = byteLen before + (2 + byteLen after) := by
    rw [byteLen_append]; rfl
  have hp : prefixBytes (byteLen before + 1) (before ++ 'é' :: after) = none := by
    induction before with
    | nil => rfl
    | cons c cs ih =>
      have hpos := Char.utf8Size_pos c
      have hc : byteLen (c :: cs) = c.utf8Size + byteLen cs := rfl
      rw [List.cons_append, prefixBytes, if_pos (by omega),
        show byteLen (c :: cs) + 1 - c.utf8Size = byteLen cs + 1 by omega, ih (by rw [byteLen_append]; rfl)]
      rfl
  unfold truncate
  rw [if_neg (by omega), if_neg (by omega), show byteLen before + 4 - 3 = byteLen before + 1 by omega, hp]

/-- C71 is false of text that fits: it is cut although it has no more bytes than asked for. -/
theorem C71_truncate_fits_false : ∃ s r, byteLen s ≤ 5 ∧ truncate s 5 = .ok r ∧ r ≠ s :=
  ⟨c!"abcde", c!"ab...", by decide, by decide, by decide⟩

/-- C71: every number with a unit is read as that many seconds while these fit into 64 bits.  `lower` must keep digits and
the letters of the units. -/
theorem C71_duration (lower : Str → Str) (hl : ∀ s, (∀ c ∈ s, isDigit c = true ∨ c ∈ c!"smhd") → lower s = s)
    (unit : Str) (k : Nat) (hu : (unit, k) ∈ units) (n : Nat) (hn : n * k < 2 ^ 64) :
    parseDuration lower (decimal n ++ unit) = some (n * k) := by
  have hd : ∀ c ∈ decimal n, isDigit c = true := List.all_eq_true.mp (decimal_digits n)
  have hws : ∀ c ∈ decimal n, isWs c = false := fun c hc => digit_noWs (hd c hc)
  have htn : trim (decimal n) = decimal n := trim_noWs _ hws
  have key : ∀ u : Char, u ∈ c!"smhd" → lower (trim (decimal n ++ [u])) = decimal n ++ [u] := by
    intro u hu
    rw [trim_noWs]
    · apply hl
      intro c hc
      rcases List.mem_append.mp hc with hc | hc
      · exact Or.inl (hd c hc)
      · rw [List.mem_singleton.mp hc]; exact Or.inr hu
    · intro c hc
      rcases List.mem_append.mp hc with hc | hc
      · exact hws c hc
      · rw [List.mem_singleton.mp hc]
        exact (show ∀ u ∈ c!"smhd", isWs u = false by decide) u hu
  simp only [units, List.mem_cons, Prod.mk.injEq, List.not_mem_nil, or_false] at hu
  rcases hu with ⟨rfl, rfl⟩ | ⟨rfl, rfl⟩ | ⟨rfl, rfl⟩ | ⟨rfl, rfl⟩ | ⟨rfl, rfl⟩
  · unfold parseDuration
    rw [List.append_nil, htn, hl _ (fun c hc => Or.inl (hd c hc))]
    simp only [stripSuffix_digit 's' _ (by decide) hd, stripSuffix_digit 'm' _ (by decide) hd,
      stripSuffix_digit 'h' _ (by decide) hd, stripSuffix_digit 'd' _ (by decide) hd]
    rw [parseU64_decimal (by omega), Nat.mul_one]
  · unfold parseDuration
    rw [key 's' (by decide)]
    simp only [stripSuffix_snoc, if_true, htn]
    rw [parseU64_decimal (by omega), Nat.mul_one]
  · unfold parseDuration
    rw [key 'm' (by decide)]
    simp only [stripSuffix_snoc, if_neg (show ¬ 'm' = 's' by decide), if_true, htn]
    rw [parseU64_decimal (by omega), Option.map_some, Nat.mod_eq_of_lt hn]
  · unfold parseDuration
    rw [key 'h' (by decide)]
    simp only [stripSuffix_snoc, if_neg (show ¬ 'h' = 's' by decide), if_neg (show ¬ 'h' = 'm' by decide), if_true, htn]
    rw [parseU64_decimal (by omega), Option.map_some, Nat.mod_eq_of_lt hn]
  · unfold parseDuration
    rw [key 'd' (by decide)]
    simp only [stripSuffix_snoc, if_neg (show ¬ 'd' = 's' by decide), if_neg (show ¬ 'd' = 'm' by decide),
      if_neg (show ¬ 'd' = 'h' by decide), if_true, htn]
    rw [parseU64_decimal (by omega), Option.map_some, Nat.mod_eq_of_lt hn]

/-- C71 is false of long durations: in a release build they wrap around, so a day count of many millions of years is read
as less than a day. -/
theorem C71_duration_false : parseDuration id c!"213503982334602d" = some 61184 := by decide +kernel

/-- C71: an age is told in whole units: it lies between the told number of units and one more, and no smaller unit is
used once a larger one is reached. -/
theorem C71_age (now timestamp : Nat) :
    (now < timestamp ∧ humanDiff now timestamp = c!"in the future") ∨
    ∃ n unit k, (unit, k) ∈ ages ∧ humanDiff now timestamp = decimal n ++ c!" " ++ unit ++ c!" ago" ∧
      timestamp + n * k ≤ now ∧ now < timestamp + (n + 1) * k ∧ (1 ≤ n ∨ unit = c!"seconds") ∧
      ∀ unit' k', (unit', k') ∈ ages → k < k' → now < timestamp + k' := by
  unfold humanDiff
  by_cases hf : now < timestamp
  · exact Or.inl ⟨hf, by rw [if_pos hf]⟩
  · rw [if_neg hf]
    right
    have hbig : ∀ (k : Nat), (∀ u k', (u, k') ∈ ages → k < k' → now - timestamp < k') →
        ∀ u k', (u, k') ∈ ages → k < k' → now < timestamp + k' := by
      intro k h u k' hk hlt
      have := h u k' hk hlt
      omega
    have hdiv : ∀ k, 0 < k → timestamp + (now - timestamp) / k * k ≤ now ∧ now < timestamp + ((now - timestamp) / k + 1) * k := by
      intro k hk
      have h1 := Nat.div_mul_le_self (now - timestamp) k
      have h2 := Nat.lt_div_mul_add hk (a := now - timestamp)
      have h3 : ((now - timestamp) / k + 1) * k = (now - timestamp) / k * k + k := by rw [Nat.add_mul, Nat.one_mul]
      omega
    have hmem : ∀ (u : Str) (k' : Nat), (u, k') ∈ ages → k' = 1 ∨ k' = 60 ∨ k' = 3600 ∨ k' = 86400 ∨ k' = 604800 ∨ k' = 2592000 ∨ k' = 31536000 := by
      intro u k' h
      simp only [ages, List.mem_cons, Prod.mk.injEq, List.not_mem_nil, or_false] at h
      omega
    simp only
    split
    · refine ⟨now - timestamp, c!"seconds", 1, by simp [ages], by simp, by omega, by omega, Or.inr rfl, hbig 1 fun u k' hk hlt => ?_⟩
      have := hmem u k' hk
      omega
    · split
      · refine ⟨(now - timestamp) / 60, c!"minutes", 60, by simp [ages], by simp, (hdiv 60 (by omega)).1, (hdiv 60 (by omega)).2, Or.inl (by omega), hbig 60 fun u k' hk hlt => ?_⟩
        have := hmem u k' hk
        omega
      · split
        · refine ⟨(now - timestamp) / 3600, c!"hours", 3600, by simp [ages], by simp, (hdiv 3600 (by omega)).1, (hdiv 3600 (by omega)).2, Or.inl (by omega), hbig 3600 fun u k' hk hlt => ?_⟩
          have := hmem u k' hk
          omega
        · split
          · refine ⟨(now - timestamp) / 86400, c!"days", 86400, by simp [ages], by simp, (hdiv 86400 (by omega)).1, (hdiv 86400 (by omega)).2, Or.inl (by omega), hbig 86400 fun u k' hk hlt => ?_⟩
            have := hmem u k' hk
            omega
          · split
            · refine ⟨(now - timestamp) / 604800, c!"weeks", 604800, by simp [ages], by simp, (hdiv 604800 (by omega)).1, (hdiv 604800 (by omega)).2, Or.inl (by omega), hbig 604800 fun u k' hk hlt => ?_⟩
              have := hmem u k' hk
              omega
            · split
              · refine ⟨(now - timestamp) / 2592000, c!"months", 2592000, by simp [ages], by simp, (hdiv 2592000 (by omega)).1, (hdiv 2592000 (by omega)).2, Or.inl (by omega), hbig 2592000 fun u k' hk hlt => ?_⟩
                have := hmem u k' hk
                omega
              · refine ⟨(now - timestamp) / 31536000, c!"years", 31536000, by simp [ages], by simp, (hdiv 31536000 (by omega)).1, (hdiv 31536000 (by omega)).2, Or.inl (by omega), hbig 31536000 fun u k' hk hlt => ?_⟩
                have := hmem u k' hk
                omega

/-- C71: a list of three or more items is their enumeration, the conjunction before the last. -/
theorem C71_list (conj a b last : Str) (items : List Str) :
    formatList conj (a :: b :: items ++ [last]) = joinWith c!", " (a :: b :: items) ++ c!", " ++ conj ++ c!" " ++ last := by
  have h : formatList conj (a :: b :: items ++ [last]) =
      formatLoop conj (items.length + 2) 0 (a :: ((b :: items) ++ [last])) := by
    cases items with
    | nil => rfl
    | cons c items => simp [formatList]
  rw [h, formatLoop, if_pos rfl, formatLoop_spec conj last _ (b :: items) 1 (by omega) (by simp; omega), joinWith_flatten]
  simp

/-- C71: a normalized name has no blanks or hyphens. -/
theorem C71_normalized (lower : Str → Str) (s : Str) : ∀ c ∈ normalizeName lower s, c ≠ ' ' ∧ c ≠ '-' := by
  intro c hc
  obtain ⟨d, _, rfl⟩ := List.mem_map.mp hc
  split
  · decide
  · rename_i h
    simp only [Bool.or_eq_true, decide_eq_true_eq, not_or] at h
    exact h

example : parseDuration id c!" 90m " = some 5400 ∧ truncate c!"package name" 10 = .ok c!"package..." ∧
    humanDiff 1000000 993000 = c!"1 hours ago" ∧ formatList c!"and" [c!"a", c!"b", c!"c"] = c!"a, b, and c" ∧
    toIdentifier isAlpha (fun c => isAlpha c || isDigit c) c!"9-lives!" = c!"_9_lives_" := by decide +kernel

end Rez.Props
