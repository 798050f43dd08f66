import Verif.Lemmas.VersionNumeric
/-!
# Properties C01-C09: versions

`Version.cmp` models `Ord::cmp`, `Version.parse` models `Version::parse`, `Version.asStr` models `as_str`.
`a <= b` is `a.cmp b ≠ .gt`.
-/
namespace Rez.Props
open Rez Spec

/-! ## C01 -/

/-- C01: comparing in the other direction gives the mirrored answer, for every pair of versions. -/
theorem C01_compare_swap (a b : Version) : b.cmp a = (a.cmp b).swap := (Version.cmp_swap a b).symm

/-- C01: every version equals itself. -/
theorem C01_compare_refl (a : Version) : a.cmp a = .eq := Version.cmp_refl a

/-- C01: `<` and `>` exclude each other and `==` is symmetric. -/
theorem C01_lt_gt_exclusive (a b : Version) :
    (a.lt b = true ↔ b.gt a = true) ∧ ¬ (a.lt b = true ∧ a.gt b = true) ∧ (a.eqv b = true ↔ b.eqv a = true) := by
  have h := C01_compare_swap a b
  unfold Version.lt Version.gt Version.eqv
  rw [h]
  cases a.cmp b <;> simp

-- the swap is not between trivially equal results
example : ∃ a b, Version.parse c!"1.rc2" = some a ∧ Version.parse c!"1.rc10" = some b ∧
    a.cmp b = .lt ∧ b.cmp a = .gt := ⟨_, _, rfl, rfl, by decide, by decide⟩

/-! ## C02 -/

/-- C02 does not hold: `1.0 < 1.1`, `1.1 < 1`, and yet `1 == 1.0`; so `<=` is not transitive. -/
theorem C02_transitive_false :
    ∃ a b c, Version.parse c!"1.0" = some a ∧ Version.parse c!"1.1" = some b ∧ Version.parse c!"1" = some c ∧
      a.cmp b = .lt ∧ b.cmp c = .lt ∧ c.cmp a = .eq ∧
      ¬ (∀ x y z : Version, x.cmp y ≠ .gt → y.cmp z ≠ .gt → x.cmp z ≠ .gt) := by
  refine ⟨_, _, _, rfl, rfl, rfl, by decide, by decide, by decide, ?_⟩
  intro h
  have := h ⟨[c!"1", c!"1"], [c!"."], c!"1.1"⟩ ⟨[c!"1"], [], c!"1"⟩ ⟨[c!"1", c!"0"], [c!"."], c!"1.0"⟩
    (by decide) (by decide)
  exact this (by decide)

/-- C02 does not hold for `==` either: `1 == 1.0`, `1.0 == 1.00`, but `1 != 1.00`. -/
theorem C02_equality_not_transitive :
    ∃ a b c, Version.parse c!"1" = some a ∧ Version.parse c!"1.0" = some b ∧ Version.parse c!"1.00" = some c ∧
      a.eqv b = true ∧ b.eqv c = true ∧ a.eqv c = false :=
  ⟨_, _, _, rfl, rfl, rfl, by decide, by decide, by decide⟩

/-- C02 fails even between single tokens when a digit run does not fit in 64 bits:
`b < 99999999999999999999 < a1 < b`. -/
theorem C02_token_cycle :
    ∃ a b c, Version.parse c!"b" = some a ∧ Version.parse c!"99999999999999999999" = some b ∧
      Version.parse c!"a1" = some c ∧ a.lt b = true ∧ b.lt c = true ∧ c.lt a = true :=
  ⟨_, _, _, rfl, rfl, rfl, by decide, by decide, by decide⟩

/-- C02, partial: `<=` is transitive among versions with the same number of tokens (plus the special
versions), when every digit run is below 2^64.  Missing from the full claim: versions of different lengths
where one ends in `0`, and digit runs of 2^64 and more (both refuted above). -/
theorem C02_transitive_same_length_partial (sa sb sc : Str) (a b c : Version) (n : Nat)
    (ha : Version.parse sa = some a) (hb : Version.parse sb = some b) (hc : Version.parse sc = some c)
    (hna : a.tokens ≠ [] → a.tokens.length = n) (hnb : b.tokens ≠ [] → b.tokens.length = n)
    (hnc : c.tokens ≠ [] → c.tokens.length = n)
    (da : ∀ t ∈ a.tokens, DigitRunsBelow (2 ^ 64) t) (db : ∀ t ∈ b.tokens, DigitRunsBelow (2 ^ 64) t)
    (dc : ∀ t ∈ c.tokens, DigitRunsBelow (2 ^ 64) t) :
    a.cmp b ≠ .gt → b.cmp c ≠ .gt → a.cmp c ≠ .gt := by
  have hne : ∀ s v, Version.parse s = some v → v.isInf = false → v.isEmpty = false → v.tokens ≠ [] := by
    intro s v h h1 h2
    rcases parsed_kind h with rfl | rfl | h
    · simp [Version.isEmpty, Version.empty] at h2
    · simp [Version.isInf, Version.inf] at h1
    · exact h.2.2
  apply cmp_trans_lift
  intro ia ib ic ea eb ec
  have la := hna (hne _ _ ha ia ea)
  have lb := hnb (hne _ _ hb ib eb)
  have lc := hnc (hne _ _ hc ic ec)
  rw [cmpTokens_sameLen (goodTok_of ha da) (goodTok_of hb db) (by omega),
    cmpTokens_sameLen (goodTok_of hb db) (goodTok_of hc dc) (by omega),
    cmpTokens_sameLen (goodTok_of ha da) (goodTok_of hc dc) (by omega)]
  simp only [← isLE_iff]
  exact Std.TransCmp.isLE_trans

/-- C02, partial: `<=` is transitive among versions of any length whose last token is not `0`, when every
digit run is below 2^64.  Missing: versions that end in a `0` token (refuted above). -/
theorem C02_transitive_no_trailing_zero_partial (sa sb sc : Str) (a b c : Version)
    (ha : Version.parse sa = some a) (hb : Version.parse sb = some b) (hc : Version.parse sc = some c)
    (hna : a.tokens.getLast? ≠ some c!"0") (hnb : b.tokens.getLast? ≠ some c!"0")
    (hnc : c.tokens.getLast? ≠ some c!"0")
    (da : ∀ t ∈ a.tokens, DigitRunsBelow (2 ^ 64) t) (db : ∀ t ∈ b.tokens, DigitRunsBelow (2 ^ 64) t)
    (dc : ∀ t ∈ c.tokens, DigitRunsBelow (2 ^ 64) t) :
    a.cmp b ≠ .gt → b.cmp c ≠ .gt → a.cmp c ≠ .gt := by
  apply cmp_trans_lift
  intro _ _ _ _ _ _
  rw [cmpTokens_noTrail (goodTok_of ha da) (goodTok_of hb db) hna hnb,
    cmpTokens_noTrail (goodTok_of hb db) (goodTok_of hc dc) hnb hnc,
    cmpTokens_noTrail (goodTok_of ha da) (goodTok_of hc dc) hna hnc]
  simp only [← isLE_iff]
  exact Std.TransCmp.isLE_trans

-- the hypotheses are met by ordinary versions of different lengths
example : ∃ a b c, Version.parse c!"1.2.3" = some a ∧ Version.parse c!"1.2" = some b ∧
    Version.parse c!"1.10.rc1" = some c ∧ a.tokens.getLast? ≠ some c!"0" ∧ b.tokens.getLast? ≠ some c!"0" ∧
    c.tokens.getLast? ≠ some c!"0" ∧ a.cmp b ≠ .gt ∧ b.cmp c ≠ .gt :=
  ⟨_, _, _, rfl, rfl, rfl, by decide, by decide, by decide, by decide, by decide⟩
example : DigitRunsBelow (2 ^ 64) (decimal 10) := fun d hd hda => by
  have := infix_digits_le hd (decimal_digits 10); rw [decimal_val] at this; omega

/-! ## C03 -/

/-- C03 does not hold: `1.0` and `1.0.0` compare equal, but a hash function that separates the two strings
separates the two versions. -/
theorem C03_hash_false :
    ∃ (a b : Version) (h : Str → Nat), Version.parse c!"1.0" = some a ∧ Version.parse c!"1.0.0" = some b ∧
      a.eqv b = true ∧ a.hashWith h ≠ b.hashWith h :=
  ⟨_, _, List.length, rfl, rfl, by decide, by decide⟩

/-- C03, partial: equal versions hash equally when they have the same number of tokens, the same separators
and no leading zeros.  Missing: exactly the spellings the implementation identifies under `==` without
identifying them under hashing. -/
theorem C03_hash_partial {H : Type} (h : Str → H) (sa sb : Str) (a b : Version)
    (ha : Version.parse sa = some a) (hb : Version.parse sb = some b)
    (hlen : a.tokens.length = b.tokens.length) (hsep : a.separators = b.separators)
    (hza : ∀ t ∈ a.tokens, NoLeadingZero t) (hzb : ∀ t ∈ b.tokens, NoLeadingZero t)
    (heq : a.eqv b = true) : a.hashWith h = b.hashWith h := by
  have heq' : a.cmp b = .eq := by simpa [Version.eqv] using heq
  unfold Version.hashWith
  congr 1
  rcases parsed_kind ha with rfl | rfl | ⟨ia, ea, na⟩
  · rcases parsed_kind hb with rfl | rfl | ⟨ib, eb, nb⟩
    · rfl
    · exact absurd heq' (by decide)
    · simp [Version.empty] at hlen; exact absurd hlen.symm (by simpa using nb)
  · rcases parsed_kind hb with rfl | rfl | ⟨ib, eb, nb⟩
    · exact absurd heq' (by decide)
    · rfl
    · simp [Version.inf] at hlen; exact absurd hlen.symm (by simpa using nb)
  · rcases parsed_kind hb with rfl | rfl | ⟨ib, eb, nb⟩
    · simp [Version.empty] at hlen; exact absurd hlen na
    · simp [Version.inf] at hlen; exact absurd hlen na
    · have ht : cmpTokens a.tokens b.tokens = .eq := by
        simpa [Version.cmp, ia, ib, ea, eb] using heq'
      have htok : a.tokens = b.tokens := by
        apply lists_eq_of_zip hlen
        intro p hp
        have hpa := parsed_tokens ha p.1 (List.of_mem_zip hp).1
        have hpb := parsed_tokens hb p.2 (List.of_mem_zip hp).2
        exact cmpToken_eq_of_noLeadingZero hpa.1 hpb.1 hpa.2 hpb.2 (hza _ (List.of_mem_zip hp).1)
          (hzb _ (List.of_mem_zip hp).2) (cmpTokens_eq_pairs hlen ht p hp)
      rcases Version.parse_cases ha with ⟨rfl, _⟩ | ⟨rfl, _⟩ | ⟨hsa, hra, _⟩
      · simp [Version.empty] at na
      · simp [Version.inf] at na
      rcases Version.parse_cases hb with ⟨rfl, _⟩ | ⟨rfl, _⟩ | ⟨hsb, hrb, _⟩
      · simp [Version.empty] at nb
      · simp [Version.inf] at nb
      rw [hra, hrb, hsa.spelling, hsb.spelling, htok, hsep]

-- two differently padded inputs meet the hypotheses
example : ∃ a b, Version.parse c!" 1.2-rc3" = some a ∧ Version.parse c!"1.2-rc3 " = some b ∧ a.eqv b = true ∧
    a.separators = b.separators := ⟨_, _, rfl, rfl, by decide, by decide⟩

/-! ## C04 -/

/-- C04: whatever parses prints to something that parses back to the identical version. -/
theorem C04_round_trip (s : Str) (v : Version) (h : Version.parse s = some v) :
    Version.parse v.asStr = some v := by
  rcases Version.parse_cases h with ⟨rfl, _⟩ | ⟨rfl, _⟩ | ⟨hs, hr, h1, h2, h3⟩
  · rfl
  · rfl
  · have : trim v.asStr = trim s := by rw [Version.asStr, hr, trim_idem]
    have hp := Version.parse_of_spells (s := v.asStr) (by rw [this]; exact hs) (by rw [this]; exact h2)
      (by rw [this]; exact h3)
    rw [hp, this, ← hr]

/-- C04: the printed form is the trimmed input, except that `epsilon` prints as the empty string. -/
theorem C04_prints_input (s : Str) (v : Version) (h : Version.parse s = some v) :
    v.asStr = trim s ∨ (trim s = c!"epsilon" ∧ v.asStr = []) := by
  rcases Version.parse_cases h with ⟨rfl, hs⟩ | ⟨rfl, hs⟩ | ⟨_, hr, _⟩
  · rcases hs with hs | hs
    · left; rw [hs]; rfl
    · right; exact ⟨hs, rfl⟩
  · left; rw [hs]; rfl
  · left; exact hr

/-- C04: the tokens and separators of an ordinary version spell its printed form. -/
theorem C04_spelling (s : Str) (v : Version) (h : Version.parse s = some v) (hn : v.tokens ≠ []) :
    interleave v.tokens v.separators = v.asStr := by
  rcases Version.parse_cases h with ⟨rfl, _⟩ | ⟨rfl, _⟩ | ⟨hs, hr, _⟩
  · exact absurd rfl hn
  · exact absurd rfl hn
  · rw [← hs.spelling, Version.asStr, hr]

example : ∃ v, Version.parse c!"  1.2-beta_3+b7 " = some v ∧ v.asStr = c!"1.2-beta_3+b7" ∧ v.tokens ≠ [] :=
  ⟨_, rfl, by decide, by decide⟩

/-! ## C05 -/

/-- C05: apart from the three special spellings, a string parses exactly when it is spelled by the grammar,
and the result carries exactly those tokens and separators. -/
theorem C05_grammar (s : Str) (hi : trim s ≠ c!"inf") (he : trim s ≠ c!"epsilon") (hn : trim s ≠ [])
    (ts seps : List Str) :
    Version.parse s = some ⟨ts, seps, trim s⟩ ↔ Spells (trim s) ts seps := by
  constructor
  · intro h
    rcases Version.parse_cases h with ⟨hv, _⟩ | ⟨_, hx⟩ | ⟨hs, _⟩
    · exact absurd (congrArg Version.repr hv) hn
    · exact absurd hx hi
    · exact hs
  · intro h; exact Version.parse_of_spells h hi he

/-- C05: acceptance in one line. -/
theorem C05_accepts_iff (s : Str) :
    (Version.parse s).isSome = true ↔
      trim s = [] ∨ trim s = c!"inf" ∨ trim s = c!"epsilon" ∨ ∃ ts seps, Spells (trim s) ts seps := by
  constructor
  · intro h
    obtain ⟨v, hv⟩ := Option.isSome_iff_exists.mp h
    rcases Version.parse_cases hv with ⟨_, h | h⟩ | ⟨_, h⟩ | ⟨hs, _⟩
    · exact Or.inl h
    · exact Or.inr (Or.inr (Or.inl h))
    · exact Or.inr (Or.inl h)
    · exact Or.inr (Or.inr (Or.inr ⟨_, _, hs⟩))
  · rintro (h | h | h | ⟨ts, seps, h⟩)
    · simp [Version.parse, h]
    · simp [Version.parse, h]
    · simp [Version.parse, h]
    · by_cases hi : trim s = c!"inf"
      · simp [Version.parse, hi]
      by_cases he : trim s = c!"epsilon"
      · simp [Version.parse, he]
      rw [Version.parse_of_spells h hi he]; rfl

-- a grammatical string, and one that is rejected for each kind of reason
example : Spells c!"1.2-rc_3" [c!"1", c!"2", c!"rc_3"] [c!".", c!"-"] :=
  spells_of_parseInternal (by decide)
example : Version.parse c!"v1" = none ∧ Version.parse c!"1..2" = none ∧ Version.parse c!"1._2" = none ∧
    Version.parse c!"1.2.3.4.5.6" = none ∧ Version.parse c!"1 2" = none ∧ Version.parse c!"abcdefghijk" = none := by
  decide

/-! ## C06 -/

/-- C06: the infinite version is at least every version and strictly above every other parsed version. -/
theorem C06_inf_greatest (v : Version) :
    v.cmp Version.inf ≠ .gt ∧
    (∀ s, Version.parse s = some v → trim s ≠ c!"inf" → v.cmp Version.inf = .lt) := by
  have hI : Version.inf.isInf = true := by decide
  constructor
  · unfold Version.cmp; rw [hI]; cases v.isInf <;> simp
  · intro s hs hne
    have : v.isInf = false := by
      rcases Version.parse_cases hs with ⟨rfl, _⟩ | ⟨_, h⟩ | ⟨_, hr, _, h2, _⟩
      · decide
      · exact absurd h hne
      · simp [Version.isInf, hr, h2]
    unfold Version.cmp; rw [hI, this]

/-- C06: the empty version is at most every version and strictly below every parsed version that is not
empty. -/
theorem C06_empty_least (v : Version) :
    Version.empty.cmp v ≠ .gt ∧
    (∀ s, Version.parse s = some v → trim s ≠ [] → trim s ≠ c!"epsilon" → Version.empty.cmp v = .lt) := by
  have hE : Version.empty.isEmpty = true := by decide
  have hI : Version.empty.isInf = false := by decide
  constructor
  · unfold Version.cmp; rw [hE, hI]; cases v.isInf <;> cases v.isEmpty <;> simp
  · intro s hs h1 h2
    have : v.isEmpty = false := by
      rcases Version.parse_cases hs with ⟨_, h | h⟩ | ⟨rfl, _⟩ | ⟨_, hr, hne, _⟩
      · exact absurd h h1
      · exact absurd h h2
      · decide
      · simp [Version.isEmpty, hr, hne]
    unfold Version.cmp; rw [hE, hI, this]; cases v.isInf <;> simp

example : ∃ v, Version.parse c!"99999.zzz" = some v ∧ v.cmp Version.inf = .lt ∧ Version.empty.cmp v = .lt :=
  ⟨_, rfl, by decide, by decide⟩

/-! ## C07 -/

/-- C07 does not hold above 2^64: 99999999999999999999 compares below 5. -/
theorem C07_numeric_false :
    ∃ a b, Version.parse (dotted [99999999999999999999]) = some a ∧ Version.parse (dotted [5]) = some b ∧
      a.cmp b = .lt ∧ lexNat [99999999999999999999] [5] = .gt :=
  ⟨_, _, rfl, rfl, by decide, by decide⟩

/-- C07, partial: two dotted versions with the same number (one to five) of numeric components below 2^64
parse and compare in the lexicographic order of the numbers.  Missing: components of 2^64 and more. -/
theorem C07_numeric_partial (xs ys : List Nat) (hlen : xs.length = ys.length) (h1 : xs ≠ [])
    (h5 : xs.length ≤ 5) (hx : ∀ x ∈ xs, x < 2 ^ 64) (hy : ∀ y ∈ ys, y < 2 ^ 64) :
    ∃ a b, Version.parse (dotted xs) = some a ∧ Version.parse (dotted ys) = some b ∧ a.cmp b = lexNat xs ys := by
  have h1' : ys ≠ [] := by intro h; rw [h] at hlen; simp at hlen; exact h1 hlen
  have pa := parse_dotted h1 h5
  have pb := parse_dotted h1' (by omega)
  refine ⟨_, _, pa, pb, ?_⟩
  rcases parsed_kind pa with h | h | ⟨ia, ea, _⟩
  · have := congrArg Version.tokens h; simp [Version.empty] at this; exact absurd this h1
  · have := congrArg Version.tokens h; simp [Version.inf] at this; exact absurd this h1
  rcases parsed_kind pb with h | h | ⟨ib, eb, _⟩
  · have := congrArg Version.tokens h; simp [Version.empty] at this; exact absurd this h1'
  · have := congrArg Version.tokens h; simp [Version.inf] at this; exact absurd this h1'
  unfold Version.cmp
  rw [ia, ib, ea, eb]
  exact cmpTokens_decimal hlen hx hy

example : lexNat [1, 10, 2] [1, 9, 30] = .gt ∧ dotted [1, 10, 2] = c!"1.10.2" := by decide

/-! ## C08 -/

/-- C08: a version has a prefix exactly when it has at least as many tokens and the leading tokens are equal
one by one. -/
theorem C08_prefix_tokenwise (v p : Version) :
    v.hasPrefix p = true ↔
      p.tokens.length ≤ v.tokens.length ∧
      ∀ i (h1 : i < p.tokens.length) (h2 : i < v.tokens.length), cmpToken v.tokens[i] p.tokens[i] = .eq :=
  hasPrefix_iff v p

/-- C08: every version is a prefix of itself. -/
theorem C08_prefix_refl (v : Version) : v.hasPrefix v = true := by
  rw [hasPrefix_iff]; exact ⟨Nat.le_refl _, fun i _ _ => cmpToken_refl _⟩

/-- C08: a prefix of a prefix is a prefix, for all parsed versions and any size of numbers. -/
theorem C08_prefix_trans (sa sb sc : Str) (a b c : Version) (ha : Version.parse sa = some a)
    (hb : Version.parse sb = some b) (hc : Version.parse sc = some c) (h1 : a.hasPrefix b = true)
    (h2 : b.hasPrefix c = true) : a.hasPrefix c = true := by
  rw [hasPrefix_iff] at *
  refine ⟨by omega, fun i hi hv => ?_⟩
  have e1 := h1.2 i (by omega) (by omega)
  have e2 := h2.2 i hi (by omega)
  have pa := parsed_tokens ha _ (List.getElem_mem hv)
  have pb := parsed_tokens hb _ (List.getElem_mem (l := b.tokens) (n := i) (by omega))
  have pc := parsed_tokens hc _ (List.getElem_mem hi)
  rw [cmpToken_eq_iff pa.1 pb.1 pa.2 pb.2] at e1
  rw [cmpToken_eq_iff pb.1 pc.1 pb.2 pc.2] at e2
  rw [cmpToken_eq_iff pa.1 pc.1 pa.2 pc.2, e1, e2]

example : ∃ a b c, Version.parse c!"1.02.3" = some a ∧ Version.parse c!"1.2" = some b ∧ Version.parse c!"01" = some c ∧
    a.hasPrefix b = true ∧ b.hasPrefix c = true ∧ b.hasPrefix a = false :=
  ⟨_, _, _, rfl, rfl, rfl, by decide, by decide, by decide⟩

/-! ## C09 -/

/-- C09: a version is a prerelease exactly when some token contains a marker word, ignoring case. -/
theorem C09_prerelease (v : Version) :
    v.isPrerelease = true ↔
      v.isEmpty = false ∧ v.isInf = false ∧
      ∃ t ∈ v.tokens, ∃ w ∈ [c!"alpha", c!"beta", c!"rc", c!"dev", c!"pre", c!"snapshot"], w <:+: t.map lowerChar := by
  unfold Version.isPrerelease
  cases v.isEmpty <;> cases v.isInf <;> simp [containsStr_iff, or_assoc]

/-- C09: the special versions are not prereleases. -/
theorem C09_special : Version.empty.isPrerelease = false ∧ Version.inf.isPrerelease = false := by decide

example : ∃ v, Version.parse c!"1.0-Beta2" = some v ∧ v.isPrerelease = true := ⟨_, rfl, by decide⟩
example : ∃ v, Version.parse c!"1.0-b2" = some v ∧ v.isPrerelease = false := ⟨_, rfl, by decide⟩

end Rez.Props
