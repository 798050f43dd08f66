import Verif.Lemmas.Text
import Verif.Props.Version
import Verif.Spec.Range
/-! Lemmas about the range parser. -/
namespace Rez
open Spec

theorem sep_char_not_ws {c : Char} (h : c = '.' ∨ c = '-' ∨ c = '+') : isWs c = false := by
  rcases h with rfl | rfl | rfl <;> decide

theorem mem_interleave {ts seps : List Str} {c : Char} (h : c ∈ interleave ts seps) :
    (∃ t ∈ ts, c ∈ t) ∨ ∃ p ∈ seps, c ∈ p := by
  induction ts generalizing seps with
  | nil => simp [interleave] at h
  | cons t ts ih =>
    cases ts with
    | nil => exact Or.inl ⟨t, by simp, by simpa [interleave] using h⟩
    | cons u us =>
      cases seps with
      | nil =>
        simp only [interleave, List.mem_append] at h
        rcases h with h | h
        · exact Or.inl ⟨t, by simp, h⟩
        · rcases ih h with ⟨t', ht, hc⟩ | ⟨p, hp, hc⟩
          · exact Or.inl ⟨t', List.mem_cons_of_mem _ ht, hc⟩
          · exact Or.inr ⟨p, hp, hc⟩
      | cons s ss =>
        simp only [interleave, List.mem_append] at h
        rcases h with (h | h) | h
        · exact Or.inl ⟨t, by simp, h⟩
        · exact Or.inr ⟨s, by simp, h⟩
        · rcases ih h with ⟨t', ht, hc⟩ | ⟨p, hp, hc⟩
          · exact Or.inl ⟨t', List.mem_cons_of_mem _ ht, hc⟩
          · exact Or.inr ⟨p, List.mem_cons_of_mem _ hp, hc⟩

/-- characters, shape and re-parsing of the printed form of a parsed version -/
structure Printed (s : Str) : Prop where
  chars : ∀ c ∈ s, isTok c = true ∨ c = '.' ∨ c = '-' ∨ c = '+'
  head : ∀ c, s.head? = some c → isTok c = true
  last : ∀ c, s.getLast? = some c → isTok c = true
  noDots : containsStr s c!".." = false

theorem printed_of_spells {s : Str} {ts seps : List Str} (h : Spells s ts seps) : Printed s := by
  have ht : ∀ t ∈ ts, t ≠ [] ∧ t.all isTok = true := fun t htm =>
    ⟨(h.tokens t htm).nonempty, List.all_eq_true.mpr fun c hc => (isTok_iff c).mpr ((h.tokens t htm).chars c hc)⟩
  refine ⟨?_, ?_, ?_, ?_⟩
  · intro c hc
    rw [h.spelling] at hc
    rcases mem_interleave hc with ⟨t, htm, hct⟩ | ⟨p, hp, hcp⟩
    · exact Or.inl (List.all_eq_true.mp (ht t htm).2 c hct)
    · rcases h.separators p hp with rfl | rfl | rfl <;> simp at hcp <;> simp [hcp]
  · rw [h.spelling]; exact head_interleave ht
  · rw [h.spelling]; exact last_interleave ht
  · rw [h.spelling]; exact noDots_interleave h.separators ht

theorem Printed.of_parsed {v : Version} (h : Parsed v) : Printed v.asStr := by
  obtain ⟨s, hs⟩ := h
  rcases Version.parse_cases hs with ⟨rfl, _⟩ | ⟨rfl, _⟩ | ⟨hsp, hr, _⟩
  · exact ⟨by simp [Version.asStr, Version.empty], by simp [Version.asStr, Version.empty],
      by simp [Version.asStr, Version.empty], rfl⟩
  · refine ⟨?_, ?_, ?_, by decide⟩
    · intro c hc; left; simp [Version.asStr, Version.inf] at hc; rcases hc with rfl | rfl | rfl <;> decide
    · intro c hc; simp [Version.asStr, Version.inf] at hc; subst hc; decide
    · intro c hc; simp [Version.asStr, Version.inf] at hc; subst hc; decide
  · rw [Version.asStr, hr]; exact printed_of_spells hsp

theorem isTok_ne {c d : Char} (h : isTok c = true) (hd : isTok d = false) : c ≠ d := by
  rintro rfl; rw [h] at hd; cases hd

theorem Printed.not_mem {s : Str} (h : Printed s) {d : Char} (hd : isTok d = false) (h1 : d ≠ '.') (h2 : d ≠ '-')
    (h3 : d ≠ '+') : d ∉ s := by
  intro hm
  rcases h.chars d hm with h | h | h | h
  · rw [h] at hd; cases hd
  · exact h1 h
  · exact h2 h
  · exact h3 h

theorem Printed.noWs {s : Str} (h : Printed s) : ∀ c ∈ s, isWs c = false := by
  intro c hc
  rcases h.chars c hc with h | h
  · exact isTok_not_ws h
  · exact sep_char_not_ws h

theorem parse_trim (s : Str) : Version.parse (trim s) = Version.parse s := by
  unfold Version.parse; simp only [trim_idem]

theorem parse_asStr {v : Version} (h : Parsed v) : Version.parse (trim v.asStr) = some v := by
  obtain ⟨s, hs⟩ := h
  rw [parse_trim]; exact Props.C04_round_trip s v hs

/-- the bound an operator parses to -/
def Spec.Op.bound : Op → Version → Bound
  | .ge => .ge
  | .gt => .gt
  | .le => .le
  | .lt => .lt
  | .eq => .eq
  | .ne => .ne

theorem boundMatches_op (o : Op) (v w : Version) : boundMatches (o.bound v) w = true ↔ o.holds (w.cmp v) := by
  cases o <;> simp [Op.bound, boundMatches, Op.holds, Version.ge, Version.gt, Version.le, Version.lt, Version.eqv]

/-- a rendered constraint -/
def partText (c : Op × Version) : Str := c.1.text ++ c.2.asStr

theorem op_text_chars (o : Op) : ∀ c ∈ o.text, isOpChar c = true ∧ isWs c = false := by
  cases o <;> simp [Op.text] <;> decide

theorem part_mem {c : Op × Version} {d : Char} (h : d ∈ partText c) :
    isOpChar d = true ∨ d ∈ c.2.asStr := by
  rcases List.mem_append.mp h with h | h
  · exact Or.inl (op_text_chars _ _ h).1
  · exact Or.inr h

theorem part_noWs {c : Op × Version} (hv : Parsed c.2) : ∀ d ∈ partText c, isWs d = false := by
  intro d h
  rcases List.mem_append.mp h with h | h
  · exact (op_text_chars _ _ h).2
  · exact (Printed.of_parsed hv).noWs d h

theorem part_not_mem {c : Op × Version} (hv : Parsed c.2) {d : Char} (h0 : isOpChar d = false)
    (hd : isTok d = false) (h1 : d ≠ '.') (h2 : d ≠ '-') (h3 : d ≠ '+') : d ∉ partText c := by
  intro hm
  rcases part_mem hm with h | h
  · rw [h] at h0; cases h0
  · exact (Printed.of_parsed hv).not_mem hd h1 h2 h3 h

theorem part_head (c : Op × Version) : ∃ x, (partText c).head? = some x ∧ isOpChar x = true := by
  obtain ⟨o, v⟩ := c
  cases o <;> exact ⟨_, rfl, by decide⟩

theorem part_ne_nil (c : Op × Version) : partText c ≠ [] := by
  obtain ⟨x, h, _⟩ := part_head c
  intro he; rw [he] at h; cases h

theorem part_noDots {c : Op × Version} (hv : Parsed c.2) : containsStr (partText c) c!".." = false := by
  have := (Printed.of_parsed hv).noDots
  obtain ⟨o, v⟩ := c
  cases o <;> simp only [partText, Op.text, List.cons_append, List.nil_append] <;>
    repeat rw [containsDots_of_ne _ _ (by decide)]
  all_goals exact this

theorem parseSingle_part {c : Op × Version} (hv : Parsed c.2) : parseSingle (partText c) = some (c.1.bound c.2) := by
  have hp := parse_asStr hv
  have hh := (Printed.of_parsed hv).head
  have htr := trim_of_noWs (part_noWs hv)
  have h1 : ((partText c).isEmpty || partText c == c!"*") = false := by
    rw [Bool.or_eq_false_iff]
    constructor
    · simpa using part_ne_nil c
    · rw [beq_eq_false_iff_ne]
      intro he
      exact part_not_mem (d := '*') hv (by decide) (by decide) (by decide) (by decide) (by decide) (by simp [he])
  unfold parseSingle
  simp only [htr, h1, Bool.false_eq_true, if_false]
  obtain ⟨o, v⟩ := c
  simp only at hp hh
  have hne : ∀ r, v.asStr ≠ '=' :: r := by
    intro r he
    have := hh '=' (by rw [he]; rfl)
    revert this; decide
  cases o <;> simp only [partText, Op.text, List.cons_append, List.nil_append, Op.bound] at *
  all_goals simp [hp]

theorem splitOps_noSpace {cur s : Str} (h : ' ' ∉ s) :
    splitOps cur s = if (trim (cur ++ s)).isEmpty then [] else [trim (cur ++ s)] := by
  induction s generalizing cur with
  | nil => simp [splitOps]
  | cons c cs ih =>
    have hc : c ≠ ' ' := fun e => h (by simp [e])
    have := ih (cur := cur ++ [c]) (fun hm => h (List.mem_cons_of_mem _ hm))
    simp [splitOps, hc, this]

theorem splitOps_part {c : Op × Version} (hv : Parsed c.2) : splitOps [] (partText c) = [partText c] := by
  rw [splitOps_noSpace (by
    intro hm; have := part_noWs hv _ hm; revert this; decide)]
  simp [trim_of_noWs (part_noWs hv), part_ne_nil]

/-- a rendered conjunction -/
def conjText (cs : List (Op × Version)) : Str := joinWith c!"," (cs.map partText)

theorem conj_noWs {cs : List (Op × Version)} (hv : ∀ c ∈ cs, Parsed c.2) : ∀ d ∈ conjText cs, isWs d = false := by
  intro d hd
  rcases mem_joinWith hd with h | ⟨p, hp, hc⟩
  · simp at h; subst h; decide
  · obtain ⟨c, hcm, rfl⟩ := List.mem_map.mp hp
    exact part_noWs (hv c hcm) d hc

theorem conj_not_mem {cs : List (Op × Version)} (hv : ∀ c ∈ cs, Parsed c.2) {d : Char} (hx : d ≠ ',')
    (h0 : isOpChar d = false) (hd : isTok d = false) (h1 : d ≠ '.') (h2 : d ≠ '-') (h3 : d ≠ '+') :
    d ∉ conjText cs := by
  intro hm
  rcases mem_joinWith hm with h | ⟨p, hp, hc⟩
  · exact hx (by simpa using h)
  · obtain ⟨c, hcm, rfl⟩ := List.mem_map.mp hp
    exact part_not_mem (hv c hcm) h0 hd h1 h2 h3 hc

theorem conj_head {cs : List (Op × Version)} (hne : cs ≠ []) :
    ∃ x, (conjText cs).head? = some x ∧ isOpChar x = true := by
  cases cs with
  | nil => exact absurd rfl hne
  | cons c cs =>
    obtain ⟨x, hx, ho⟩ := part_head c
    refine ⟨x, ?_, ho⟩
    cases cs with
    | nil => exact hx
    | cons d ds =>
      simp only [conjText, List.map_cons, joinWith, List.append_assoc]
      rw [List.head?_append, hx]; rfl

theorem conj_noDots {cs : List (Op × Version)} (hv : ∀ c ∈ cs, Parsed c.2) :
    containsStr (conjText cs) c!".." = false := by
  apply containsDots_join (by decide)
  intro p hp
  obtain ⟨c, hcm, rfl⟩ := List.mem_map.mp hp
  refine ⟨part_noDots (hv c hcm), ?_⟩
  obtain ⟨x, hx, ho⟩ := part_head c
  rw [hx]; intro he; simp at he; subst he; revert ho; decide

theorem filter_eq_self_of {α} {l : List α} {p : α → Bool} (h : ∀ x ∈ l, p x = true) : l.filter p = l :=
  List.filter_eq_self.mpr h

/-- the parts found by `split_constraint_parts` in a rendered conjunction -/
theorem parts_conj {cs : List (Op × Version)} (hne : cs ≠ []) (hv : ∀ c ∈ cs, Parsed c.2) :
    splitConstraintParts (conjText cs) = cs.map partText := by
  unfold splitConstraintParts conjText
  rw [splitChar_join (by simpa using hne)]
  · have h1 : (cs.map partText).map trim = cs.map partText := by
      rw [List.map_map]; apply List.map_congr_left
      intro c hc; exact trim_of_noWs (part_noWs (hv c hc))
    rw [h1, filter_eq_self_of]
    · clear h1 hne
      rw [List.flatMap_map]
      induction cs with
      | nil => rfl
      | cons c cs ih =>
        rw [List.flatMap_cons, splitOps_part (hv c (by simp)), ih (fun x hx => hv x (List.mem_cons_of_mem _ hx))]
        rfl
    · intro p hp
      obtain ⟨c, _, rfl⟩ := List.mem_map.mp hp
      simpa using part_ne_nil c
  · intro p hp
    obtain ⟨c, hcm, rfl⟩ := List.mem_map.mp hp
    exact part_not_mem (hv c hcm) (by decide) (by decide) (by decide) (by decide) (by decide)

/-- the bounds of a conjunction; none written means "any" -/
def conjBounds (cs : List (Op × Version)) : BoundSet :=
  if cs.isEmpty then [.any] else cs.map fun c => c.1.bound c.2

theorem parseParts {cs : List (Op × Version)} (hv : ∀ c ∈ cs, Parsed c.2) :
    (((cs.map partText).map trim).filter (fun p => !p.isEmpty)).mapM parseSingle =
      some (cs.map fun c => c.1.bound c.2) := by
  have h1 : (cs.map partText).map trim = cs.map partText := by
    rw [List.map_map]; apply List.map_congr_left
    intro c hc; exact trim_of_noWs (part_noWs (hv c hc))
  rw [h1, filter_eq_self_of]
  · exact mapM_some_map fun c hc => parseSingle_part (hv c hc)
  · intro p hp
    obtain ⟨c, _, rfl⟩ := List.mem_map.mp hp
    simpa using part_ne_nil c

theorem startsOp_iff {s : Str} {x : Char} (h : s.head? = some x) : startsOp s = isOpChar x := by
  cases s with
  | nil => cases h
  | cons c cs => simp at h; subst h; rfl

theorem parseConjunction_conj {cs : List (Op × Version)} (hv : ∀ c ∈ cs, Parsed c.2) :
    parseConjunction (conjText cs) = some (conjBounds cs) := by
  by_cases hne : cs = []
  · subst hne; rfl
  obtain ⟨x, hx, ho⟩ := conj_head hne
  have h1 : ((conjText cs).isEmpty || conjText cs == c!"*") = false := by
    rw [Bool.or_eq_false_iff]
    constructor
    · cases h : conjText cs with
      | nil => rw [h] at hx; cases hx
      | cons _ _ => rfl
    · rw [beq_eq_false_iff_ne]
      intro he
      exact conj_not_mem (d := '*') hv (by decide) (by decide) (by decide) (by decide) (by decide) (by decide)
        (by simp [he])
  have h2 : expandPlus (conjText cs) = conjText cs := by
    unfold expandPlus
    rw [startsOp_iff hx, ho]; simp
  unfold parseConjunction
  simp only [h1, Bool.false_eq_true, if_false, h2, parts_conj hne hv, parseParts hv]
  simp [conjBounds, hne]

theorem parseAlternatives_render {alts : List (List (Op × Version))} (hne : alts ≠ [])
    (hv : ∀ cs ∈ alts, ∀ c ∈ cs, Parsed c.2) :
    parseAlternatives (joinWith c!"|" (alts.map conjText)) = some (alts.map conjBounds) := by
  unfold parseAlternatives
  rw [splitChar_join (by simpa using hne)]
  · apply mapM_some_map
    intro cs hcs
    rw [trim_of_noWs (conj_noWs (hv cs hcs))]
    exact parseConjunction_conj (hv cs hcs)
  · intro p hp
    obtain ⟨cs, hcs, rfl⟩ := List.mem_map.mp hp
    exact conj_not_mem (hv cs hcs) (by decide) (by decide) (by decide) (by decide) (by decide) (by decide)

theorem alts_noWs {alts : List (List (Op × Version))} (hv : ∀ cs ∈ alts, ∀ c ∈ cs, Parsed c.2) :
    ∀ d ∈ joinWith c!"|" (alts.map conjText), isWs d = false := by
  intro d hd
  rcases mem_joinWith hd with h | ⟨p, hp, hc⟩
  · simp at h; subst h; decide
  · obtain ⟨cs, hcs, rfl⟩ := List.mem_map.mp hp
    exact conj_noWs (hv cs hcs) d hc

theorem alts_not_star {alts : List (List (Op × Version))} (hv : ∀ cs ∈ alts, ∀ c ∈ cs, Parsed c.2) :
    '*' ∉ joinWith c!"|" (alts.map conjText) := by
  intro hm
  rcases mem_joinWith hm with h | ⟨p, hp, hc⟩
  · revert h; decide
  · obtain ⟨cs, hcs, rfl⟩ := List.mem_map.mp hp
    exact conj_not_mem (hv cs hcs) (by decide) (by decide) (by decide) (by decide) (by decide) (by decide) hc

theorem alts_head (alts : List (List (Op × Version))) :
    ∀ x, (joinWith c!"|" (alts.map conjText)).head? = some x → x = '|' ∨ isOpChar x = true := by
  intro x hx
  cases alts with
  | nil => simp [joinWith] at hx
  | cons cs rest =>
    have hc : ∀ x, (conjText cs).head? = some x → isOpChar x = true := by
      intro x hx
      cases cs with
      | nil => simp [conjText, joinWith] at hx
      | cons c cs =>
        obtain ⟨y, hy, ho⟩ := conj_head (cs := c :: cs) (by simp)
        rw [hy] at hx; simp at hx; subst hx; exact ho
    cases rest with
    | nil => exact Or.inr (hc x hx)
    | cons ds rest =>
      simp only [List.map_cons, joinWith, List.append_assoc, List.cons_append, List.nil_append] at hx
      cases h : conjText cs with
      | nil => rw [h] at hx; simp at hx; exact Or.inl hx.symm
      | cons y ys =>
        rw [h] at hx; simp at hx; subst hx
        exact Or.inr (hc _ (by rw [h]; rfl))

theorem parseRangeStr_render {alts : List (List (Op × Version))} (hne : alts ≠ [])
    (hv : ∀ cs ∈ alts, ∀ c ∈ cs, Parsed c.2) :
    parseRangeStr (joinWith c!"|" (alts.map conjText)) = some (alts.map conjBounds) ∨
    (joinWith c!"|" (alts.map conjText) = [] ∧ alts = [[]]) := by
  have hstar := alts_not_star hv
  have hhead := alts_head alts
  have hpa := parseAlternatives_render hne hv
  have hnd : containsStr (joinWith c!"|" (alts.map conjText)) c!".." = false := by
    apply containsDots_join (by decide)
    intro p hp
    obtain ⟨cs, hcs, rfl⟩ := List.mem_map.mp hp
    refine ⟨conj_noDots (hv cs hcs), ?_⟩
    cases cs with
    | nil => simp [conjText, joinWith]
    | cons c cs =>
      obtain ⟨y, hy, ho⟩ := conj_head (cs := c :: cs) (by simp)
      rw [hy]; intro he; simp at he; subst he; revert ho; decide
  have hempty : joinWith c!"|" (alts.map conjText) = [] → alts = [[]] := by
    cases alts with
    | nil => exact absurd rfl hne
    | cons cs rest =>
      cases rest with
      | nil =>
        intro h
        cases cs with
        | nil => rfl
        | cons c cs =>
          obtain ⟨y, hy, _⟩ := conj_head (cs := c :: cs) (by simp)
          simp only [List.map_cons, List.map_nil, joinWith] at h
          rw [h] at hy; cases hy
      | cons ds rest => intro h; simp [joinWith] at h
  revert hstar hhead hpa hnd hempty
  generalize joinWith c!"|" (alts.map conjText) = s
  intro hstar hhead hpa hnd hempty
  by_cases hs : s = []
  · exact Or.inr ⟨hs, hempty hs⟩
  left
  have h1 : (s.isEmpty || s == c!"*") = false := by
    rw [Bool.or_eq_false_iff]
    refine ⟨by simpa using hs, ?_⟩
    rw [beq_eq_false_iff_ne]; rintro rfl; exact hstar (by simp)
  have h2 : (s == c!"empty" || s == c!"!*") = false := by
    rw [Bool.or_eq_false_iff, beq_eq_false_iff_ne, beq_eq_false_iff_ne]
    constructor
    · rintro rfl
      have := hhead 'e' rfl
      revert this; decide
    · rintro rfl; exact hstar (by simp)
  unfold parseRangeStr
  simp only [h1, h2, Bool.false_eq_true, if_false, splitOnce_none hnd]
  exact hpa

theorem parse_render {alts : List (List (Op × Version))} (hne : alts ≠ [])
    (hv : ∀ cs ∈ alts, ∀ c ∈ cs, Parsed c.2) :
    VersionRange.parse (renderRange alts) = some (.mk (renderRange alts) (alts.map conjBounds) true []) := by
  have he : renderRange alts = joinWith c!"|" (alts.map conjText) := rfl
  unfold VersionRange.parse
  rw [he, trim_of_noWs (alts_noWs hv)]
  rcases parseRangeStr_render hne hv with h | ⟨h, rfl⟩
  · rw [h]; rfl
  · rfl

theorem contains_mk {s : Str} {bs : List BoundSet} {subs : List VersionRange} {v : Version} :
    (VersionRange.mk s bs true subs).contains v = true ↔
      bs = [] ∨ ((∃ b ∈ bs, BoundSet.contains b v = true) ∧ VersionRange.containsAny subs v = false) := by
  unfold VersionRange.contains
  cases bs with
  | nil => simp
  | cons b bs =>
    simp only [Bool.not_true, List.isEmpty_cons, Bool.or_self, Bool.false_eq_true, if_false]
    by_cases h : ((b :: bs).any fun b => BoundSet.contains b v) = true
    · rw [h]; simp only [Bool.not_true, Bool.false_eq_true, if_false, Bool.not_eq_true']
      simp only [List.any_eq_true] at h
      constructor
      · intro h'; exact Or.inr ⟨h, h'⟩
      · rintro (h' | h')
        · cases h'
        · exact h'.2
    · rw [Bool.not_eq_true] at h
      rw [h]
      simp only [Bool.not_false, if_true, Bool.false_eq_true, false_iff]
      rintro (h' | ⟨h', _⟩)
      · cases h'
      · rw [← Bool.not_eq_true, List.any_eq_true] at h; exact h h'

theorem conjBounds_contains (cs : List (Op × Version)) (w : Version) :
    BoundSet.contains (conjBounds cs) w = true ↔ ∀ c ∈ cs, c.1.holds (w.cmp c.2) := by
  unfold conjBounds BoundSet.contains
  split
  · rename_i h; simp at h; subst h; simp [boundMatches]
  · simp [boundMatches_op]

theorem contains_render {alts : List (List (Op × Version))} {s : Str} (hne : alts ≠ []) (w : Version) :
    (VersionRange.mk s (alts.map conjBounds) true []).contains w = true ↔
      ∃ cs ∈ alts, ∀ c ∈ cs, c.1.holds (w.cmp c.2) := by
  rw [contains_mk]
  simp only [List.map_eq_nil_iff, hne, false_or, List.mem_map, VersionRange.containsAny, and_true]
  constructor
  · rintro ⟨b, ⟨cs, hcs, rfl⟩, hb⟩
    exact ⟨cs, hcs, (conjBounds_contains cs w).mp hb⟩
  · rintro ⟨cs, hcs, h⟩
    exact ⟨_, ⟨cs, hcs, rfl⟩, (conjBounds_contains cs w).mpr h⟩

end Rez
