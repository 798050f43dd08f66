import Verif.Spec.Vcs
import Verif.Lemmas.VersionExtra
import Verif.Lemmas.VersionParse
import Verif.Lemmas.RequirementParse
import Verif.Props.Rex
import Verif.Props.Filter
import Verif.Lemmas.Requirement
import Verif.Lemmas.VersionNumeric
/-!
# Properties of version control (C160, C161)
-/
namespace Rez.Props
open Rez Rez.Vcs Rez.Vcs.Spec

namespace VcsLemmas

theorem infix_dropWhile {w s : Str} (hw : Word w) (h : w <:+: s) : w <:+: s.dropWhile isWs := by
  induction s with
  | nil => exact h
  | cons c s ih =>
    rw [List.dropWhile_cons]
    split
    · rename_i hc
      refine ih ?_
      rcases List.infix_cons_iff.1 h with h | h
      · exfalso
        cases w with
        | nil => exact hw.1 rfl
        | cons d w =>
          have hd := List.cons_prefix_cons.1 h
          have := hw.2 d (by simp)
          rw [hd.1, hc] at this
          cases this
      · exact h
    · exact h

theorem word_reverse {w : Str} (h : Word w) : Word w.reverse := ⟨by simpa using h.1, fun c hc => h.2 c (by simpa using hc)⟩

theorem infix_trim {w s : Str} (hw : Word w) : w <:+: trim s ↔ w <:+: s := by
  constructor
  · intro h
    refine h.trans ?_
    unfold trim
    exact ((trimEnd_prefix _).isInfix).trans (List.dropWhile_suffix _).isInfix
  · intro h
    unfold trim trimEnd trimStart
    have h1 := infix_dropWhile hw h
    have h2 := infix_dropWhile (word_reverse hw) (List.reverse_infix.2 h1)
    rw [← List.reverse_infix]
    simpa using h2

/-- The lines of a text hold what the text holds, up to line breaks. -/
theorem infix_split {w : Str} (hne : w ≠ []) (hw : '\n' ∉ w) (s : Str) : (∃ l ∈ splitChar '\n' s, w <:+: l) ↔ w <:+: s := by
  induction s with
  | nil => simp [splitChar]
  | cons c s ih =>
    simp only [splitChar]
    by_cases hc : c = '\n'
    · subst hc
      rw [if_pos (by simp)]
      rw [List.infix_cons_iff, ← ih]
      constructor
      · rintro ⟨l, hl, h⟩
        rcases List.mem_cons.1 hl with rfl | hl
        · exact absurd (List.infix_nil.1 h) hne
        · exact Or.inr ⟨l, hl, h⟩
      · rintro (h | ⟨l, hl, h⟩)
        · exfalso
          cases w with
          | nil => exact hne rfl
          | cons d w =>
            have := (List.cons_prefix_cons.1 h).1
            exact hw (by simp [this])
        · exact ⟨l, List.mem_cons_of_mem _ hl, h⟩
    · rw [if_neg (by simpa using hc)]
      cases hs : splitChar '\n' s with
      | nil => exact absurd hs (splitChar_ne_nil _ _)
      | cons p ps =>
        rw [hs] at ih
        dsimp only
        -- a prefix of the text without line breaks is a prefix of its first line
        have hpre : ∀ u : Str, '\n' ∉ u → (u <+: s ↔ u <+: p) := by
          clear ih hne hw
          induction s generalizing p ps with
          | nil =>
            simp only [splitChar] at hs
            intro u hu
            obtain ⟨rfl, rfl⟩ := List.cons.inj hs
            rfl
          | cons d s ih2 =>
            intro u hu
            simp only [splitChar] at hs
            by_cases hd : d = '\n'
            · subst hd
              rw [if_pos (by simp)] at hs
              obtain ⟨rfl, -⟩ := List.cons.inj hs
              cases u with
              | nil => simp
              | cons x u =>
                constructor
                · intro h
                  have := (List.cons_prefix_cons.1 h).1
                  exact absurd (by simp [this]) hu
                · intro h
                  simp at h
            · rw [if_neg (by simpa using hd)] at hs
              cases hs2 : splitChar '\n' s with
              | nil => exact absurd hs2 (splitChar_ne_nil _ _)
              | cons q qs =>
                rw [hs2] at hs
                obtain ⟨rfl, -⟩ := List.cons.inj hs
                cases u with
                | nil => simp
                | cons x u =>
                  rw [List.cons_prefix_cons, List.cons_prefix_cons, ih2 q qs hs2 u (fun h => hu (by simp [h]))]
        rw [List.infix_cons_iff, ← ih]
        constructor
        · rintro ⟨l, hl, h⟩
          rcases List.mem_cons.1 hl with rfl | hl
          · rcases List.infix_cons_iff.1 h with h | h
            · left
              cases w with
              | nil => exact absurd rfl hne
              | cons x w =>
                rw [List.cons_prefix_cons] at h ⊢
                exact ⟨h.1, (hpre w (fun hh => hw (by simp [hh]))).2 h.2⟩
            · exact Or.inr ⟨p, by simp, h⟩
          · exact Or.inr ⟨l, by simp [hl], h⟩
        · rintro (h | ⟨l, hl, h⟩)
          · refine ⟨c :: p, by simp, ?_⟩
            cases w with
            | nil => exact absurd rfl hne
            | cons x w =>
              rw [List.cons_prefix_cons] at h
              refine (List.cons_prefix_cons.2 ⟨h.1, (hpre w (fun hh => hw (by simp [hh]))).1 h.2⟩).isInfix
          · rcases List.mem_cons.1 hl with rfl | hl
            · exact ⟨c :: l, by simp, List.infix_cons_iff.2 (Or.inr h)⟩
            · exact ⟨l, by simp [hl], h⟩

theorem infix_cr {w t : Str} (hw : Word w) :
    w <:+: (if t.getLast? = some '\r' then t.dropLast else t) ↔ w <:+: t := by
  by_cases h : t.getLast? = some '\r'
  · rw [if_pos h]
    have ht : t = t.dropLast ++ ['\r'] := by
      rw [List.getLast?_eq_some_iff] at h
      obtain ⟨ys, hys⟩ := h
      rw [hys]; simp
    constructor
    · intro hi
      rw [ht]
      exact hi.trans (List.prefix_append _ _).isInfix
    · intro hi
      have h1 : w.reverse <:+: '\r' :: t.dropLast.reverse := by
        rw [← List.reverse_infix, ht] at hi
        simpa using hi
      rcases List.infix_cons_iff.1 h1 with h2 | h2
      · exfalso
        have hwr := word_reverse hw
        cases hr : w.reverse with
        | nil => exact hwr.1 hr
        | cons d u =>
          rw [hr] at h2 hwr
          have hd := (List.cons_prefix_cons.1 h2).1
          have := hwr.2 d (by simp)
          rw [hd] at this
          revert this
          decide
      · exact List.reverse_infix.1 h2
  · rw [if_neg h]

theorem infix_lines {w : Str} (hw : Word w) (s : Str) : (∃ l ∈ lines s, w <:+: l) ↔ w <:+: s := by
  have hnl : '\n' ∉ w := by
    intro h
    have := hw.2 _ h
    revert this
    decide
  rw [← infix_split hw.1 hnl]
  unfold lines
  dsimp only
  constructor
  · rintro ⟨l, hl, h⟩
    rw [List.mem_map] at hl
    obtain ⟨t, ht, rfl⟩ := hl
    refine ⟨t, ?_, (infix_cr hw).1 h⟩
    split at ht
    · exact (List.dropLast_sublist _).subset ht
    · exact ht
  · rintro ⟨t, ht, h⟩
    refine ⟨_, List.mem_map.2 ⟨t, ?_, rfl⟩, (infix_cr hw).2 h⟩
    split
    · rename_i hlast
      rw [List.getLast?_eq_some_iff] at hlast
      obtain ⟨ys, hys⟩ := hlast
      rw [hys] at ht ⊢
      rw [List.dropLast_concat]
      rcases List.mem_append.1 ht with ht | ht
      · exact ht
      · rw [List.mem_singleton] at ht
        subst ht
        exact absurd (List.infix_nil.1 h) hw.1
    · exact ht

end VcsLemmas

/-- **C160**: Mercurial: a tag counts as existing if and only if its name appears anywhere in the list of tags that is
printed. -/
theorem C160_hg_partial (text tag : Str) (ht : Word tag) : hgTagExists (some text) tag = some (decide (tag <:+: text)) := by
  unfold hgTagExists shown
  simp only [Option.map_some]
  congr 1
  rw [Bool.eq_iff_iff, decide_eq_true_iff, List.any_eq_true]
  rw [← VcsLemmas.infix_trim ht, ← VcsLemmas.infix_lines ht]
  constructor
  · rintro ⟨l, hl, h⟩
    exact ⟨l, hl, (containsStr_iff _ _).1 h⟩
  · rintro ⟨l, hl, h⟩
    exact ⟨l, hl, (containsStr_iff _ _).2 h⟩

/-- C160 is about something. -/
example : Word c!"foo-1.0" ∧ hgTagExists (some c!"tip      2:cafe\nfoo-1.0  1:beef\n") c!"foo-1.0" = some true ∧
    hgTagExists (some c!"tip      2:cafe\n") c!"foo-1.0" = some false := by
  refine ⟨⟨by decide, by decide⟩, ?_, ?_⟩ <;> decide +kernel

/-- So a tag that there is not counts as existing if it is part of the name of another one. -/
theorem C160_hg_false : hgTagExists (some c!"foo-1.0.1  1:beef\n") c!"foo-1.0" = some true := by decide +kernel

/-- **C160**: git: a tag is made for the current commit, if there is no tag of that name, and nothing else changes. -/
theorem C160_git (g g' : Git) (t : Str) :
    gitTag g t = some g' ↔ gitTagExists g t = false ∧ g.head ≠ none ∧ g'.head = g.head ∧ g' = { g with tags := g'.tags } ∧
      ∃ c, g.head = some c ∧ g'.tags = mset g.tags t c := by
  unfold gitTag gitTagExists
  cases hh : g.head with
  | none => simp
  | some c =>
    dsimp only
    constructor
    · intro h
      split at h
      · cases h
      · rename_i hn
        cases h
        exact ⟨by simpa using hn, by simp, rfl, rfl, c, rfl, rfl⟩
    · rintro ⟨hn, -, h1, h2, d, hd, ht⟩
      rw [if_neg (by simp [hn])]
      cases hd
      rw [h2, ht]

/-- **C160**: git: whatever happens in a repository, a tag stays where it is. -/
theorem C160_git_stays (es : List Event) (g : Git) (t c : Str) (h : mget g.tags t = some c) :
    mget (es.foldl Git.step g).tags t = some c := by
  induction es generalizing g with
  | nil => exact h
  | cons e es ih =>
    refine ih _ ?_
    cases e with
    | commit d => exact h
    | tag u =>
      show mget ((gitTag g u).getD g).tags t = some c
      cases hg : gitTag g u with
      | none => exact h
      | some g' =>
        obtain ⟨hn, -, -, -, d, -, htags⟩ := (C160_git g g' u).1 hg
        show mget g'.tags t = some c
        rw [htags, mget_mset]
        by_cases htu : t = u
        · subst htu
          unfold gitTagExists at hn
          rw [h] at hn
          cases hn
        · rw [if_neg htu]
          exact h

/-- C160 is about something. -/
example : gitTag ⟨some c!"cafe", []⟩ c!"foo-1.0" = some ⟨some c!"cafe", [(c!"foo-1.0", c!"cafe")]⟩ ∧
    gitTag ⟨some c!"beef", [(c!"foo-1.0", c!"cafe")]⟩ c!"foo-1.0" = none := by decide

namespace VcsLemmas

/-- What `find` finds. -/
theorem idxOf_split {c : Char} {a b : Str} (h : c ∉ a) : (a ++ c :: b).idxOf c = a.length := by
  rw [List.idxOf_append_of_notMem h]
  simp

theorem split_first {c : Char} {s : Str} (h : c ∈ s) : ∃ a b, s = a ++ c :: b ∧ c ∉ a := by
  obtain ⟨a, b, hab, hn⟩ := List.eq_append_cons_of_mem h
  exact ⟨a, b, hab, hn⟩

end VcsLemmas

/-- **C161**: Mercurial: the time in a line is the number between the first parenthesis and the first comma; without them there
is none; and if the comma comes first the program panics. -/
theorem C161_time (line : Str) :
    (hgTimestamp line = .panic ↔ ∃ a b c, trim line = a ++ ',' :: b ++ '(' :: c ∧ ',' ∉ a ∧ '(' ∉ a ∧ '(' ∉ b) ∧
    ∀ z, hgTimestamp line = .ok (some z) ↔
      ∃ a b c, trim line = a ++ '(' :: b ++ ',' :: c ∧ '(' ∉ a ∧ ',' ∉ a ∧ ',' ∉ b ∧ parseI64 (trim b) = some z := by
  generalize ht : trim line = t
  have hdef : hgTimestamp line = if '(' ∈ t ∧ ',' ∈ t then
      if t.idxOf ',' < t.idxOf '(' + 1 then .panic
      else .ok (parseI64 (trim ((t.take (t.idxOf ',')).drop (t.idxOf '(' + 1)))) else .ok none := by
    unfold hgTimestamp
    dsimp only
    rw [ht]
  rw [hdef]
  by_cases hb : '(' ∈ t ∧ ',' ∈ t
  · rw [if_pos hb]
    obtain ⟨a, r, hr, ha⟩ := VcsLemmas.split_first hb.1
    by_cases hca : ',' ∈ a
    · obtain ⟨a1, a2, ha12, ha1⟩ := VcsLemmas.split_first hca
      have hp1 : '(' ∉ a1 := fun h => ha (by rw [ha12]; simp [h])
      have hp2 : '(' ∉ a2 := fun h => ha (by rw [ha12]; simp [h])
      have hi1 : t.idxOf '(' = a.length := by rw [hr]; exact VcsLemmas.idxOf_split ha
      have hi2 : t.idxOf ',' = a1.length := by
        rw [hr, ha12, List.append_assoc]
        exact VcsLemmas.idxOf_split ha1
      rw [if_pos (by rw [hi1, hi2, ha12]; simp; omega)]
      refine ⟨⟨fun _ => ⟨a1, a2, r, by rw [hr, ha12], ha1, hp1, hp2⟩, fun _ => rfl⟩, fun z => ⟨fun h => (by cases h), ?_⟩⟩
      rintro ⟨x, y, w, hxy, hx1, hx2, hy, -⟩
      exfalso
      have h1 : t.idxOf '(' = x.length := by rw [hxy, List.append_assoc]; exact VcsLemmas.idxOf_split hx1
      have h2 : t.idxOf ',' = x.length + 1 + y.length := by
        rw [hxy, show x ++ '(' :: y ++ ',' :: w = (x ++ '(' :: y) ++ ',' :: w from rfl, VcsLemmas.idxOf_split (by simp [hx2, hy])]
        simp; omega
      have h3 : a.length = a1.length + 1 + a2.length := by rw [ha12]; simp; omega
      omega
    · have hc : ',' ∈ r := by
        have := hb.2
        rw [hr] at this
        simp [hca] at this
        exact this
      obtain ⟨b, c, hbc, hcb⟩ := VcsLemmas.split_first hc
      have hi1 : t.idxOf '(' = a.length := by rw [hr]; exact VcsLemmas.idxOf_split ha
      have hi2 : t.idxOf ',' = a.length + 1 + b.length := by
        rw [hr, hbc, show a ++ '(' :: (b ++ ',' :: c) = (a ++ '(' :: b) ++ ',' :: c by simp, VcsLemmas.idxOf_split (by simp [hca, hcb])]
        simp; omega
      have hslice : (t.take (t.idxOf ',')).drop (t.idxOf '(' + 1) = b := by
        rw [hi1, hi2, hr, hbc]
        rw [show a ++ '(' :: (b ++ ',' :: c) = (a ++ '(' :: b) ++ ',' :: c by simp, List.take_left' (by simp; omega)]
        rw [show a ++ '(' :: b = (a ++ ['(']) ++ b by simp, List.drop_left' (by simp)]
      rw [if_neg (by rw [hi1, hi2]; omega), hslice]
      refine ⟨⟨fun h => (by cases h), ?_⟩, fun z => ⟨?_, ?_⟩⟩
      · rintro ⟨x, y, w, hxy, hx1, hx2, hy⟩
        exfalso
        have h1 : t.idxOf ',' = x.length := by rw [hxy, List.append_assoc]; exact VcsLemmas.idxOf_split hx1
        have h2 : t.idxOf '(' = x.length + 1 + y.length := by
          rw [hxy, show x ++ ',' :: y ++ '(' :: w = (x ++ ',' :: y) ++ '(' :: w from rfl, VcsLemmas.idxOf_split (by simp [hx2, hy])]
          simp; omega
        omega
      · intro h
        exact ⟨a, b, c, by rw [hr, hbc]; simp, ha, hca, hcb, by simpa using h⟩
      · rintro ⟨x, y, w, hxy, hx1, hx2, hy, hz⟩
        have h1 : t.idxOf '(' = x.length := by rw [hxy, List.append_assoc]; exact VcsLemmas.idxOf_split hx1
        have h2 : t.idxOf ',' = x.length + 1 + y.length := by
          rw [hxy, show x ++ '(' :: y ++ ',' :: w = (x ++ '(' :: y) ++ ',' :: w from rfl, VcsLemmas.idxOf_split (by simp [hx2, hy])]
          simp; omega
        have hy2 : (t.take (t.idxOf ',')).drop (t.idxOf '(' + 1) = y := by
          rw [h1, h2, hxy, List.take_left' (by simp; omega)]
          rw [show x ++ '(' :: y = (x ++ ['(']) ++ y by simp, List.drop_left' (by simp)]
        rw [← hslice, hy2, hz]
  · rw [if_neg hb]
    refine ⟨⟨fun h => (by cases h), ?_⟩, fun z => ⟨fun h => (by cases h), ?_⟩⟩
    · rintro ⟨x, y, w, hxy, -⟩
      exact absurd ⟨by rw [hxy]; simp, by rw [hxy]; simp⟩ hb
    · rintro ⟨x, y, w, hxy, -⟩
      exact absurd ⟨by rw [hxy]; simp, by rw [hxy]; simp⟩ hb

/-- C161 is about something. -/
example : hgTimestamp c!"(1706745600, 0)" = .ok (some 1706745600) ∧ hgTimestamp c!"(-5, 0)" = .ok (some (-5)) := by decide +kernel

/-- A date as Mercurial prints it with this filter, two numbers without parentheses, is never read. -/
theorem C161_format_false (line : Str) (h : '(' ∉ line) : hgTimestamp line = .ok none := by
  unfold hgTimestamp
  dsimp only
  rw [if_neg]
  rintro ⟨h1, -⟩
  exact h ((trim_sublist line).subset h1)

example : hgTimestamp c!"1706745600 0" = .ok none := C161_format_false _ (by decide)

namespace VcsLemmas

theorem line_ne {ps : List Str} (h : ∀ p ∈ ps, Line p) (hne : ps ≠ []) : joinWith c!"\n" ps ≠ [] := by
  cases ps with
  | nil => exact absurd rfl hne
  | cons p qs =>
    have hp := (h p (by simp)).filled
    cases qs with
    | nil => exact hp
    | cons q qs =>
      rw [joinWith_two]
      simp [hp]

theorem join_head {ps : List Str} (h : ∀ p ∈ ps, Line p) (hne : ps ≠ []) {c : Char}
    (hc : (joinWith c!"\n" ps).head? = some c) : isWs c = false := by
  cases ps with
  | nil => exact absurd rfl hne
  | cons p qs =>
    have hp := h p (by simp)
    cases qs with
    | nil => exact hp.first c hc
    | cons q qs =>
      refine hp.first c ?_
      rw [joinWith_two, List.append_assoc] at hc
      cases p with
      | nil => exact absurd rfl hp.filled
      | cons x p => simpa using hc

/-- Lines, joined and padded, are read as these lines. -/
theorem lines_joined {ps : List Str} (h : ∀ p ∈ ps, Line p) (hne : ps ≠ []) {post : Str} (hpost : ∀ c ∈ post, isWs c = true) :
    lines (trim (joinWith c!"\n" ps ++ post)) = ps := by
  have ht : trim (joinWith c!"\n" ps ++ post) = joinWith c!"\n" ps := by
    have := RexLemmas.trim_padded (pre := []) (t := joinWith c!"\n" ps) (post := post) (by simp) hpost (line_ne h hne)
      (fun c hc => join_head h hne hc) (fun c hc => by
        obtain ⟨p, hp, hl⟩ := joinWith_last hne (fun p hp => (h p hp).filled) hc
        exact (h p hp).last c hl)
    simpa using this
  rw [ht]
  unfold lines
  dsimp only
  have hs : splitChar '\n' (joinWith c!"\n" ps) = ps := splitChar_join hne fun p hp => (h p hp).noBreak
  rw [hs, if_neg]
  · conv_rhs => rw [← List.map_id ps]
    apply List.map_congr_left
    intro t htp
    rw [if_neg]
    · rfl
    · intro hcr
      have := (h t htp).last _ hcr
      revert this
      decide
  · intro hlast
    have : ([] : Str) ∈ ps := List.mem_of_getLast? hlast
    exact (h _ this).filled rfl

theorem item_line {i : Str × Str} (h1 : Line i.1) (h2 : Line i.2) : Line (i.1 ++ c!": " ++ i.2) where
  filled := by simp [h1.filled]
  noBreak := by
    intro h
    rcases List.mem_append.1 h with h | h
    · rcases List.mem_append.1 h with h | h
      · exact h1.noBreak h
      · revert h; decide
    · exact h2.noBreak h
  first := by
    intro c hc
    refine h1.first c ?_
    rw [List.append_assoc, List.head?_append] at hc
    cases hh : i.1 with
    | nil => exact absurd hh h1.filled
    | cons x l => rw [hh] at hc; simpa using hc
  last := by
    intro c hc
    refine h2.last c ?_
    rw [List.getLast?_append] at hc
    cases hh : i.2.getLast? with
    | none => exact absurd (List.getLast?_eq_none_iff.1 hh) h2.filled
    | some x => rw [hh] at hc; simpa using hc

theorem fold_items (items : List (Str × Str)) (h : ∀ i ∈ items, ':' ∉ i.1) (m : List (Str × Str)) (k : Str)
    (hnd : (items.map (·.1)).Nodup) :
    mget ((items.map fun i => i.1 ++ c!": " ++ i.2).foldl svnItem m) k = match mget items k with
        | some v => some v
        | none => mget m k := by
  induction items generalizing m with
  | nil => rfl
  | cons i items ih =>
    rw [List.map_cons, List.foldl_cons]
    have hs : splitOnce c!": " (i.1 ++ c!": " ++ i.2) = some (i.1, i.2) := splitOnce_head (h i (by simp))
    have hi : svnItem m (i.1 ++ c!": " ++ i.2) = mset m i.1 i.2 := by
      unfold svnItem
      rw [hs]
    rw [hi]
    rw [List.map_cons, List.nodup_cons] at hnd
    rw [ih (fun j hj => h j (by simp [hj])) _ hnd.2, mget_mset]
    obtain ⟨k', v'⟩ := i
    by_cases hk : k = k'
    · subst hk
      have hno : mget items k = none := (mget_none_iff _ _).2 hnd.1
      rw [hno]
      simp [mget]
    · rw [if_neg hk]
      have : mget ((k', v') :: items) k = mget items k := by
        simp [mget, Ne.symm hk]
      rw [this]

theorem svnInfo_items {items : List (Str × Str)} (h : Items items) (hne : items ≠ []) {post : Str}
    (hpost : ∀ c ∈ post, isWs c = true) :
    ∃ m, svnInfo (some (printed items ++ post)) = some m ∧ ∀ k, mget m k = mget items k := by
  refine ⟨_, rfl, fun k => ?_⟩
  unfold printed
  dsimp only
  rw [lines_joined (fun p hp => by
    obtain ⟨i, hi, rfl⟩ := List.mem_map.1 hp
    exact item_line (h.names i hi).1 (h.values i hi)) (by simpa using hne) hpost]
  rw [fold_items items (fun i hi => (h.names i hi).2) [] k h.nodup]
  cases mget items k <;> rfl

end VcsLemmas

/-- **C160**: Subversion: a tag is a copy made below `tags` of the repository, and its existence is looked up right there. -/
theorem C160_svn (items : List (Str × Str)) (h : Items items) (post : Str) (hpost : ∀ c ∈ post, isWs c = true) (root : Str)
    (hr : mget items c!"Repository Root" = some root) (there : Str → Bool) (tag : Str) :
    (∃ src, svnTag (some (printed items ++ post)) tag = some (src, root ++ c!"/tags/" ++ tag)) ∧
    svnTagExists (some (printed items ++ post)) there tag = some (there (root ++ c!"/tags/" ++ tag)) := by
  have hne : items ≠ [] := by rintro rfl; cases hr
  obtain ⟨m, hm, hk⟩ := VcsLemmas.svnInfo_items h hne hpost
  unfold svnTag svnTagExists
  rw [hm]
  simp only [Option.bind_some, hk, hr, Option.map_some]
  exact ⟨⟨_, rfl⟩, trivial⟩

namespace VcsExamples

/-- What a working copy of a branch prints. -/
def items : List (Str × Str) :=
  [(c!"Path", c!"."), (c!"URL", c!"https://h/repo/branches/x"), (c!"Relative URL", c!"^/branches/x"),
   (c!"Repository Root", c!"https://h/repo"), (c!"Last Changed Author", c!"sam"), (c!"Last Changed Rev", c!"41"),
   (c!"Last Changed Date", c!"2026-01-02 03:04:05 +0000 (Fri)")]

theorem line_of {s : Str} (h : s ≠ [] ∧ '\n' ∉ s ∧ (s.head?.all fun c => !isWs c) = true ∧
    (s.getLast?.all fun c => !isWs c) = true) : Line s where
  filled := h.1
  noBreak := h.2.1
  first := by intro c hc; have := h.2.2.1; rw [hc] at this; simpa using this
  last := by intro c hc; have := h.2.2.2; rw [hc] at this; simpa using this

theorem items_ok : Items items where
  nodup := by decide
  names := by
    intro i hi
    have : ∀ i ∈ items, (i.1 ≠ [] ∧ '\n' ∉ i.1 ∧ (i.1.head?.all fun c => !isWs c) = true ∧
      (i.1.getLast?.all fun c => !isWs c) = true) ∧ ':' ∉ i.1 := by decide +kernel
    exact ⟨line_of (this i hi).1, (this i hi).2⟩
  values := by
    intro i hi
    have : ∀ i ∈ items, (i.2 ≠ [] ∧ '\n' ∉ i.2 ∧ (i.2.head?.all fun c => !isWs c) = true ∧
      (i.2.getLast?.all fun c => !isWs c) = true) := by decide +kernel
    exact line_of (this i hi)

end VcsExamples

/-- C160 is about something. -/
example : svnTagExists (some (printed VcsExamples.items ++ c!"\n\n")) (fun u => u = c!"https://h/repo/tags/foo-1.0") c!"foo-1.0" =
    some true := by
  rw [(C160_svn _ VcsExamples.items_ok c!"\n\n" (by decide) c!"https://h/repo" (by decide) _ _).2]
  decide

/-- On a branch the tag is a copy of the trunk, not of what is released. -/
theorem C160_trunk_false : svnTag (some (printed VcsExamples.items)) c!"foo-1.0" =
    some (c!"https://h/repo/trunk", c!"https://h/repo/tags/foo-1.0") := by decide +kernel

/-- Which branches can be released: the ones named so. -/
theorem C160_branches (b : Str) :
    (releasable .git b = true ↔ b = c!"main" ∨ b = c!"master" ∨ ∃ r, b = c!"release/" ++ r) ∧
    (releasable .hg b = true ↔ b = c!"default" ∨ ∃ r, b = c!"release" ++ r) ∧
    (releasable .svn b = true ↔ c!"/trunk" <:+: b ∨ c!"/branches/release" <:+: b) := by
  unfold releasable
  simp only [Bool.or_eq_true, decide_eq_true_eq, List.isPrefixOf_iff_prefix, containsStr_iff, or_assoc]
  refine ⟨?_, ?_, trivial⟩
  · constructor
    · rintro (h | h | ⟨r, h⟩)
      · exact Or.inl h
      · exact Or.inr (Or.inl h)
      · exact Or.inr (Or.inr ⟨r, h.symm⟩)
    · rintro (h | h | ⟨r, h⟩)
      · exact Or.inl h
      · exact Or.inr (Or.inl h)
      · exact Or.inr (Or.inr ⟨r, h.symm⟩)
  · constructor
    · rintro (h | ⟨r, h⟩)
      · exact Or.inl h
      · exact Or.inr ⟨r, h.symm⟩
    · rintro (h | ⟨r, h⟩)
      · exact Or.inl h
      · exact Or.inr ⟨r, h.symm⟩

/-- C160 is about something. -/
example : releasable .git c!"release/2" = true ∧ releasable .git c!"feature/x" = false ∧ releasable .svn c!"^/trunk" = true := by
  decide +kernel

/-- So branches count that are none of the kind. -/
theorem C160_branches_false : releasable .svn c!"^/branches/sam/trunk-experiment" = true ∧
    releasable .hg c!"released-by-mistake" = true := by decide +kernel

/-- **C161**: Subversion: what is told of a revision is what the program printed: the address, the branch, the revision and its
author. -/
theorem C161_svn (items : List (Str × Str)) (h : Items items) (hne : items ≠ []) (post : Str)
    (hpost : ∀ c ∈ post, isWs c = true) :
    ∃ m, svnMetadata (some (printed items ++ post)) = some m ∧ m.url = mget items c!"Repository Root" ∧
      m.branch = mget items c!"Relative URL" ∧ m.author = mget items c!"Last Changed Author" ∧
      ∀ r, mget items c!"Last Changed Rev" = some r → m.commit = r := by
  obtain ⟨m, hm, hk⟩ := VcsLemmas.svnInfo_items h hne hpost
  unfold svnMetadata
  rw [hm]
  refine ⟨_, rfl, hk _, hk _, hk _, fun r hr => ?_⟩
  show (mget m c!"Last Changed Rev").getD c!"unknown" = r
  rw [hk, hr]
  rfl

/-- C161 is about something. -/
example : ∃ m, svnMetadata (some (printed VcsExamples.items ++ c!"\n\n")) = some m ∧ m.commit = c!"41" := by
  obtain ⟨m, hm, -, -, -, hr⟩ := C161_svn _ VcsExamples.items_ok (by decide) c!"\n\n" (by decide)
  exact ⟨m, hm, hr _ (by decide)⟩

/-- The message of a revision is said to be the name of its author, and its date is dropped. -/
theorem C161_message_false : ∃ m, svnMetadata (some (printed VcsExamples.items)) = some m ∧ m.message = some c!"sam" ∧
    m.time = none := ⟨_, rfl, by decide +kernel, rfl⟩

/-- **C161**: Mercurial: if the author and the message are a line each and the date is printed as two numbers in parentheses,
what is told of a revision is what the program printed. -/
theorem C161_hg_partial (node branch author message paths post : Str) (z off : Int) (ha : Line author) (hm : Line message)
    (hz : -(2 ^ 63) ≤ z ∧ z < 2 ^ 63) (hpost : ∀ c ∈ post, isWs c = true) :
    hgMetadata (some node) (some branch)
      (some (joinWith c!"\n" [author, message, c!"(" ++ number z ++ c!", " ++ number off ++ c!")"] ++ post)) (some paths) =
    .ok { url := some (trim paths), branch := some (trim branch), commit := trim node, message := some message,
          author := some author, time := some z } := by
  have hnum : ∀ n c, c ∈ number n → c = '-' ∨ isDigit c = true := by
    intro n c hc
    unfold number at hc
    have hd : ∀ c ∈ decimal n.natAbs, isDigit c = true := List.all_eq_true.1 (decimal_digits _)
    split at hc
    · rcases List.mem_cons.1 hc with h | h
      · exact Or.inl h
      · exact Or.inr (hd c h)
    · exact Or.inr (hd c hc)
  have hnot : ∀ n c, isDigit c = false → c ≠ '-' → c ∉ number n := by
    intro n c h1 h2 hc
    rcases hnum n c hc with h | h
    · exact h2 h
    · rw [h1] at h; cases h
  have hdate : Line (c!"(" ++ number z ++ c!", " ++ number off ++ c!")") := by
    refine ⟨by simp, ?_, ?_, ?_⟩
    · have h1 := hnot z '\n' (by decide) (by decide)
      have h2 := hnot off '\n' (by decide) (by decide)
      simp [h1, h2]
    · intro c hc
      have : c = '(' := by simpa using hc.symm
      rw [this]; decide
    · intro c hc
      rw [List.getLast?_append] at hc
      have : c = ')' := by simpa using hc.symm
      rw [this]; decide
  have hlines := VcsLemmas.lines_joined (ps := [author, message, c!"(" ++ number z ++ c!", " ++ number off ++ c!")"])
    (by intro p hp; simp only [List.mem_cons, List.not_mem_nil, or_false] at hp; rcases hp with rfl | rfl | rfl <;> assumption)
    (by simp) hpost
  have htime : hgTimestamp (c!"(" ++ number z ++ c!", " ++ number off ++ c!")") = .ok (some z) := by
    refine ((C161_time _).2 z).2 ⟨[], number z, c!" " ++ number off ++ c!")", ?_, by simp, by simp,
      hnot z ',' (by decide) (by decide), ?_⟩
    · rw [trim_of_trimmed ⟨hdate.first, hdate.last⟩]
      simp
    · rw [trim_of_noWs]
      · exact FilterLemmas.parseI64_intText hz.1 hz.2
      · intro c hc
        rcases hnum z c hc with h | h
        · rw [h]; decide
        · exact (digit_not_alpha h).2.2.2.2
  unfold hgMetadata shown
  simp only [Option.map_some]
  rw [hlines]
  dsimp only [List.getElem?_cons_succ, List.getElem?_cons_zero]
  rw [htime]

/-- C161 is about something. -/
example : hgMetadata (some c!"cafe") (some c!"default\n") (some c!"Sam\nFix it\n(1706745600, 0)") (some c!"https://h/r") =
    .ok { url := some c!"https://h/r", branch := some c!"default", commit := c!"cafe", message := some c!"Fix it",
          author := some c!"Sam", time := some 1706745600 } :=
  C161_hg_partial c!"cafe" c!"default\n" c!"Sam" c!"Fix it" c!"https://h/r" [] 1706745600 0
    (VcsExamples.line_of (by decide)) (VcsExamples.line_of (by decide)) (by decide) (by simp)

/-- Of a message of several lines the second is taken for the date; if there is a comma and then a parenthesis in it, the
program panics. -/
theorem C161_lines_false :
    hgMetadata (some c!"cafe") (some c!"default") (some c!"Sam\nFix it\nMore\n(1706745600, 0)") none =
      .ok { branch := some c!"default", commit := c!"cafe", message := some c!"Fix it", author := some c!"Sam", time := none } ∧
    hgMetadata (some c!"cafe") (some c!"default") (some c!"Sam\nFix it\nNow, at last (again)\n(1706745600, 0)") none = .panic := by
  decide +kernel

/-- Without an author the message is said to be the author, and the date the message. -/
theorem C161_author_false :
    hgMetadata (some c!"cafe") (some c!"default") (some c!"\nFix it\n(1706745600, 0)") none =
      .ok { branch := some c!"default", commit := c!"cafe", message := some c!"(1706745600, 0)", author := some c!"Fix it", time := none } := by
  decide +kernel

end Rez.Props
