import Verif.Spec.PyVersion
import Verif.Props.Version
import Verif.Props.Context
import Verif.Props.Rex
import Verif.Props.Config
import Verif.Props.BindVersion
import Verif.Lemmas.VersionNumeric
import Verif.Lemmas.Requirement
import Verif.Lemmas.RangeParse
/-!
# C231: versions and ranges as Python objects
-/
namespace Rez.Props
open Rez Rez.Spec Rez.PyVersion Rez.PyVersion.Spec RexLemmas ContextLemmas BindLemmas

/-! ## Pieces -/

theorem pieces_split {s : Str} {parts : List Str} (h : Pieces s parts) : splitChar '.' s = parts := by
  obtain ⟨h1, h2, rfl⟩ := h
  exact splitChar_join h1 h2

/-- C231: `major`, `minor` and `patch` are the pieces between points. -/
theorem C231_parts (v : Version) (parts : List Str) (h : Pieces v.asStr parts) :
    part 0 v = parts[0]? ∧ part 1 v = parts[1]? ∧ part 2 v = parts[2]? := by
  unfold part
  rw [pieces_split h]
  exact ⟨rfl, rfl, rfl⟩

theorem tok_no_point {t : Str} (h : TokenWf t) : '.' ∉ t := by
  intro hm
  rcases h.chars _ hm with h | h | h <;> revert h <;> decide

theorem splitChar_front {d : Char} {s : Str} (h : d ∉ s) (r p : Str) (ps : List Str) (hr : splitChar d r = p :: ps) :
    splitChar d (s ++ r) = (s ++ p) :: ps := by
  induction s with
  | nil => exact hr
  | cons c cs ih =>
    have hc : ¬ (c == d) = true := by
      intro hc
      exact h (by simp [beq_iff_eq.mp hc])
    rw [List.cons_append, splitChar, if_neg hc, ih fun hm => h (List.mem_cons_of_mem _ hm)]
    rfl

/-- The pieces up to some point are tokens with the separators between them. -/
theorem pieces_take : ∀ (ts seps : List Str), seps.length + 1 = ts.length → (∀ t ∈ ts, '.' ∉ t) →
    (∀ p ∈ seps, p = c!"." ∨ p = c!"-" ∨ p = c!"+") → ∀ k, k ≠ 0 →
    ∃ m, m ≠ 0 ∧ m ≤ ts.length ∧
      joinWith c!"." ((splitChar '.' (interleave ts seps)).take k) = interleave (ts.take m) (seps.take (m - 1)) := by
  intro ts
  induction ts with
  | nil => intro seps h; simp at h
  | cons t ts ih =>
    intro seps hl ht hs k hk
    obtain ⟨k, rfl⟩ := Nat.exists_eq_succ_of_ne_zero hk
    cases ts with
    | nil =>
      refine ⟨1, by omega, by simp, ?_⟩
      rw [show interleave [t] seps = t by simp [interleave], splitChar_noSep (ht t (by simp))]
      simp [joinWith, interleave]
    | cons t2 ts =>
      cases seps with
      | nil => simp at hl
      | cons s ss =>
        have ih' := ih ss (by simpa using hl) (fun x hx => ht x (List.mem_cons_of_mem _ hx)) fun p hp => hs p (List.mem_cons_of_mem _ hp)
        rw [show interleave (t :: t2 :: ts) (s :: ss) = t ++ s ++ interleave (t2 :: ts) ss from rfl]
        generalize hrest : interleave (t2 :: ts) ss = rest at ih'
        have hcons : ∀ m, m ≠ 0 → interleave ((t :: t2 :: ts).take (m + 1)) ((s :: ss).take (m + 1 - 1)) =
            t ++ s ++ interleave ((t2 :: ts).take m) (ss.take (m - 1)) := by
          intro m hm
          obtain ⟨m, rfl⟩ := Nat.exists_eq_succ_of_ne_zero hm
          rfl
        have dash : ∀ c : Char, c ≠ '.' → s = [c] → ∃ m, m ≠ 0 ∧ m ≤ (t :: t2 :: ts).length ∧
            joinWith c!"." ((splitChar '.' (t ++ s ++ rest)).take (k + 1)) =
              interleave ((t :: t2 :: ts).take m) ((s :: ss).take (m - 1)) := by
          rintro c hc rfl
          obtain ⟨m, h1, h2, h3⟩ := ih' (k + 1) (by omega)
          refine ⟨m + 1, by omega, by simpa using h2, ?_⟩
          rw [hcons m h1, ← h3]
          cases hsp : splitChar '.' rest with
          | nil => exact absurd hsp (splitChar_ne_nil _ _)
          | cons p ps =>
            have hfree : '.' ∉ t ++ [c] := by
              intro hm
              rcases List.mem_append.mp hm with hm | hm
              · exact ht t (by simp) hm
              · exact hc (List.mem_singleton.mp hm).symm
            rw [splitChar_front hfree _ _ _ hsp]
            cases k with
            | zero => simp [joinWith]
            | succ k =>
              cases ps with
              | nil => simp [joinWith]
              | cons q qs => simp [joinWith]
        rcases hs s (by simp) with rfl | rfl | rfl
        · rw [show t ++ c!"." ++ rest = t ++ '.' :: rest by simp, splitChar_append (ht t (by simp))]
          cases k with
          | zero => exact ⟨1, by omega, by simp, by simp [joinWith, interleave]⟩
          | succ k =>
            obtain ⟨m, h1, h2, h3⟩ := ih' (k + 1) (by omega)
            refine ⟨m + 1, by omega, by simpa using h2, ?_⟩
            rw [hcons m h1, ← h3]
            cases hsp : splitChar '.' rest with
            | nil => exact absurd hsp (splitChar_ne_nil _ _)
            | cons p ps => simp [joinWith]
        · exact dash '-' (by decide) rfl
        · exact dash '+' (by decide) rfl

theorem spells_take {s : Str} {ts seps : List Str} (h : Spells s ts seps) {m : Nat} (h0 : m ≠ 0) (hm : m ≤ ts.length) :
    Spells (interleave (ts.take m) (seps.take (m - 1))) (ts.take m) (seps.take (m - 1)) := by
  refine ⟨rfl, ?_, ?_, ?_, ?_, ?_, ?_⟩
  · have := h.oneSepBetween
    simp only [List.length_take]
    omega
  · have := h.atMostTen
    simp only [List.length_take]
    omega
  · exact Nat.le_trans (List.Sublist.length_le ((List.take_sublist m ts).filter _)) h.atMostFiveNumeric
  · exact fun p hp => h.separators p (List.mem_of_mem_take hp)
  · exact fun t ht => h.tokens t (List.mem_of_mem_take ht)
  · have hv := h.noVPrefix
    rw [h.spelling] at hv
    cases ts with
    | nil => simp at hm; exact absurd hm h0
    | cons t ts =>
      obtain ⟨m, rfl⟩ := Nat.exists_eq_succ_of_ne_zero h0
      have hne := (h.tokens t (by simp)).nonempty
      rw [interleave_head_eq hne] at hv
      rw [List.take_succ_cons, interleave_head_eq hne]
      exact hv

theorem cmpTokens_take (ts : List Str) (m : Nat) : cmpTokens ts (ts.take m) ≠ .gt := by
  have : ∀ (a b : List Str), cmpTokens (a ++ b) a ≠ .gt := by
    intro a b
    induction a with
    | nil =>
      cases b with
      | nil => simp [cmpTokens]
      | cons x l =>
        show cmpTokens (x :: l) [] ≠ .gt
        rw [cmpTokens]
        split <;> simp
    | cons x l ih =>
      show cmpTokens (x :: (l ++ b)) (x :: l) ≠ .gt
      rw [cmpTokens, cmpToken_refl]
      simpa using ih
  have h := this (ts.take m) (ts.drop m)
  rw [List.take_append_drop] at h
  exact h

theorem ordinary {s : Str} {v : Version} (hr : v.repr = trim s)
    (h1 : trim s ≠ []) (h2 : trim s ≠ c!"inf") : v.isInf = false ∧ v.isEmpty = false := by
  simp [Version.isInf, Version.isEmpty, hr, h1, h2]

/-- C231: `trim`.  It keeps the pieces there are up to a number; the result is a prefix of the version and is never smaller than
it; and to trim again keeps as many as the smaller number says. -/
theorem C231_trim (s : Str) (v : Version) (h : Version.parse s = some v) (parts : List Str) (hp : Pieces v.asStr parts) :
    trimTo v 0 = some .empty ∧ (∀ k, parts.length ≤ k → trimTo v k = some v) ∧
    ∀ k, k ≠ 0 → parts.head? ≠ some c!"inf" → parts.head? ≠ some c!"epsilon" →
      ∃ w, trimTo v k = some w ∧ w.asStr = joinWith c!"." (parts.take k) ∧ v.hasPrefix w = true ∧ v.cmp w ≠ .gt ∧
        ∀ j, trimTo w j = trimTo v (min k j) := by
  have hsp := pieces_split hp
  refine ⟨rfl, fun k hk => ?_, fun k hk hi he => ?_⟩
  · unfold trimTo
    rw [hsp, List.take_of_length_le hk, ← hp.2.2]
    exact C04_round_trip s v h
  · have htext : ∃ w, trimTo v k = some w ∧ w.asStr = joinWith c!"." (parts.take k) ∧ v.hasPrefix w = true ∧ v.cmp w ≠ .gt := by
      rcases Version.parse_cases h with ⟨rfl, -⟩ | ⟨rfl, -⟩ | ⟨hs, hr, h1, h2, h3⟩
      · have : parts = [[]] := by rw [← hsp]; rfl
        subst this
        obtain ⟨k, rfl⟩ := Nat.exists_eq_succ_of_ne_zero hk
        refine ⟨.empty, ?_, ?_, by decide, by decide⟩
        · unfold trimTo
          rw [hsp]
          simp [joinWith]
          rfl
        · simp [joinWith, Version.asStr, Version.empty]
      · have : parts = [c!"inf"] := by rw [← hsp]; rfl
        subst this
        exact absurd rfl hi
      · have hv : v.asStr = interleave v.tokens v.separators := by rw [Version.asStr, hr, hs.spelling]
        obtain ⟨m, m1, m2, m3⟩ := pieces_take v.tokens v.separators hs.oneSepBetween (fun t ht => tok_no_point (hs.tokens t ht))
          hs.separators k hk
        rw [← hv, hsp] at m3
        have hst := spells_take hs m1 m2
        rw [← m3] at hst
        have htr : trim (joinWith c!"." (parts.take k)) = joinWith c!"." (parts.take k) := trim_of_trimmed (spells_trimmed hst)
        have hne : parts.take k ≠ [] := by
          intro hn
          rcases List.take_eq_nil_iff.mp hn with h | h
          · exact hk h
          · exact hp.1 h
        have hback : splitChar '.' (joinWith c!"." (parts.take k)) = parts.take k :=
          splitChar_join hne fun p hpm => hp.2.1 p (List.mem_of_mem_take hpm)
        have hspecial : ∀ x : Str, '.' ∉ x → parts.head? ≠ some x → joinWith c!"." (parts.take k) ≠ x := by
          intro x hx hh hc
          rw [hc, splitChar_noSep hx] at hback
          apply hh
          obtain ⟨p, ps, rfl⟩ := List.exists_cons_of_ne_nil hp.1
          obtain ⟨k, rfl⟩ := Nat.exists_eq_succ_of_ne_zero hk
          simp at hback
          simp [hback.1]
        have hpar := Version.parse_of_spells (s := joinWith c!"." (parts.take k)) (by rw [htr]; exact hst)
          (by rw [htr]; exact hspecial _ (by decide) hi) (by rw [htr]; exact hspecial _ (by decide) he)
        refine ⟨_, by unfold trimTo; rw [hsp]; exact hpar, ?_, ?_, ?_⟩
        · rw [Version.asStr, htr]
        · rw [hasPrefix_iff]
          refine ⟨by simp, fun i h1 h2 => ?_⟩
          simp only [List.getElem_take]
          exact cmpToken_refl _
        · obtain ⟨e1, e2⟩ := ordinary hr h1 h2
          obtain ⟨e3, e4⟩ := ordinary (s := joinWith c!"." (parts.take k)) (v := ⟨v.tokens.take m, v.separators.take (m - 1), trim (joinWith c!"." (parts.take k))⟩) rfl (by
            rw [htr]
            intro hc
            rw [hc] at hst
            have := hst.spelling
            cases hts : v.tokens.take m with
            | nil => have := hst.oneSepBetween; rw [hts] at this; simp at this
            | cons t l =>
              rw [hts] at this hst
              have h5 := interleave_head_eq (ts := l) (seps := v.separators.take (m - 1)) (hst.tokens t (by simp)).nonempty
              rw [← this] at h5
              exact (hst.tokens t (by simp)).nonempty (List.head?_eq_none_iff.mp h5.symm))
            (by rw [htr]; exact hspecial _ (by decide) hi)
          unfold Version.cmp
          rw [e1, e2, e3, e4]
          exact cmpTokens_take _ _
    obtain ⟨w, w1, w2, w3, w4⟩ := htext
    refine ⟨w, w1, w2, w3, w4, fun j => ?_⟩
    unfold trimTo
    have hne : parts.take k ≠ [] := by
      intro hn
      rcases List.take_eq_nil_iff.mp hn with h | h
      · exact hk h
      · exact hp.1 h
    rw [w2, splitChar_join hne fun p hpm => hp.2.1 p (List.mem_of_mem_take hpm), hsp, List.take_take, Nat.min_comm]

/-! ## The next version -/

theorem joinPoint_snoc (l : List Str) (x : Str) (h : l ≠ []) : joinWith c!"." (l ++ [x]) = joinWith c!"." l ++ '.' :: x := by
  induction l with
  | nil => exact absurd rfl h
  | cons a l ih =>
    cases l with
    | nil => simp [joinWith]
    | cons b l =>
      show a ++ c!"." ++ joinWith c!"." ((b :: l) ++ [x]) = a ++ c!"." ++ joinWith c!"." (b :: l) ++ '.' :: x
      rw [ih (by simp)]
      simp

/-- A text that ends with a token, after nothing or something that is no part of a token, ends so in one way only. -/
theorem tail_unique {p q t d : Str} (h : p ++ t = q ++ d) (ht : ∀ c ∈ t, isTok c = true) (hd : ∀ c ∈ d, isTok c = true)
    (hp : p = [] ∨ ∃ c, p.getLast? = some c ∧ isTok c = false) (hq : q = [] ∨ ∃ c, q.getLast? = some c ∧ isTok c = false) :
    p = q ∧ t = d := by
  have key : ∀ {p t : Str}, (∀ c ∈ t, isTok c = true) → (p = [] ∨ ∃ c, p.getLast? = some c ∧ isTok c = false) →
      (p ++ t).reverse.takeWhile isTok = t.reverse := by
    intro p t ht hp
    rw [List.reverse_append, List.takeWhile_append_of_pos (by simpa using ht)]
    rcases hp with rfl | ⟨c, hc, hn⟩
    · simp
    · obtain ⟨l, rfl⟩ : ∃ l, p = l ++ [c] := by
        obtain ⟨l, hl⟩ := List.getLast?_eq_some_iff.mp hc
        exact ⟨l, hl⟩
      simp [hn]
  have e : t.reverse = d.reverse := by rw [← key ht hp, ← key hd hq, h]
  have e := List.reverse_injective e
  subst e
  exact ⟨List.append_cancel_right h, rfl⟩

theorem interleave_snoc : ∀ (init seps : List Str), seps.length = init.length → (∀ p ∈ seps, p = c!"." ∨ p = c!"-" ∨ p = c!"+") →
    ∃ P : Str, (∀ t, interleave (init ++ [t]) seps = P ++ t) ∧ (P = [] ∧ init = [] ∨ (init ≠ [] ∧ ∃ c, P.getLast? = some c ∧ isTok c = false)) := by
  intro init
  induction init with
  | nil => exact fun seps _ _ => ⟨[], fun t => by simp [interleave], .inl ⟨rfl, rfl⟩⟩
  | cons x l ih =>
    intro seps hl hs
    cases seps with
    | nil => simp at hl
    | cons s ss =>
      obtain ⟨P, h1, h2⟩ := ih ss (by simpa using hl) fun p hp => hs p (List.mem_cons_of_mem _ hp)
      refine ⟨x ++ s ++ P, fun t => ?_, .inr ⟨by simp, ?_⟩⟩
      · rw [List.append_assoc (x ++ s), ← h1 t]
        cases l with
        | nil => rfl
        | cons y l => rfl
      · rcases h2 with ⟨rfl, -⟩ | ⟨-, c, hc, hn⟩
        · rcases hs s (by simp) with rfl | rfl | rfl
          · exact ⟨'.', by simp, by decide⟩
          · exact ⟨'-', by simp, by decide⟩
          · exact ⟨'+', by simp, by decide⟩
        · refine ⟨c, ?_, hn⟩
          rw [List.getLast?_append, hc]
          rfl

theorem digits_token {d : Str} (hne : d ≠ []) (hd : ∀ c ∈ d, isDigit c = true) : TokenWf d := by
  refine ⟨hne, fun c hc => .inr (.inl (hd c hc)), ?_, ?_, ?_, ?_, ?_⟩
  · intro h
    have := hd _ (List.mem_of_mem_head? h)
    revert this
    decide
  · intro h
    have := hd _ (List.mem_of_getLast? h)
    revert this
    decide
  · intro h
    obtain ⟨c, l, rfl⟩ := List.exists_cons_of_ne_nil hne
    have := alpha_not_digit (.inl (h c (by simp)))
    rw [hd c (by simp)] at this
    cases this
  · rintro rfl
    have := hd 'n' (by simp)
    revert this
    decide
  · rintro rfl
    have := hd 'v' (by simp)
    revert this
    decide

theorem isTok_of_digit {c : Char} (h : isDigit c = true) : isTok c = true := (isTok_iff c).mpr (.inr (.inl h))

theorem cmpToken_digits {a b : Str} (ha : a ≠ []) (hb : b ≠ []) (hda : ∀ c ∈ a, isDigit c = true) (hdb : ∀ c ∈ b, isDigit c = true)
    (hla : digitsVal a < 2 ^ 64) (hlb : digitsVal b < 2 ^ 64) : cmpToken a b = compare (digitsVal a) (digitsVal b) := by
  have good : ∀ {d : Str}, d ≠ [] → (∀ c ∈ d, isDigit c = true) → digitsVal d < 2 ^ 64 → GoodTok d := fun h1 h2 h3 =>
    ⟨h1, List.all_eq_true.mpr fun c hc => isTok_of_digit (h2 c hc), fun x hx hxd =>
      Nat.lt_of_le_of_lt (infix_digits_le hx (List.all_eq_true.mpr h2)) h3⟩
  have key : ∀ {d : Str}, d ≠ [] → (∀ c ∈ d, isDigit c = true) → tokKey d = [.num (digitsVal d)] := by
    intro d h1 h2
    have hall : d.all isDigit = true := List.all_eq_true.mpr h2
    unfold tokKey
    rw [splitSegments_homog h1 (.inl hall)]
    simp [toComp, hall]
  rw [cmpToken_key (good ha hda hla) (good hb hdb hlb), key ha hda, key hb hdb]
  simp [cmpKey, List.compareLex_cons_cons, List.compareLex_nil_nil, cmpComp]

theorem cmpTokens_common (l : List Str) (a b : List Str) : cmpTokens (l ++ a) (l ++ b) = cmpTokens a b := by
  induction l with
  | nil => rfl
  | cons x l ih =>
    show cmpTokens (x :: (l ++ a)) (x :: (l ++ b)) = _
    rw [cmpTokens, cmpToken_refl, ih]
    rfl

theorem snoc_spells {s : Str} {ts seps : List Str} (h : Spells s ts seps) : ∃ init t, ts = init ++ [t] ∧ seps.length = init.length := by
  have hl := h.oneSepBetween
  have hne : ts ≠ [] := by
    rintro rfl
    simp at hl
  refine ⟨ts.dropLast, ts.getLast hne, (List.dropLast_append_getLast hne).symm, ?_⟩
  rw [List.length_dropLast]
  omega

/-- C231: `next` when the version ends with a number that is a piece of its own: the number is increased, all else stays, and
the result is greater. -/
theorem C231_next (s : Str) (v : Version) (h : Version.parse s = some v) (pre digits : Str) (he : EndsWith v.asStr pre digits)
    (hn : digitsVal digits < 2 ^ 64 - 1) :
    ∃ w, next v = some w ∧ w.asStr = pre ++ decimal (digitsVal digits + 1) ∧ v.cmp w = .lt := by
  obtain ⟨h1, h2, h3, h4⟩ := he
  have hdot : '.' ∉ digits := by
    intro hm
    have := h4 _ hm
    revert this
    decide
  have hu : parseU64 digits = some (digitsVal digits) := parseU64_digits h3 (List.all_eq_true.mpr h4) (by omega)
  have hmod : (digitsVal digits + 1) % 2 ^ 64 = digitsVal digits + 1 := Nat.mod_eq_of_lt (by omega)
  have htext : joinWith c!"." (nextParts (splitChar '.' v.asStr)) = pre ++ decimal (digitsVal digits + 1) := by
    rw [h1]
    rcases h2 with rfl | hp
    · rw [List.nil_append, splitChar_noSep hdot]
      simp [nextParts, hu, hmod, joinWith]
    · obtain ⟨l, rfl⟩ := List.getLast?_eq_some_iff.mp hp
      have hsp : splitChar '.' (l ++ ['.'] ++ digits) = splitChar '.' l ++ [digits] := by
        rw [show l ++ ['.'] ++ digits = l ++ '.' :: digits by simp, splitChar_two, splitChar_noSep hdot]
      rw [hsp]
      unfold nextParts
      rw [List.getLastD_concat, hu]
      simp only
      rw [List.dropLast_concat, joinPoint_snoc _ _ (splitChar_ne_nil _ _), hmod, join_split]
      simp
  rcases Version.parse_cases h with ⟨rfl, -⟩ | ⟨rfl, -⟩ | ⟨hs, hr, e1, e2, e3⟩
  · have : pre ++ digits = [] := h1.symm
    exact absurd (List.append_eq_nil_iff.mp this).2 h3
  · have hx : c!"inf" = pre ++ digits := h1
    have hl := congrArg List.getLast? hx
    rw [List.getLast?_append] at hl
    obtain ⟨c, hc⟩ : ∃ c, digits.getLast? = some c := by
      cases hd : digits.getLast? with
      | none => exact absurd (List.getLast?_eq_none_iff.mp hd) h3
      | some c => exact ⟨c, rfl⟩
    rw [hc] at hl
    have := h4 c (List.mem_of_getLast? hc)
    simp at hl
    rw [← hl] at this
    exact absurd this (by decide)
  · obtain ⟨init, t, hts, hlen⟩ := snoc_spells hs
    obtain ⟨P, hP, hPc⟩ := interleave_snoc init v.separators hlen hs.separators
    have htok : ∀ x ∈ v.tokens, ∀ c ∈ x, isTok c = true := fun x hx c hc => (isTok_iff c).mpr ((hs.tokens x hx).chars c hc)
    have hsplit := hs.spelling
    rw [hts, hP t, ← hr] at hsplit
    obtain ⟨rfl, rfl⟩ := tail_unique (hsplit.symm.trans h1) (htok t (by simp [hts])) (fun c hc => isTok_of_digit (h4 c hc))
      (hPc.imp And.left And.right) (h2.imp id fun hp => ⟨'.', hp, by decide⟩)
    let d' := decimal (digitsVal t + 1)
    have hd'1 : d' ≠ [] := decimal_ne _
    have hd'2 : ∀ c ∈ d', isDigit c = true := List.all_eq_true.mp (decimal_digits _)
    have hd'3 : digitsVal d' = digitsVal t + 1 := decimal_val _
    have hnew : Spells (P ++ d') (init ++ [d']) v.separators := by
      refine ⟨(hP d').symm, by simp [hlen], ?_, ?_, hs.separators, ?_, ?_⟩
      · have := hs.atMostTen
        rw [hts] at this
        simpa using this
      · have := hs.atMostFiveNumeric
        rw [hts, List.filter_append] at this
        rw [List.filter_append]
        have f1 : t.all isDigit = true := List.all_eq_true.mpr h4
        have f2 : d'.all isDigit = true := decimal_digits _
        simpa [f1, f2] using this
      · intro x hx
        rcases List.mem_append.mp hx with hx | hx
        · exact hs.tokens x (by rw [hts]; exact List.mem_append_left _ hx)
        · rw [List.mem_singleton.mp hx]
          exact digits_token hd'1 hd'2
      · have hv := hs.noVPrefix
        rw [← hr, hsplit] at hv
        cases P with
        | nil =>
          obtain ⟨c, l, hc⟩ := List.exists_cons_of_ne_nil hd'1
          have := hd'2 c (by rw [hc]; simp)
          rw [List.nil_append, hc]
          constructor <;> (intro hh; simp at hh; rw [hh] at this; revert this; decide)
        | cons c l => simpa using hv
    have htr := trim_of_trimmed (spells_trimmed hnew)
    have hlast : ∀ x : Str, (∀ c, x.getLast? = some c → isDigit c = false) → P ++ d' ≠ x := by
      rintro x hx rfl
      obtain ⟨c, hc⟩ : ∃ c, d'.getLast? = some c := by
        cases hd : d'.getLast? with
        | none => exact absurd (List.getLast?_eq_none_iff.mp hd) hd'1
        | some c => exact ⟨c, rfl⟩
      have := hx c (by rw [List.getLast?_append, hc]; rfl)
      rw [hd'2 c (List.mem_of_getLast? hc)] at this
      cases this
    have hi : P ++ d' ≠ c!"inf" := hlast _ (by intro c hc; simp at hc; subst hc; decide)
    have hep : P ++ d' ≠ c!"epsilon" := hlast _ (by intro c hc; simp at hc; subst hc; decide)
    have hpar := Version.parse_of_spells (s := P ++ d') (by rw [htr]; exact hnew) (by rw [htr]; exact hi) (by rw [htr]; exact hep)
    refine ⟨_, by unfold next; rw [htext]; exact hpar, by rw [Version.asStr, htr], ?_⟩
    obtain ⟨g1, g2⟩ := ordinary hr e1 e2
    obtain ⟨g3, g4⟩ := ordinary (s := P ++ d') (v := ⟨init ++ [d'], v.separators, trim (P ++ d')⟩) rfl
      (by rw [htr]; intro hc; exact hd'1 (List.append_eq_nil_iff.mp hc).2) (by rw [htr]; exact hi)
    unfold Version.cmp
    rw [g1, g2, g3, g4]
    simp only
    rw [hts, cmpTokens_common]
    show (cmpToken t d').then (cmpTokens [] []) = .lt
    rw [cmpToken_digits h3 hd'1 h4 hd'2 (by omega) (by omega), hd'3, Nat.compare_eq_lt.mpr (by omega)]
    rfl

theorem snoc_last {l : List Str} (h : l ≠ []) : l.dropLast ++ [l.getLastD []] = l := by
  have h1 : l.getLastD [] = l.getLast h := by
    rw [List.getLastD_eq_getLast?, List.getLast?_eq_some_getLast h]
    rfl
  rw [h1]
  exact List.dropLast_append_getLast h

theorem interleave_sep : ∀ (init seps : List Str), seps.length = init.length → (∀ x ∈ init, x ≠ [] ∧ ∀ c ∈ x, isTok c = true) → ∀ t,
    ∃ Q s, interleave (init ++ [t]) seps = Q ++ s ++ t ∧
      ((Q = [] ∧ s = []) ∨ (s ∈ seps ∧ ∃ c, Q.getLast? = some c ∧ isTok c = true)) := by
  intro init
  induction init with
  | nil => exact fun seps _ _ t => ⟨[], [], by simp [interleave], .inl ⟨rfl, rfl⟩⟩
  | cons x l ih =>
    intro seps hl hx t
    cases seps with
    | nil => simp at hl
    | cons s ss =>
      obtain ⟨Q, s', h1, h2⟩ := ih ss (by simpa using hl) (fun y hy => hx y (List.mem_cons_of_mem _ hy)) t
      have hcons : interleave (x :: l ++ [t]) (s :: ss) = x ++ s ++ interleave (l ++ [t]) ss := by
        cases l with
        | nil => rfl
        | cons y l => rfl
      rcases h2 with ⟨rfl, rfl⟩ | ⟨h3, c, hc, hn⟩
      · refine ⟨x, s, by rw [hcons, h1]; simp, .inr ⟨by simp, ?_⟩⟩
        obtain ⟨h4, h5⟩ := hx x (by simp)
        cases hg : x.getLast? with
        | none => exact absurd (List.getLast?_eq_none_iff.mp hg) h4
        | some c => exact ⟨c, rfl, h5 c (List.mem_of_getLast? hg)⟩
      · refine ⟨x ++ s ++ Q, s', by rw [hcons, h1]; simp, .inr ⟨List.mem_cons_of_mem _ h3, c, ?_, hn⟩⟩
        rw [List.getLast?_append, hc]
        rfl

/-- C231: `next` when the version does not end with such a number: `.1` is put at its end, if there is room for one more token,
and the result is smaller than the version. -/
theorem C231_next_word (s : Str) (v : Version) (h : Version.parse s = some v) (hne : v.tokens ≠ [])
    (hlast : ∀ pre digits, EndsWith v.asStr pre digits → 2 ^ 64 ≤ digitsVal digits) (h10 : v.tokens.length < 10)
    (h5 : (v.tokens.filter fun t => t.all isDigit).length < 5) :
    ∃ w, next v = some w ∧ w.asStr = v.asStr ++ c!".1" ∧ w.cmp v = .lt := by
  rcases Version.parse_cases h with ⟨rfl, -⟩ | ⟨rfl, -⟩ | ⟨hs, hr, e1, e2, e3⟩
  · exact absurd rfl hne
  · exact absurd rfl hne
  · obtain ⟨init, t, hts, hlen⟩ := snoc_spells hs
    have htok : ∀ x ∈ v.tokens, ∀ c ∈ x, isTok c = true := fun x hx c hc => (isTok_iff c).mpr ((hs.tokens x hx).chars c hc)
    have hv : v.asStr = interleave (init ++ [t]) v.separators := by rw [← hts, Version.asStr, hr, ← hs.spelling]
    obtain ⟨Q, sp, hQ, hQs⟩ := interleave_sep init v.separators hlen (fun x hx =>
      ⟨(hs.tokens x (by simp [hts, hx])).nonempty, htok x (by simp [hts, hx])⟩) t
    have hnum : parseU64 ((splitChar '.' v.asStr).getLastD []) = none := by
      cases hp : parseU64 ((splitChar '.' v.asStr).getLastD []) with
      | none => rfl
      | some n =>
        exfalso
        have hsplit := snoc_last (splitChar_ne_nil '.' v.asStr)
        generalize hl : (splitChar '.' v.asStr).getLastD [] = p at hp hsplit
        obtain ⟨pre, hpre, hpd⟩ : ∃ pre, v.asStr = pre ++ p ∧ (pre = [] ∨ pre.getLast? = some '.') := by
          have hj := join_split '.' v.asStr
          rw [← hsplit] at hj
          cases hd : (splitChar '.' v.asStr).dropLast with
          | nil =>
            rw [hd] at hj
            exact ⟨[], by rw [← hj]; simp [joinWith], .inl rfl⟩
          | cons a l =>
            rw [hd, joinPoint_snoc _ _ (by simp)] at hj
            exact ⟨joinWith c!"." (a :: l) ++ ['.'], by rw [← hj]; simp, .inr (by simp)⟩
        unfold parseU64 at hp
        simp only at hp
        split at hp
        · rename_i hc
          simp only [Bool.and_eq_true, decide_eq_true_eq, Bool.not_eq_true', List.isEmpty_eq_false_iff] at hc
          obtain ⟨⟨c1, c2⟩, c3⟩ := hc
          have c2' := List.all_eq_true.mp c2
          by_cases hplus : p.head? = some '+'
          · obtain ⟨d, rfl⟩ : ∃ d, p = '+' :: d := by
              cases p with
              | nil => simp at hplus
              | cons c d => simp at hplus; exact ⟨d, by rw [hplus]⟩
            rw [stripPlus] at c1 c2' c3
            have heq : (Q ++ sp) ++ t = (pre ++ ['+']) ++ d := by rw [← hQ, ← hv, hpre]; simp
            have hQs' : Q ++ sp = [] ∨ ∃ c, (Q ++ sp).getLast? = some c ∧ isTok c = false := by
              rcases hQs with ⟨rfl, rfl⟩ | ⟨h3, -⟩
              · exact .inl rfl
              · right
                rcases hs.separators sp h3 with rfl | rfl | rfl
                · exact ⟨'.', by simp, by decide⟩
                · exact ⟨'-', by simp, by decide⟩
                · exact ⟨'+', by simp, by decide⟩
            obtain ⟨k1, k2⟩ := tail_unique heq (htok t (by simp [hts])) (fun c hc => isTok_of_digit (c2' c hc)) hQs'
              (.inr ⟨'+', by simp, by decide⟩)
            rcases hQs with ⟨rfl, rfl⟩ | ⟨h3, c, hc, hn⟩
            · simp at k1
            · have hQpre : Q = pre := by
                rcases hs.separators sp h3 with rfl | rfl | rfl
                · exact (List.append_inj' k1 rfl).1
                · exact (List.append_inj' k1 rfl).1
                · exact (List.append_inj' k1 rfl).1
              subst hQpre
              rcases hpd with rfl | hpd
              · simp at hc
              · rw [hc] at hpd
                cases hpd
                revert hn
                decide
          · have hst : stripPlus p = p := by
              cases p with
              | nil => rfl
              | cons c d =>
                unfold stripPlus
                split
                · rename_i heq
                  cases heq
                  simp at hplus
                · rfl
            rw [hst] at c1 c2' c3
            have := hlast pre p ⟨hpre, hpd, c1, c2'⟩
            omega
        · cases hp
    have htext : joinWith c!"." (nextParts (splitChar '.' v.asStr)) = v.asStr ++ c!".1" := by
      unfold nextParts
      rw [hnum]
      simp only
      rw [joinPoint_snoc _ _ (splitChar_ne_nil _ _), join_split]
    have happ : ∀ (ts seps : List Str), seps.length + 1 = ts.length → interleave (ts ++ [c!"1"]) (seps ++ [c!"."]) = interleave ts seps ++ c!".1" := by
      intro ts
      induction ts with
      | nil => intro seps hl; simp at hl
      | cons x l ih =>
        intro seps hl
        cases l with
        | nil =>
          have : seps = [] := by simpa using hl
          subst this
          simp [interleave]
        | cons y l =>
          cases seps with
          | nil => simp at hl
          | cons s ss =>
            show x ++ s ++ interleave ((y :: l) ++ [c!"1"]) (ss ++ [c!"."]) = x ++ s ++ interleave (y :: l) ss ++ c!".1"
            rw [ih ss (by simpa using hl)]
            simp
    have hnew : Spells (v.asStr ++ c!".1") (v.tokens ++ [c!"1"]) (v.separators ++ [c!"."]) := by
      refine ⟨?_, by simp [hs.oneSepBetween], by simp; omega, ?_, ?_, ?_, ?_⟩
      · rw [happ _ _ hs.oneSepBetween, ← hs.spelling, Version.asStr, hr]
      · rw [List.filter_append]
        have : ([c!"1"].filter fun t => t.all isDigit).length = 1 := by decide
        rw [List.length_append, this]
        omega
      · intro p hp
        rcases List.mem_append.mp hp with hp | hp
        · exact hs.separators p hp
        · exact .inl (List.mem_singleton.mp hp)
      · intro x hx
        rcases List.mem_append.mp hx with hx | hx
        · exact hs.tokens x hx
        · rw [List.mem_singleton.mp hx]
          exact digits_token (by decide) (by decide)
      · have hv := hs.noVPrefix
        rw [← hr] at hv
        rw [Version.asStr]
        cases hx : v.repr with
        | nil => rw [hr] at hx; exact absurd hx e1
        | cons c l => rw [hx] at hv; simpa using hv
    have htr := trim_of_trimmed (spells_trimmed hnew)
    have hlast1 : ∀ x : Str, x.getLast? ≠ some '1' → v.asStr ++ c!".1" ≠ x := by
      rintro x hx rfl
      simp at hx
    have hpar := Version.parse_of_spells (s := v.asStr ++ c!".1") (by rw [htr]; exact hnew) (by rw [htr]; exact hlast1 _ (by decide))
      (by rw [htr]; exact hlast1 _ (by decide))
    refine ⟨_, by unfold next; rw [htext]; exact hpar, by rw [Version.asStr, htr], ?_⟩
    obtain ⟨g1, g2⟩ := ordinary hr e1 e2
    obtain ⟨g3, g4⟩ := ordinary (s := v.asStr ++ c!".1") (v := ⟨v.tokens ++ [c!"1"], v.separators ++ [c!"."], trim (v.asStr ++ c!".1")⟩) rfl
      (by rw [htr]; simp) (by rw [htr]; exact hlast1 _ (by decide))
    unfold Version.cmp
    rw [g1, g2, g3, g4]
    simp only
    have := cmpTokens_common v.tokens [c!"1"] []
    rw [List.append_nil] at this
    rw [this]
    rfl

/-! ## Ranges -/

theorem trim_blank_front {a x : Str} (ha : ∀ c ∈ a, isWs c = true) : trim (a ++ x) = trim x := by
  unfold trim trimStart
  rw [List.dropWhile_append_of_pos ha]

theorem trim_blank_back {x b : Str} (hb : ∀ c ∈ b, isWs c = true) : trim (x ++ b) = trim x := by
  unfold trim trimStart
  rw [List.dropWhile_append]
  split
  · rename_i he
    rw [List.isEmpty_iff.mp he, List.dropWhile_eq_nil_iff.mpr hb]
  · unfold trimEnd
    rw [List.reverse_append, List.dropWhile_append_of_pos (by simpa using hb)]

theorem splitChar_back {d : Char} {b : Str} (hb : d ∉ b) : ∀ r : Str,
    splitChar d (r ++ b) = (splitChar d r).dropLast ++ [(splitChar d r).getLastD [] ++ b] := by
  intro r
  induction r with
  | nil => simp [splitChar, splitChar_noSep hb]
  | cons c cs ih =>
    rw [List.cons_append, splitChar, splitChar, ih]
    have hne := splitChar_ne_nil d cs
    split
    · cases h : splitChar d cs with
      | nil => exact absurd h hne
      | cons p ps => simp
    · cases h : splitChar d cs with
      | nil => exact absurd h hne
      | cons p ps => cases ps <;> simp

theorem alternatives_trim (s : Str) : parseAlternatives (trim s) = parseAlternatives s := by
  obtain ⟨a, b, hs, hw⟩ := trim_split s
  have ha : ∀ c ∈ a, isWs c = true := fun c hc => hw c (List.mem_append_left _ hc)
  have hb : ∀ c ∈ b, isWs c = true := fun c hc => hw c (List.mem_append_right _ hc)
  have hpipe : ∀ l : Str, (∀ c ∈ l, isWs c = true) → '|' ∉ l := by
    intro l hl hm
    have := hl _ hm
    revert this
    decide
  have hmap : (splitChar '|' s).map trim = (splitChar '|' (trim s)).map trim := by
    conv_lhs => rw [hs, splitChar_back (hpipe b hb)]
    have hX := snoc_last (splitChar_ne_nil '|' (a ++ trim s))
    rw [List.map_append, List.map_cons, List.map_nil, trim_blank_back hb, ← List.map_singleton, ← List.map_append, hX]
    cases hsp : splitChar '|' (trim s) with
    | nil => exact absurd hsp (splitChar_ne_nil _ _)
    | cons p ps =>
      rw [splitChar_front (hpipe a ha) _ _ _ hsp, List.map_cons, List.map_cons, trim_blank_front ha]
  have key : ∀ x, parseAlternatives x = ((splitChar '|' x).map trim).mapM parseConjunction := by
    intro x
    unfold parseAlternatives
    induction splitChar '|' x with
    | nil => rfl
    | cons p ps ih => rw [List.map_cons, List.mapM_cons, List.mapM_cons, ih]
  rw [key, key, hmap]

theorem rangeStr_trim {s : Str} (h1 : containsStr s c!".." = false) (h2 : trim s ≠ c!"empty") (h3 : trim s ≠ c!"!*") :
    parseRangeStr (trim s) = parseAlternatives s := by
  have hd : containsStr (trim s) c!".." = false := by
    obtain ⟨a, b, hs, -⟩ := trim_split s
    cases hc : containsStr (trim s) c!".." with
    | false => rfl
    | true =>
      have h4 := (containsStr_iff _ _).mp hc
      have h5 : c!".." <:+: s := by
        rw [hs]
        exact h4.trans ⟨a, b, rfl⟩
      rw [(containsStr_iff _ _).mpr h5] at h1
      cases h1
  rw [← alternatives_trim]
  unfold parseRangeStr
  split
  · rename_i he
    simp only [Bool.or_eq_true, List.isEmpty_iff, beq_iff_eq] at he
    rcases he with he | he <;> rw [he] <;> rfl
  · rw [if_neg (by simp [h2, h3]), splitOnce_none hd]

theorem mapM_two {α β : Type} (f : α → Option β) : ∀ (l m : List α) (x y : List β), l.mapM f = some x → m.mapM f = some y →
    (l ++ m).mapM f = some (x ++ y) := by
  intro l m x y hx hy
  rw [List.mapM_append, hx, hy]
  rfl

theorem mapM_nil {α β : Type} {f : α → Option β} {l : List α} (h : l.mapM f = some []) : l = [] := by
  cases l with
  | nil => rfl
  | cons a l =>
    rw [List.mapM_cons] at h
    cases ha : f a with
    | none => rw [ha] at h; cases h
    | some y =>
      rw [ha] at h
      cases hl : l.mapM f with
      | none => rw [hl] at h; cases h
      | some ys => rw [hl] at h; cases h

/-- C231: the union of two ranges that were each read from a text without `..`, neither of them the empty range, holds a version
exactly if one of the two does. -/
theorem C231_union (s t : Str) (a b : VersionRange) (ha : range (some s) = some a) (hb : range (some t) = some b)
    (hs : ¬ c!".." <:+: s) (ht : ¬ c!".." <:+: t) (hse : trim s ≠ c!"empty" ∧ trim s ≠ c!"!*") (hte : trim t ≠ c!"empty" ∧ trim t ≠ c!"!*") :
    ∃ r, union a b = some r ∧ ∀ v, r.contains v = (a.contains v || b.contains v) := by
  have hs' : containsStr s c!".." = false := by
    cases hc : containsStr s c!".." with
    | false => rfl
    | true => exact absurd ((containsStr_iff _ _).mp hc) hs
  have ht' : containsStr t c!".." = false := by
    cases hc : containsStr t c!".." with
    | false => rfl
    | true => exact absurd ((containsStr_iff _ _).mp hc) ht
  have hall : ∀ (r : VersionRange) v, VersionRange.parse [] = some r → r.contains v = true := by
    intro r v hr
    cases hr
    rfl
  simp only [range, Option.getD_some, VersionRange.parse, Option.map_eq_some_iff] at ha hb
  obtain ⟨x, hx, rfl⟩ := ha
  obtain ⟨y, hy, rfl⟩ := hb
  unfold union
  show ∃ r, (if s.isEmpty || t.isEmpty then VersionRange.parse [] else if s == t then _ else VersionRange.parse (s ++ c!"|" ++ t)) = _ ∧ _
  split
  · rename_i he
    refine ⟨.any, rfl, fun v => ?_⟩
    simp only [Bool.or_eq_true, List.isEmpty_iff] at he
    rcases he with rfl | rfl
    · cases hx
      rw [hall _ v rfl, hall .any v rfl]
      rfl
    · cases hy
      rw [hall _ v rfl, hall .any v rfl]
      simp
  · split
    · rename_i he
      rw [beq_iff_eq] at he
      subst he
      rw [hx] at hy
      cases hy
      exact ⟨_, rfl, fun v => by simp⟩
    · rw [rangeStr_trim hs' hse.1 hse.2] at hx
      rw [rangeStr_trim ht' hte.1 hte.2] at hy
      have hcat : s ++ c!"|" ++ t = s ++ '|' :: t := by simp
      have hmem : '|' ∈ trim (s ++ '|' :: t) := mem_trim_of_mem (by simp) (by decide)
      have hdots : containsStr (s ++ '|' :: t) c!".." = false := by
        rw [containsDots_append (by simp), hs', containsStr, ht']
        rfl
      have hp : VersionRange.parse (s ++ c!"|" ++ t) = some (.mk (s ++ c!"|" ++ t) (x ++ y) true []) := by
        unfold VersionRange.parse
        rw [hcat, rangeStr_trim hdots (by intro h; rw [h] at hmem; revert hmem; decide) (by intro h; rw [h] at hmem; revert hmem; decide)]
        unfold parseAlternatives
        rw [splitChar_two, mapM_two _ _ _ x y hx hy]
        rfl
      refine ⟨_, hp, fun v => ?_⟩
      have hxn : x ≠ [] := by
        rintro rfl
        exact splitChar_ne_nil _ _ (mapM_nil hx)
      have hyn : y ≠ [] := by
        rintro rfl
        exact splitChar_ne_nil _ _ (mapM_nil hy)
      rw [Bool.eq_iff_iff, Bool.or_eq_true, contains_mk, contains_mk, contains_mk]
      simp only [List.append_eq_nil_iff, hxn, hyn, false_and, false_or, List.mem_append, VersionRange.containsAny, and_true, or_and_right,
        exists_or]

/-! ### Equal texts -/

/-- A character that no text of a range has outside the brackets of an intersection or a difference. -/
def Bracket (d : Char) : Prop := d = '(' ∨ d = ')'

theorem bracket_version {d : Char} (hd : Bracket d) {s : Str} {v : Version} (h : Version.parse s = some v) : d ∉ s := by
  intro hm
  have hm := mem_trim_of_mem hm (by rcases hd with rfl | rfl <;> decide)
  rcases Version.parse_cases h with ⟨-, h | h⟩ | ⟨-, h⟩ | ⟨hs, -⟩
  · rw [h] at hm
    cases hm
  · rw [h] at hm
    rcases hd with rfl | rfl <;> revert hm <;> decide
  · rw [h] at hm
    rcases hd with rfl | rfl <;> revert hm <;> decide
  · exact (printed_of_spells hs).not_mem (by rcases hd with rfl | rfl <;> decide) (by rcases hd with rfl | rfl <;> decide)
      (by rcases hd with rfl | rfl <;> decide) (by rcases hd with rfl | rfl <;> decide) hm

theorem bracket_single {d : Char} (hd : Bracket d) {s : Str} {b : Bound} (h : parseSingle s = some b) : d ∉ s := by
  intro hm
  have hm := mem_trim_of_mem hm (by rcases hd with rfl | rfl <;> decide)
  have hne : ∀ c : Char, c = '>' ∨ c = '<' ∨ c = '=' ∨ c = '!' ∨ c = '~' → d ≠ c := by
    rintro c (rfl | rfl | rfl | rfl | rfl) rfl <;> rcases hd with h | h <;> revert h <;> decide
  have hver : ∀ {s : Str} {f : Version → Bound}, (Version.parse (trim s)).map f = some b → d ∉ s := by
    intro s f h
    rw [parse_trim, Option.map_eq_some_iff] at h
    obtain ⟨v, hv, -⟩ := h
    exact bracket_version hd hv
  have htwo : ∀ {x y : Char} {r : Str}, d ∈ x :: y :: r → d ≠ x → d ≠ y → d ∈ r := by
    intro x y r h h1 h2
    simpa [h1, h2] using h
  have hone : ∀ {x : Char} {r : Str}, d ∈ x :: r → d ≠ x → d ∈ r := by
    intro x r h h1
    simpa [h1] using h
  unfold parseSingle at h
  simp only at h
  split at h
  · rename_i he
    simp only [Bool.or_eq_true, List.isEmpty_iff, beq_iff_eq] at he
    rcases he with he | he
    · rw [he] at hm; cases hm
    · rw [he] at hm
      rcases hd with rfl | rfl <;> revert hm <;> decide
  · split at h
    all_goals first
      | (rename_i heq; rw [heq] at hm; exact hver h (htwo hm (hne _ (by simp)) (hne _ (by simp))))
      | (rename_i heq; rw [heq] at hm; exact hver h (hone hm (hne _ (by simp))))
      | (rw [← trim_idem] at h; exact hver h hm)

theorem bracket_ops {d : Char} (hd : Bracket d) : ∀ (s cur : Str), d ∈ cur ∨ d ∈ s → ∃ p ∈ splitOps cur s, d ∈ p := by
  have hw : isWs d = false := by rcases hd with rfl | rfl <;> decide
  have hcur : ∀ cur : Str, d ∈ cur → ¬ (trim cur).isEmpty = true := by
    intro cur h he
    have := mem_trim_of_mem h hw
    rw [List.isEmpty_iff.mp he] at this
    cases this
  intro s
  induction s with
  | nil =>
    intro cur h
    have h : d ∈ cur := by simpa using h
    unfold splitOps
    rw [if_neg (hcur cur h)]
    exact ⟨_, by simp, mem_trim_of_mem h hw⟩
  | cons c cs ih =>
    intro cur h
    obtain ⟨q, hq⟩ : ∃ q : Bool, splitOps cur (c :: cs) = if (c == ' ' && q) = true then
        (if (trim cur).isEmpty then [] else [trim cur]) ++ splitOps [] cs else splitOps (cur ++ [c]) cs := ⟨_, rfl⟩
    rw [hq]
    split
    · rename_i hc
      rcases h with h | h
      · rw [if_neg (hcur cur h)]
        exact ⟨trim cur, by simp, mem_trim_of_mem h hw⟩
      · have hcd : d ≠ c := by
          rintro rfl
          simp only [Bool.and_eq_true, beq_iff_eq] at hc
          rw [hc.1] at hw
          revert hw
          decide
        obtain ⟨p, hp, hdp⟩ := ih [] (.inr (by simpa [hcd] using h))
        exact ⟨p, List.mem_append_right _ hp, hdp⟩
    · refine ih _ ?_
      rcases h with h | h
      · exact .inl (List.mem_append_left _ h)
      · rcases List.mem_cons.mp h with rfl | h
        · exact .inl (by simp)
        · exact .inr h

theorem bracket_split {d e : Char} (hne : d ≠ e) {s : Str} (h : d ∈ s) : ∃ p ∈ splitChar e s, d ∈ p := by
  rw [← join_split e s] at h
  rcases mem_joinWith h with h | h
  · exact absurd (List.mem_singleton.mp h) hne
  · exact h

theorem bracket_expand {d : Char} (hd : Bracket d) {s : Str} (h : d ∈ s) : d ∈ expandPlus s := by
  unfold expandPlus
  split
  · cases hs : splitOnce c!"+" s with
    | none => exact h
    | some p =>
      obtain ⟨pre, suf⟩ := p
      have := Rez.splitOnce_eq hs
      rw [this] at h
      have hp : d ≠ '+' := by rintro rfl; rcases hd with h | h <;> revert h <;> decide
      have h : d ∈ pre ∨ d ∈ suf := by simpa [hp] using h
      simp only
      split
      · rename_i he
        rw [List.isEmpty_iff.mp he] at h
        simpa using Or.inr (Or.inr h)
      · simp only [List.mem_append]
        tauto
  · exact h

theorem mapM_mem {α β : Type} {f : α → Option β} : ∀ {l : List α} {r : List β}, l.mapM f = some r → ∀ x ∈ l, ∃ y, f x = some y := by
  intro l
  induction l with
  | nil => intro r _ x hx; cases hx
  | cons a l ih =>
    intro r h x hx
    rw [List.mapM_cons] at h
    cases ha : f a with
    | none => rw [ha] at h; cases h
    | some y =>
      rw [ha] at h
      cases hl : l.mapM f with
      | none => rw [hl] at h; cases h
      | some ys =>
        rcases List.mem_cons.mp hx with rfl | hx
        · exact ⟨y, ha⟩
        · exact ih hl x hx

theorem bracket_conj {d : Char} (hd : Bracket d) {s : Str} {b : BoundSet} (h : parseConjunction s = some b) : d ∉ s := by
  have hw : isWs d = false := by rcases hd with rfl | rfl <;> decide
  intro hm
  unfold parseConjunction at h
  split at h
  · rename_i he
    simp only [Bool.or_eq_true, List.isEmpty_iff, beq_iff_eq] at he
    rcases he with rfl | rfl
    · cases hm
    · rcases hd with rfl | rfl <;> revert hm <;> decide
  · simp only at h
    split at h
    · cases h
    · rename_i bounds hb
      obtain ⟨p, hp, hdp⟩ := bracket_split (e := ',') (by rintro rfl; rcases hd with h | h <;> revert h <;> decide) (bracket_expand hd hm)
      have hdp := mem_trim_of_mem hdp hw
      obtain ⟨q, hq, hdq⟩ := bracket_ops hd (trim p) [] (.inr hdp)
      have hdq := mem_trim_of_mem hdq hw
      have hpart : trim q ∈ ((splitConstraintParts (expandPlus s)).map trim).filter (fun p => !p.isEmpty) := by
        refine List.mem_filter.mpr ⟨List.mem_map.mpr ⟨q, List.mem_flatMap.mpr ⟨trim p, List.mem_filter.mpr
          ⟨List.mem_map.mpr ⟨p, hp, rfl⟩, ?_⟩, hq⟩, rfl⟩, ?_⟩
        · cases ht : trim p with
          | nil => rw [ht] at hdp; cases hdp
          | cons => rfl
        · cases ht : trim q with
          | nil => rw [ht] at hdq; cases hdq
          | cons => rfl
      obtain ⟨y, hy⟩ := mapM_mem hb _ hpart
      exact bracket_single hd hy hdq

theorem bracket_alternatives {d : Char} (hd : Bracket d) {s : Str} {b : List BoundSet} (h : parseAlternatives s = some b) : d ∉ s := by
  intro hm
  obtain ⟨p, hp, hdp⟩ := bracket_split (e := '|') (by rintro rfl; rcases hd with h | h <;> revert h <;> decide) hm
  obtain ⟨y, hy⟩ := mapM_mem h p hp
  exact bracket_conj hd hy (mem_trim_of_mem hdp (by rcases hd with rfl | rfl <;> decide))

theorem bracket_range {d : Char} (hd : Bracket d) {s : Str} {r : VersionRange} (h : VersionRange.parse s = some r) : d ∉ s := by
  have hw : isWs d = false := by rcases hd with rfl | rfl <;> decide
  intro hm
  have hm := mem_trim_of_mem hm hw
  unfold VersionRange.parse at h
  rw [Option.map_eq_some_iff] at h
  obtain ⟨bs, h, -⟩ := h
  unfold parseRangeStr at h
  split at h
  · rename_i he
    simp only [Bool.or_eq_true, List.isEmpty_iff, beq_iff_eq] at he
    rcases he with he | he <;> rw [he] at hm
    · cases hm
    · rcases hd with rfl | rfl <;> revert hm <;> decide
  · split at h
    · rename_i he
      simp only [Bool.or_eq_true, beq_iff_eq] at he
      rcases he with he | he <;> rw [he] at hm <;> rcases hd with rfl | rfl <;> revert hm <;> decide
    · cases hs : splitOnce c!".." (trim s) with
      | none =>
        rw [hs] at h
        exact bracket_alternatives hd h hm
      | some p =>
        obtain ⟨l, r⟩ := p
        rw [hs] at h
        simp only at h
        split at h
        · have := Rez.splitOnce_eq hs
          rw [this] at hm
          have hp : d ≠ '.' := by rintro rfl; rcases hd with h | h <;> revert h <;> decide
          have hm : d ∈ l ∨ d ∈ r := by simpa [hp] using hm
          refine bracket_alternatives hd h ?_
          simp only [List.mem_append]
          rcases hm with hm | hm
          · exact .inl (.inl (.inr (mem_trim_of_mem hm hw)))
          · exact .inr (mem_trim_of_mem hm hw)
        · exact bracket_alternatives hd h hm

/-- What stands before and after the bracket that closes here. -/
def closing (n : Nat) : Str → Option (Str × Str)
  | [] => none
  | c :: cs =>
    if c = ')' then
      if n = 0 then some ([], cs)
      else (closing (n - 1) cs).map fun p => (c :: p.1, p.2)
    else if c = '(' then (closing (n + 1) cs).map fun p => (c :: p.1, p.2)
    else (closing n cs).map fun p => (c :: p.1, p.2)

/-- Every bracket opened in the text is closed in it, and the other way round. -/
def Balanced (a : Str) : Prop := ∀ n r, closing n (a ++ r) = (closing n r).map fun p => (a ++ p.1, p.2)

theorem balanced_plain : ∀ {a : Str}, (∀ d, Bracket d → d ∉ a) → Balanced a := by
  intro a
  induction a with
  | nil => intro _ n r; simp
  | cons c cs ih =>
    intro h n r
    have h1 : c ≠ ')' := by rintro rfl; exact h ')' (.inr rfl) (by simp)
    have h2 : c ≠ '(' := by rintro rfl; exact h '(' (.inl rfl) (by simp)
    rw [List.cons_append, closing, if_neg h1, if_neg h2, ih (fun d hd hm => h d hd (List.mem_cons_of_mem _ hm)) n r, Option.map_map]
    rfl

theorem Balanced.append {a b : Str} (ha : Balanced a) (hb : Balanced b) : Balanced (a ++ b) := by
  intro n r
  rw [List.append_assoc, ha, hb, Option.map_map]
  congr 1
  funext p
  simp

theorem Balanced.brackets {a : Str} (ha : Balanced a) : Balanced (c!"(" ++ a ++ c!")") := by
  intro n r
  show closing n ('(' :: (a ++ c!")" ++ r)) = _
  rw [closing, if_neg (by decide), if_pos rfl, List.append_assoc, ha]
  show ((closing (n + 1) (')' :: r)).map _).map _ = _
  rw [closing, if_pos rfl, if_neg (by omega), Nat.add_sub_cancel]
  simp only [Option.map_map]
  congr 1
  funext p
  simp

theorem Balanced.closes {a : Str} (ha : Balanced a) (r : Str) : closing 0 (a ++ ')' :: r) = some (a, r) := by
  rw [ha]
  simp [closing]

/-- Two bracketed texts with a sign between them. -/
def paired (a : Str) (sign : Char) (b : Str) : Str := c!"(" ++ a ++ c!")" ++ [sign] ++ (c!"(" ++ b ++ c!")")

theorem paired_inj {a b a' b' : Str} {x x' : Char} (ha : Balanced a) (ha' : Balanced a')
    (h : paired a x b = paired a' x' b') : a = a' ∧ x = x' ∧ b = b' := by
  have h1 : a ++ ')' :: (x :: '(' :: (b ++ [')'])) = a' ++ ')' :: (x' :: '(' :: (b' ++ [')'])) := by
    simpa [paired] using h
  have h2 := ha.closes (x :: '(' :: (b ++ [')']))
  rw [h1, ha'.closes] at h2
  simp only [Option.some.injEq, Prod.mk.injEq, List.cons.injEq, true_and] at h2
  obtain ⟨h3, h4, h5⟩ := h2
  exact ⟨h3.symm, h4.symm, (List.append_cancel_right h5).symm⟩

/-- How a range is written. -/
inductive Shape : VersionRange → Prop
  | text {s r} : VersionRange.parse s = some r → Shape r
  | inter {a b} : Shape a → Shape b → Shape (.mk (paired a.rangeStr '&' b.rangeStr) (VersionRange.mergedSets a.boundSets b.boundSets) true
      (a.subtractFrom ++ b.subtractFrom))
  | sub {a b} : Shape a → Shape b → Shape (.mk (paired a.rangeStr '-' b.rangeStr) a.boundSets true (a.subtractFrom ++ [b]))

theorem made_shape {r : VersionRange} (h : Made r) : Shape r := by
  induction h with
  | any => exact .text (s := []) rfl
  | none => exact .text (s := c!"!*") rfl
  | new h => exact .text h
  | intersect _ _ h iha ihb =>
    unfold VersionRange.intersect at h
    split at h
    · cases h; exact ihb
    · split at h
      · cases h; exact iha
      · simp only at h
        split at h
        · cases h
        · cases h
          have := Shape.inter iha ihb
          simpa [paired] using this
  | subtract _ _ h iha ihb =>
    unfold VersionRange.subtract at h
    split at h
    · cases h
    · split at h
      · cases h; exact iha
      · split at h
        · cases h
        · simp only at h
          split at h
          · cases h
            have := Shape.sub iha ihb
            simpa [paired] using this
          · cases h
  | union _ _ h iha _ =>
    unfold PyVersion.union at h
    split at h
    · exact .text h
    · split at h
      · cases h; exact iha
      · exact .text h

theorem parse_text {s : Str} {r : VersionRange} (h : VersionRange.parse s = some r) : r.rangeStr = s := by
  unfold VersionRange.parse at h
  rw [Option.map_eq_some_iff] at h
  obtain ⟨bs, -, rfl⟩ := h
  rfl

theorem shape_balanced {r : VersionRange} (h : Shape r) : Balanced r.rangeStr := by
  induction h with
  | text h =>
    rw [parse_text h]
    exact balanced_plain fun d hd => bracket_range hd h
  | inter _ _ iha ihb =>
    exact (iha.brackets.append (balanced_plain (by rintro d (rfl | rfl) <;> decide))).append ihb.brackets
  | sub _ _ iha ihb =>
    exact (iha.brackets.append (balanced_plain (by rintro d (rfl | rfl) <;> decide))).append ihb.brackets

theorem text_not_paired {s a b : Str} {x : Char} {r : VersionRange} (h : VersionRange.parse s = some r) : s ≠ paired a x b := by
  rintro rfl
  exact bracket_range (d := '(') (.inl rfl) h (by simp [paired])

theorem shape_eq {a : VersionRange} (ha : Shape a) : ∀ b, Shape b → a.rangeStr = b.rangeStr → a = b := by
  induction ha with
  | text h =>
    intro b hb he
    rw [parse_text h] at he
    cases hb with
    | text h' =>
      rw [parse_text h'] at he
      rw [he] at h
      exact Option.some.inj (h.symm.trans h')
    | inter => exact absurd he (text_not_paired h)
    | sub => exact absurd he (text_not_paired h)
  | inter ha1 ha2 ih1 ih2 =>
    intro b hb he
    cases hb with
    | text h' =>
      rw [parse_text h'] at he
      exact absurd he.symm (text_not_paired h')
    | inter hb1 hb2 =>
      obtain ⟨e1, -, e2⟩ := paired_inj (shape_balanced ha1) (shape_balanced hb1) he
      rw [ih1 _ hb1 e1, ih2 _ hb2 e2]
    | sub hb1 hb2 =>
      obtain ⟨-, e, -⟩ := paired_inj (shape_balanced ha1) (shape_balanced hb1) he
      exact absurd e (by decide)
  | sub ha1 ha2 ih1 ih2 =>
    intro b hb he
    cases hb with
    | text h' =>
      rw [parse_text h'] at he
      exact absurd he.symm (text_not_paired h')
    | inter hb1 hb2 =>
      obtain ⟨-, e, -⟩ := paired_inj (shape_balanced ha1) (shape_balanced hb1) he
      exact absurd e (by decide)
    | sub hb1 hb2 =>
      obtain ⟨e1, -, e2⟩ := paired_inj (shape_balanced ha1) (shape_balanced hb1) he
      rw [ih1 _ hb1 e1, ih2 _ hb2 e2]

/-- C231: two ranges that a program made and that compare as equal are the same range: they hold the same versions, have the same hash and
behave the same in every other operation. -/
theorem C231_equal (a b : VersionRange) (ha : Made a) (hb : Made b) :
    rangeEq a b = true ↔ a = b := by
  unfold rangeEq
  rw [beq_iff_eq]
  exact ⟨shape_eq (made_shape ha) b (made_shape hb), fun h => by rw [h]⟩

/-- C231: a version and a range made without a text are the empty version and the range of all versions; made with a text they are what
the text says, or an error. -/
theorem C231_new : (∃ v, new none = some v ∧ v.tokens = [] ∧ PyVersion.isEmpty v = true) ∧ (∀ s, new (some s) = Version.parse s) ∧
    (∃ r, range none = some r ∧ ∀ v, r.contains v = true) ∧ ∀ s, range (some s) = VersionRange.parse s :=
  ⟨⟨_, rfl, by decide +kernel, by decide +kernel⟩, fun _ => rfl, ⟨_, rfl, fun _ => rfl⟩, fun _ => rfl⟩

/-- C231: ranges that are equal have the same hash, for every hash function on texts. -/
theorem C231_hash {H : Type} (h : Str → H) (a b : VersionRange) (he : rangeEq a b = true) : rangeHashWith h a = rangeHashWith h b := by
  unfold rangeEq at he
  unfold rangeHashWith
  rw [beq_iff_eq.mp he]

/-- C231: versions that are equal may have different hashes. -/
theorem C231_hash_false : ∃ u v, Version.parse c!"1.0" = some u ∧ Version.parse c!"1-0" = some v ∧ u.cmp v = .eq ∧
    hashWith id u ≠ hashWith id v := ⟨_, _, rfl, rfl, by decide +kernel, by decide +kernel⟩

/-- C231: `major` is not the first token: only points divide a version. -/
theorem C231_parts_false : ¬ ∀ (s : Str) (v : Version), Version.parse s = some v → part 0 v = v.tokens[0]? := by
  intro h
  exact absurd (h c!"1-2" _ rfl) (by decide +kernel)

/-- C231: `trim` need not give a prefix: a first piece `inf` is read as the infinite version, which has no tokens. -/
theorem C231_trim_false : ¬ ∀ (s : Str) (v w : Version), Version.parse s = some v → trimTo v 1 = some w → w.tokens = v.tokens.take 1 := by
  intro h
  exact absurd (h c!"inf.1" _ _ rfl rfl) (by decide +kernel)

/-- C231: `next` need not give a later version, and can fail. -/
theorem C231_next_false : (¬ ∀ (s : Str) (v w : Version), Version.parse s = some v → next v = some w → v.cmp w = .lt) ∧
    (¬ ∀ (s : Str) (v : Version), Version.parse s = some v → next v ≠ none) := by
  constructor
  · intro h
    exact absurd (h c!"1.18446744073709551615" _ _ rfl rfl) (by decide +kernel)
  · intro h
    exact absurd (h [] _ rfl) (by decide +kernel)

/-- C231: a union can fail, and can hold versions that neither range holds: both with the `..` form, and the first with the empty range. -/
theorem C231_union_false :
    (∃ a, range (some c!"1") = some a ∧ union a .none = none) ∧
    (∃ a b, range (some c!"1..2") = some a ∧ range (some c!"3..4") = some b ∧ union a b = none) ∧
    ∃ a b r v, range (some c!"5") = some a ∧ range (some c!"1..2") = some b ∧ union a b = some r ∧ Version.parse c!"7" = some v ∧
      r.contains v = true ∧ a.contains v = false ∧ b.contains v = false := by
  refine ⟨⟨_, rfl, by rfl⟩, ⟨_, _, rfl, rfl, by rfl⟩, ⟨_, _, _, _, rfl, rfl, rfl, rfl, ?_⟩⟩
  decide +kernel

/-- C231: ranges that hold the same versions need not compare as equal. -/
theorem C231_equal_false : ∃ a b, range (some c!">=1") = some a ∧ range (some c!"1+") = some b ∧ (∀ v, a.contains v = b.contains v) ∧
    rangeEq a b = false :=
  ⟨_, _, rfl, rfl, fun _ => rfl, by decide +kernel⟩

/-! ## Instances -/

example : ∃ v, Version.parse c!"1.2-beta.3" = some v ∧ Pieces v.asStr [c!"1", c!"2-beta", c!"3"] ∧ part 1 v = some c!"2-beta" :=
  ⟨_, rfl, ⟨by simp, by decide, by decide⟩, by decide +kernel⟩
example : ∃ v w, Version.parse c!"1.2.9" = some v ∧ EndsWith v.asStr c!"1.2." c!"9" ∧ next v = some w ∧ w.asStr = c!"1.2.10" :=
  ⟨_, _, rfl, ⟨by decide, by decide, by decide, by decide⟩, rfl, by decide +kernel⟩
example : ∃ v w, Version.parse c!"1.beta" = some v ∧ v.tokens ≠ [] ∧ next v = some w ∧ w.asStr = c!"1.beta.1" :=
  ⟨_, _, rfl, by decide +kernel, rfl, by decide +kernel⟩
example : ∃ a b r, range (some c!"1.0+<1.5") = some a ∧ range (some c!"2") = some b ∧ union a b = some r ∧ r.rangeStr = c!"1.0+<1.5|2" :=
  ⟨_, _, _, rfl, rfl, rfl, by decide +kernel⟩
example : ∃ a b r, range (some c!">=1") = some a ∧ range (some c!"<3") = some b ∧ a.intersect b = some r ∧ Made r ∧ r.rangeStr = c!"(>=1)&(<3)" :=
  ⟨_, _, _, rfl, rfl, rfl, .intersect (.new (s := some c!">=1") rfl) (.new (s := some c!"<3") rfl) rfl, by decide +kernel⟩

end Rez.Props
