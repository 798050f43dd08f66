import Verif.Spec.Tokenizer
import Verif.Lemmas.VersionParse
import Verif.Props.Version
/-!
# Theorems about the second tokenizer of versions (C211)
-/
namespace Rez.Props
open Rez Rez.Spec Rez.Spec.Tokenizer Rez.Tokenizer

namespace TokenizerLemmas

theorem invalid_iff (t : Str) (ht : t.all isTok = true) : invalid t = false ↔ TokenWf t := by
  by_cases hne : t = []
  · subst hne
    exact ⟨fun h => by simp [invalid] at h, fun h => (h.nonempty rfl).elim⟩
  · rw [← tokenOk_iff t hne]
    have he : t.isEmpty = false := by simpa using hne
    unfold invalid tokenOk
    rw [he, ht]
    cases (t.head? == some '_' || t.getLast? == some '_') <;> cases (t == c!"not" || t == c!"version") <;>
      cases (t.all isAlpha && decide (t.length > 10)) <;> simp

theorem parse_digits (w : Str) (hne : w ≠ []) (hd : w.all isDigit = true) :
    parseU64 w = if digitsVal w < 2 ^ 64 then some (digitsVal w) else none := by
  have hs : stripPlus w = w := by
    cases w with
    | nil => rfl
    | cons c cs =>
      unfold stripPlus
      split
      · rename_i heq
        cases heq
        simp [isDigit] at hd
      · rfl
  have he : w.isEmpty = false := by simpa using hne
  unfold parseU64
  simp only [hs, he, hd, Bool.not_false, Bool.true_and, decide_eq_true_eq]

theorem tokenOf_meaning (w : Str) (hne : w ≠ []) : tokenOf id w = meaning w := by
  unfold tokenOf meaning
  by_cases hd : w.all isDigit = true
  · rw [if_pos hd, parse_digits w hne hd]
    have hd' : ∀ c ∈ w, isDigit c = true := List.all_eq_true.mp hd
    by_cases hv : digitsVal w < 2 ^ 64
    · rw [if_pos hv, if_pos (show Number w from ⟨hd', hv⟩)]
    · rw [if_neg hv, if_neg (show ¬Number w from fun h => hv h.2)]; rfl
  · rw [if_neg hd, if_neg (show ¬Number w from fun h => hd (List.all_eq_true.mpr h.1))]; rfl

theorem interleave_two (t u p : Str) (ts ps : List Str) : interleave (t :: u :: ts) (p :: ps) = t ++ p ++ interleave (u :: ts) ps := rfl

theorem singles_inj : ∀ {a b : Str}, (a.map fun c => [c]) = (b.map fun c => [c]) → a = b
  | [], [], _ => rfl
  | [], _ :: _, h => by simp at h
  | _ :: _, [], h => by simp at h
  | x :: a, y :: b, h => by
    simp only [List.map_cons, List.cons.injEq, and_true] at h
    rw [h.1, singles_inj h.2]

/-- the numbers among the words -/
def numbers (ws : List Str) : Nat := (ws.filter fun w => decide (Number w)).length

theorem finalize_spec (w : Str) (m : Made) (hw : w.all isTok = true) :
    finalize id w m = if invalid w then none
      else some ⟨m.tokens ++ [meaning w], m.separators, m.numeric + numbers [w]⟩ := by
  unfold finalize
  by_cases hi : invalid w = true
  · rw [if_pos hi, if_pos hi]
  · rw [if_neg hi, if_neg hi]
    have hne : w ≠ [] := ((invalid_iff w hw).mp (by simpa using hi)).nonempty
    rw [tokenOf_meaning w hne]
    unfold meaning numbers
    by_cases hn : Number w
    · simp [hn]
    · simp [hn]

theorem loop_word (w rest cur : Str) (m : Made) (hw : w.all isTok = true) :
    loop id .inToken cur m (w ++ rest) = loop id .inToken (cur ++ w) m rest := by
  induction w generalizing cur with
  | nil => simp
  | cons c w ih =>
    simp only [List.all_cons, Bool.and_eq_true] at hw
    rw [List.cons_append, loop, isTokenChar, if_pos hw.1, ih _ hw.2]
    simp

theorem wf_tok {w : Str} (h : TokenWf w) : w.all isTok = true :=
  List.all_eq_true.mpr fun c hc => (isTok_iff c).mpr (h.chars c hc)

/-- the words and separators of a text are found -/
theorem loop_complete : ∀ (ws : List Str) (seps : Str) (m : Made) (st : State), st ≠ .inToken →
    seps.length + 1 = ws.length → (∀ c ∈ seps, c = '.' ∨ c = '-' ∨ c = '+') → (∀ w ∈ ws, TokenWf w) →
    loop id st [] m (interleave ws (seps.map fun c => [c])) =
      some ⟨m.tokens ++ ws.map meaning, m.separators ++ seps, m.numeric + numbers ws⟩
  | [], seps, m, st, _, hl, _, _ => by simp at hl
  | w :: ws, seps, m, st, hst, hl, hs, hw => by
    obtain ⟨c, w', rfl⟩ := List.exists_cons_of_ne_nil (hw w (by simp)).nonempty
    have hwf := hw (c :: w') (by simp)
    have htok := wf_tok hwf
    have hc : isTok c = true ∧ w'.all isTok = true := by simpa using htok
    have hinv := (invalid_iff _ htok).mpr hwf
    have first : ∀ r, loop id st [] m ((c :: w') ++ r) = loop id .inToken (c :: w') m r := by
      intro r
      have : loop id st [] m ((c :: w') ++ r) = loop id .inToken [c] m (w' ++ r) := by
        rw [List.cons_append]
        cases st with
        | start => rw [loop, isTokenChar, if_pos hc.1]; rfl
        | inToken => exact (hst rfl).elim
        | inSeparator => rw [loop, isTokenChar, if_pos hc.1]; rfl
      rw [this, loop_word w' r [c] m hc.2]; rfl
    cases seps with
    | nil =>
      have : ws = [] := by cases ws with | nil => rfl | cons => simp at hl
      subst this
      have h := first []
      rw [List.append_nil] at h
      rw [List.map_nil, interleave, h, loop, if_neg (by simp), finalize_spec _ _ htok, hinv]
      simp
    | cons d seps =>
      cases ws with
      | nil => simp at hl
      | cons w2 ws =>
        have hd := hs d (by simp)
        have hds : isTok d = false ∧ isSeparator d = true := by rcases hd with rfl | rfl | rfl <;> decide
        rw [List.map_cons, interleave_two, List.append_assoc, first]
        rw [List.singleton_append, loop, isTokenChar, if_neg (by simp [hds.1]), if_pos hds.2, finalize_spec _ _ htok, hinv]
        simp only [Bool.false_eq_true, if_false]
        rw [loop_complete (w2 :: ws) seps _ .inSeparator (by simp) (by simpa using hl) (fun c hc => hs c (by simp [hc]))
          (fun w hw' => hw w (by simp [hw']))]
        simp [numbers, List.filter_cons]
        split <;> simp <;> omega

/-- what is found is the words and separators of the text -/
theorem loop_sound : ∀ (n : Nat) (s cur : Str) (m m' : Made), s.length ≤ n → cur ≠ [] → cur.all isTok = true →
    loop id .inToken cur m s = some m' →
    ∃ ws seps, Words (cur ++ s) ws seps ∧
      m' = ⟨m.tokens ++ ws.map meaning, m.separators ++ seps, m.numeric + numbers ws⟩
  | n, [], cur, m, m', _, hne, hcur, h => by
    rw [loop, if_neg (by simpa using hne), finalize_spec _ _ hcur] at h
    by_cases hi : invalid cur = true
    · rw [if_pos hi] at h; cases h
    · rw [if_neg hi] at h
      refine ⟨[cur], [], ⟨by simp [interleave], rfl, fun c hc => (nomatch hc), fun w hw => ?_⟩, by simpa using h.symm⟩
      rw [List.mem_singleton] at hw
      exact hw ▸ (invalid_iff _ hcur).mp (by simpa using hi)
  | 0, _ :: _, _, _, _, hn, _, _, _ => by simp at hn
  | n + 1, c :: s, cur, m, m', hn, hne, hcur, h => by
    rw [loop] at h
    by_cases hc : isTokenChar c = true
    · rw [if_pos hc] at h
      obtain ⟨ws, seps, hw, he⟩ := loop_sound n s (cur ++ [c]) m m' (by simpa using hn) (by simp)
        (by rw [List.all_append, hcur]; simpa [isTokenChar] using hc) h
      exact ⟨ws, seps, by simpa using hw, he⟩
    · rw [if_neg hc] at h
      by_cases hs : isSeparator c = true
      · rw [if_pos hs, finalize_spec _ _ hcur] at h
        by_cases hi : invalid cur = true
        · rw [if_pos hi] at h; cases h
        · rw [if_neg hi] at h
          cases s with
          | nil => simp [loop] at h
          | cons d s =>
            simp only [loop] at h
            by_cases hd : isTokenChar d = true
            · rw [if_pos hd] at h
              obtain ⟨ws, seps, hw, he⟩ := loop_sound n s ([] ++ [d]) _ m' (by simp at hn; omega) (by simp)
                (by simpa [isTokenChar] using hd) h
              have hsep : c = '.' ∨ c = '-' ∨ c = '+' := by
                simp only [isSeparator, Bool.or_eq_true, beq_iff_eq] at hs
                rcases hs with ((hs | hs) | hs) | hs
                · exact .inl hs
                · exact .inr (.inl hs)
                · subst hs; exact (hc (by decide)).elim
                · exact .inr (.inr hs)
              obtain ⟨w2, ws2, rfl⟩ : ∃ w2 ws2, ws = w2 :: ws2 := by
                have := hw.oneBetween
                cases ws with
                | nil => simp at this
                | cons a b => exact ⟨a, b, rfl⟩
              refine ⟨cur :: w2 :: ws2, c :: seps, ⟨?_, by simpa using hw.oneBetween, ?_, ?_⟩, ?_⟩
              · rw [List.map_cons, interleave_two, ← hw.spelling]; simp
              · intro x hx
                rcases List.mem_cons.mp hx with rfl | hx
                · exact hsep
                · exact hw.separators x hx
              · intro w hx
                rcases List.mem_cons.mp hx with rfl | hx
                · exact (invalid_iff _ hcur).mp (by simpa using hi)
                · exact hw.words w hx
              · rw [he]
                simp [numbers, List.filter_cons]
                split <;> split <;> simp <;> omega
            · rw [if_neg hd] at h; cases h
      · rw [if_neg hs] at h; cases h

theorem loop_iff (s : Str) (hs : s ≠ []) (m' : Made) :
    loop id .start [] ⟨[], [], 0⟩ s = some m' ↔ ∃ ws seps, Words s ws seps ∧ m' = ⟨ws.map meaning, seps, numbers ws⟩ := by
  constructor
  · intro h
    cases s with
    | nil => exact (hs rfl).elim
    | cons c s =>
      rw [loop] at h
      by_cases hc : isTokenChar c = true
      · rw [if_pos hc] at h
        obtain ⟨ws, seps, hw, he⟩ := loop_sound s.length s ([] ++ [c]) _ m' (Nat.le_refl _) (by simp)
          (by simpa [isTokenChar] using hc) h
        exact ⟨ws, seps, by simpa using hw, by simpa using he⟩
      · rw [if_neg hc] at h; cases h
  · rintro ⟨ws, seps, hw, rfl⟩
    rw [hw.spelling, loop_complete ws seps _ .start (by simp) hw.oneBetween hw.separators hw.words]
    simp

/-- the words of a text are determined by it -/
theorem words_unique {s : Str} {ws ws' : List Str} {seps seps' : Str} (h : Words s ws seps) (h' : Words s ws' seps') :
    ws = ws' ∧ seps = seps' := by
  have conv : ∀ {ws : List Str} {seps : Str}, Words s ws seps →
      tokenRuns s = ([], ws.zip ((seps.map fun c => [c]) ++ [[]])) := by
    intro ws seps h
    have := tokenRuns_interleave (ts := ws) (seps := seps.map fun c => [c]) (by simpa using h.oneBetween)
      (by
        intro p hp
        obtain ⟨c, hc, rfl⟩ := List.mem_map.mp hp
        rcases h.separators c hc with rfl | rfl | rfl
        · exact .inl rfl
        · exact .inr (.inl rfl)
        · exact .inr (.inr rfl))
      (fun t ht => ⟨(h.words t ht).nonempty, wf_tok (h.words t ht)⟩)
    rw [← h.spelling] at this
    exact this
  have e : ws.zip ((seps.map fun c => [c]) ++ [[]]) = ws'.zip ((seps'.map fun c => [c]) ++ [[]]) :=
    congrArg Prod.snd ((conv h).symm.trans (conv h'))
  have z := zip_snd_dropLast (ts := ws) (seps := seps.map fun c => [c]) (by simpa using h.oneBetween)
  have z' := zip_snd_dropLast (ts := ws') (seps := seps'.map fun c => [c]) (by simpa using h'.oneBetween)
  rw [e] at z
  refine ⟨z.1.symm.trans z'.1, ?_⟩
  have := z.2.symm.trans z'.2
  exact singles_inj (List.append_cancel_right this)

theorem mset_length (pool : Pool) (k v : Str) : (mset pool k v).length ≤ pool.length + 1 := by
  unfold mset mdel
  rw [List.length_cons]
  exact Nat.succ_le_succ (List.length_filter_le _ _)

end TokenizerLemmas
open TokenizerLemmas

/-! ## C211 -/

/-- What the tokenizer gives: a text is accepted when it is empty, or spelled by well-formed words with one dot, hyphen or plus
between them, not more words and not more numbers than the limits; the words come in order, those that are numbers of 64 bits as
numbers. -/
theorem C211_tokens (p : Parser) (s : Str) (ts : List Token) (seps : Str) :
    parseTokens p id s = some (ts, seps) ↔
      (s = [] ∧ ts = [] ∧ seps = []) ∨
      ∃ ws, Words s ws seps ∧ ts = ws.map meaning ∧ ws.length ≤ p.maxTokens ∧
        (ws.filter fun w => decide (Number w)).length ≤ p.maxNumeric := by
  unfold parseTokens
  by_cases hs : s = []
  · subst hs
    rw [if_pos (by rfl)]
    constructor
    · intro h
      simp only [Option.some.injEq, Prod.mk.injEq] at h
      exact .inl ⟨rfl, h.1.symm, h.2.symm⟩
    · rintro (⟨_, rfl, rfl⟩ | ⟨ws, hw, _⟩)
      · rfl
      · have hl := hw.oneBetween
        obtain ⟨w, ws', rfl⟩ : ∃ w ws', ws = w :: ws' := by
          cases ws with
          | nil => simp at hl
          | cons a b => exact ⟨a, b, rfl⟩
        have hne := (hw.words w (by simp)).nonempty
        have := hw.spelling
        cases ws' with
        | nil => rw [interleave] at this; exact (hne this.symm).elim
        | cons a b =>
          cases seps with
          | nil => simp at hl
          | cons c seps => rw [List.map_cons, interleave_two] at this; simp [hne] at this
  · rw [if_neg (by simpa using hs)]
    constructor
    · intro h
      rcases hl : loop id .start [] ⟨[], [], 0⟩ s with _ | m
      · rw [hl] at h; cases h
      · obtain ⟨ws, sp, hw, rfl⟩ := (loop_iff s hs m).mp hl
        rw [hl] at h
        simp only [List.length_map] at h
        by_cases h1 : ws.length > p.maxTokens
        · rw [if_pos h1] at h; cases h
        · rw [if_neg h1] at h
          by_cases h2 : numbers ws > p.maxNumeric
          · rw [if_pos h2] at h; cases h
          · rw [if_neg h2] at h
            simp only [Option.some.injEq, Prod.mk.injEq] at h
            obtain ⟨rfl, rfl⟩ := h
            exact .inr ⟨ws, hw, rfl, Nat.le_of_not_gt h1, Nat.le_of_not_gt h2⟩
    · rintro (⟨h, _⟩ | ⟨ws, hw, rfl, h1, h2⟩)
      · exact (hs h).elim
      · rw [(loop_iff s hs _).mpr ⟨ws, seps, hw, rfl⟩]
        simp only [List.length_map]
        have h2' : numbers ws ≤ p.maxNumeric := h2
        rw [if_neg (by omega), if_neg (by omega)]

/-- accepted and refused -/
example : parseTokens .new id c!"1.2-alpha1+b_2" = some ([.numeric 1, .numeric 2, .word c!"alpha1", .word c!"b_2"], c!".-+") ∧
    parseTokens .new id c!"1..2" = none ∧ parseTokens .new id c!"1.2." = none ∧ parseTokens .new id c!"1.2.3.4.5.6" = none ∧
    parseTokens .new id [] = some ([], []) := by decide +kernel

/-- The tokenizer with its limits agrees with the versions: of a text without surrounding blanks that is none of the special
spellings, has no `v` in front and no number beyond 64 bits, the version has the words and separators that the tokenizer gives,
and one of the two accepts it when the other does. -/
theorem C211_version (s : Str) (ht : trim s = s) (hi : s ≠ c!"inf") (he : s ≠ c!"epsilon") (hn : s ≠ [])
    (hv : s.head? ≠ some 'v' ∧ s.head? ≠ some 'V') (ws : List Str) (seps : Str)
    (hbig : ∀ w ∈ ws, (∀ c ∈ w, isDigit c = true) → digitsVal w < 2 ^ 64) :
    Version.parse s = some ⟨ws, seps.map fun c => [c], s⟩ ↔
      Words s ws seps ∧ parseTokens .new id s = some (ws.map meaning, seps) := by
  have key : (ws.filter fun w => decide (Number w)) = ws.filter fun w => w.all isDigit := by
    apply List.filter_congr
    intro w hw
    by_cases hd : w.all isDigit = true
    · rw [hd]
      exact decide_eq_true ⟨List.all_eq_true.mp hd, hbig w hw (List.all_eq_true.mp hd)⟩
    · rw [Bool.not_eq_true] at hd
      rw [hd]
      exact decide_eq_false fun h => by rw [List.all_eq_true.mpr h.1] at hd; cases hd
  have hg := C05_grammar s (by rw [ht]; exact hi) (by rw [ht]; exact he) (by rw [ht]; exact hn) ws (seps.map fun c => [c])
  rw [ht] at hg
  rw [hg, C211_tokens]
  constructor
  · intro h
    have hw : Words s ws seps := ⟨h.spelling, by simpa using h.oneSepBetween, fun c hc => by
      have := h.separators [c] (List.mem_map.mpr ⟨c, hc, rfl⟩)
      simpa using this, h.tokens⟩
    exact ⟨hw, .inr ⟨ws, hw, rfl, h.atMostTen, by rw [key]; exact h.atMostFiveNumeric⟩⟩
  · rintro ⟨hw, ⟨h, _⟩ | ⟨ws', hw', _, h1, h2⟩⟩
    · exact (hn h).elim
    · obtain ⟨rfl, _⟩ := words_unique hw hw'
      rw [key] at h2
      exact ⟨hw.spelling, by simpa using hw.oneBetween, h1, h2, fun p hp => by
        obtain ⟨c, hc, rfl⟩ := List.mem_map.mp hp
        simpa using hw.separators c hc, hw.words, hv⟩

/-- the hypotheses are met -/
example : Version.parse c!"1.2-alpha1" = some ⟨[c!"1", c!"2", c!"alpha1"], c!".-".map fun c => [c], c!"1.2-alpha1"⟩ ∧
    trim c!"1.2-alpha1" = c!"1.2-alpha1" := by decide +kernel

/-- Without these conditions the two differ: a `v` in front is accepted, blanks around a version are refused, and numbers beyond
64 bits are not counted. -/
theorem C211_version_false :
    (parseTokens .new id c!"v1.0" = some ([.word c!"v1", .numeric 0], c!".") ∧ Version.parse c!"v1.0" = none) ∧
    (parseTokens .new id c!" 1.0" = none ∧ (Version.parse c!" 1.0").isSome = true) ∧
    ((parseTokens .new id c!"99999999999999999999.1.2.3.4.5").isSome = true ∧
      Version.parse c!"99999999999999999999.1.2.3.4.5" = none) := by decide +kernel

/-- Interning: whatever threads intern whatever texts in whatever order of their locked sections, each gets back the text it gave,
and the pool holds each text at most once, as itself, and at most ten thousand. -/
theorem C211_intern (l : List (Parser × Str)) (order : List Nat) :
    let s := run ([], begin l) order
    s.2.map (fun e => textOf e.2) = l.map Prod.snd ∧
    (∀ e ∈ s.2, ∀ r, resultOf e.2 = some r → r = textOf e.2) ∧
    (∀ e ∈ s.1, e.1 = e.2) ∧ (mkeys s.1).Nodup ∧ s.1.length ≤ 10000 := by
  suffices h : ∀ (order : List Nat) (pool : Pool) (calls : List (Parser × Call)),
      (calls.map (fun e => textOf e.2) = l.map Prod.snd ∧
        (∀ e ∈ calls, ∀ r, resultOf e.2 = some r → r = textOf e.2) ∧
        (∀ e ∈ pool, e.1 = e.2) ∧ (mkeys pool).Nodup ∧ pool.length ≤ 10000) →
      (run (pool, calls) order).2.map (fun e => textOf e.2) = l.map Prod.snd ∧
        (∀ e ∈ (run (pool, calls) order).2, ∀ r, resultOf e.2 = some r → r = textOf e.2) ∧
        (∀ e ∈ (run (pool, calls) order).1, e.1 = e.2) ∧ (mkeys (run (pool, calls) order).1).Nodup ∧
        (run (pool, calls) order).1.length ≤ 10000 by
    refine h order [] (begin l) ⟨?_, ?_, fun e he => (nomatch he), List.nodup_nil, Nat.zero_le _⟩
    · simp [begin, textOf, Function.comp_def]
    · intro e he r hr
      obtain ⟨x, _, rfl⟩ := List.mem_map.mp he
      simp [resultOf] at hr
  intro order
  induction order with
  | nil => intro pool calls h; exact h
  | cons i order ih =>
    intro pool calls ⟨h1, h2, h3, h4, h5⟩
    unfold run
    rcases hc : calls[i]? with _ | ⟨p, c⟩
    · exact ih pool calls ⟨h1, h2, h3, h4, h5⟩
    · apply ih
      have hmem : (p, c) ∈ calls := List.mem_of_getElem? hc
      have same : ∀ {s t}, mget pool s = some t → t = s := fun h => (h3 _ (mget_some_mem h)).symm
      -- one step
      have step : textOf (c.step p pool).2 = textOf c ∧
          (∀ r, resultOf (c.step p pool).2 = some r → r = textOf c) ∧
          (∀ e ∈ (c.step p pool).1, e.1 = e.2) ∧ (mkeys (c.step p pool).1).Nodup ∧ (c.step p pool).1.length ≤ 10000 := by
        cases c with
        | begun s =>
          by_cases hx : (!p.useInterning || decide (s.length > 64)) = true
          · have e : (Call.begun s).step p pool = (pool, .done s s) := by show (Call.step p pool _) = _; rw [Call.step]; rw [if_pos hx]
            rw [e]
            exact ⟨rfl, fun r hr => (Option.some.inj hr).symm, h3, h4, h5⟩
          · rcases hm : mget pool s with _ | t
            · have e : (Call.begun s).step p pool = (pool, .missed s) := by show (Call.step p pool _) = _; rw [Call.step]; rw [if_neg hx, hm]
              rw [e]
              exact ⟨rfl, fun r hr => (nomatch hr), h3, h4, h5⟩
            · have e : (Call.begun s).step p pool = (pool, .done s t) := by show (Call.step p pool _) = _; rw [Call.step]; rw [if_neg hx, hm]
              rw [e]
              exact ⟨rfl, fun r hr => (Option.some.inj hr).symm.trans (same hm), h3, h4, h5⟩
        | missed s =>
          rcases hm : mget pool s with _ | t
          · by_cases hl : pool.length < 10000
            · have e : (Call.missed s).step p pool = (mset pool s s, .done s s) := by show (Call.step p pool _) = _; rw [Call.step]; rw [hm]; exact if_pos hl
              rw [e]
              refine ⟨rfl, fun r hr => (Option.some.inj hr).symm, ?_, nodup_mset h4 _ _, ?_⟩
              · intro e he
                have hnd := nodup_mset h4 s s
                have hg := mget_of_mem hnd (by exact he : (e.1, e.2) ∈ mset pool s s)
                rw [mget_mset] at hg
                by_cases hk : e.1 = s
                · rw [if_pos hk] at hg; rw [hk]; exact Option.some.inj hg
                · rw [if_neg hk] at hg; exact h3 _ (mget_some_mem hg)
              · have := mset_length pool s s
                simp only
                omega
            · have e : (Call.missed s).step p pool = (pool, .done s s) := by show (Call.step p pool _) = _; rw [Call.step]; rw [hm]; exact if_neg hl
              rw [e]
              exact ⟨rfl, fun r hr => (Option.some.inj hr).symm, h3, h4, h5⟩
          · have e : (Call.missed s).step p pool = (pool, .done s t) := by show (Call.step p pool _) = _; rw [Call.step]; rw [hm]
            rw [e]
            exact ⟨rfl, fun r hr => (Option.some.inj hr).symm.trans (same hm), h3, h4, h5⟩
        | done s r' =>
          unfold Call.step
          exact ⟨rfl, fun r hr => h2 _ hmem r hr, h3, h4, h5⟩
      obtain ⟨s1, s2, s3, s4, s5⟩ := step
      refine ⟨?_, ?_, s3, s4, s5⟩
      · rw [List.map_set, s1]
        rw [← h1]
        apply List.ext_getElem?
        intro j
        rw [List.getElem?_set]
        split
        · rename_i hij
          subst hij
          rw [List.getElem?_map, hc]
          have : i < (calls.map fun e => textOf e.2).length := by
            rw [List.length_map]; exact (List.getElem?_eq_some_iff.mp hc).1
          rw [if_pos this]; rfl
        · rfl
      · intro e he r hr
        rcases List.mem_or_eq_of_mem_set he with he | rfl
        · exact h2 e he r hr
        · exact (s2 r hr).trans s1.symm

/-- A call that has had two turns has its result. -/
theorem C211_two_turns (p : Parser) (pool pool' : Pool) (s : Str) :
    (resultOf (((Call.begun s).step p pool).2.step p pool').2).isSome = true := by
  have first : ((Call.begun s).step p pool).2 = .missed s ∨ ∃ r, ((Call.begun s).step p pool).2 = .done s r := by
    rw [Call.step]
    split
    · exact .inr ⟨_, rfl⟩
    · split
      · exact .inr ⟨_, rfl⟩
      · exact .inl rfl
  rcases first with e | ⟨r, e⟩
  · rw [e, Call.step]
    split
    · rfl
    · split <;> rfl
  · rw [e]; rfl

/-- Two threads with the same text, both past their first look: both get it, the pool has it once. -/
example : (run ([], begin [(.new, c!"alpha"), (.new, c!"alpha")]) [0, 1, 0, 1]).1 = [(c!"alpha", c!"alpha")] ∧
    (run ([], begin [(.new, c!"alpha"), (.new, c!"alpha")]) [0, 1, 0, 1]).2.map (fun e => resultOf e.2) =
      [some c!"alpha", some c!"alpha"] := by decide +kernel

end Rez.Props
