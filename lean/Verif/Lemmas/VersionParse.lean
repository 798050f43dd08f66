import Verif.Lemmas.Version
import Verif.Spec.Version
/-! Helper lemmas about version parsing. -/
namespace Rez
open Spec

/-! ### trim -/

theorem dropWhile_idem {α} (p : α → Bool) (l : List α) : (l.dropWhile p).dropWhile p = l.dropWhile p := by
  induction l with
  | nil => rfl
  | cons x xs ih =>
    simp only [List.dropWhile_cons]
    split
    · exact ih
    · rename_i h; simp [h]

theorem dropWhile_eq_self_of_head {α} {p : α → Bool} {l : List α} (h : ∀ x, l.head? = some x → p x = false) :
    l.dropWhile p = l := by
  cases l with
  | nil => rfl
  | cons x xs => simp [h x rfl]

theorem dropWhile_head {α} (p : α → Bool) (l : List α) : ∀ x, (l.dropWhile p).head? = some x → p x = false := by
  induction l with
  | nil => simp
  | cons y ys ih =>
    intro x hx
    simp only [List.dropWhile_cons] at hx
    split at hx
    · exact ih x hx
    · rename_i h; simp at hx; subst hx; simpa using h

/-- no white space at either end -/
def Trimmed (s : Str) : Prop :=
  (∀ c, s.head? = some c → isWs c = false) ∧ (∀ c, s.getLast? = some c → isWs c = false)

theorem trim_of_trimmed {s : Str} (h : Trimmed s) : trim s = s := by
  unfold trim trimEnd trimStart
  rw [dropWhile_eq_self_of_head h.1]
  rw [dropWhile_eq_self_of_head]
  · simp
  · intro c hc; rw [List.head?_reverse] at hc; exact h.2 c hc

theorem trimEnd_prefix (s : Str) : trimEnd s <+: s := by
  unfold trimEnd
  have : s.reverse.dropWhile isWs <:+ s.reverse := List.dropWhile_suffix _
  simpa using List.reverse_prefix.mpr this

theorem trimmed_trim (s : Str) : Trimmed (trim s) := by
  unfold trim
  constructor
  · intro c hc
    obtain ⟨t, ht⟩ := trimEnd_prefix (trimStart s)
    have : (trimStart s).head? = some c := by
      cases h : trimEnd (trimStart s) with
      | nil => rw [h] at hc; simp at hc
      | cons x xs => rw [h] at hc ht; rw [← ht]; simpa using hc
    exact dropWhile_head isWs s c this
  · intro c hc
    unfold trimEnd at hc
    rw [List.getLast?_reverse] at hc
    exact dropWhile_head isWs _ c hc

theorem trim_idem (s : Str) : trim (trim s) = trim s := trim_of_trimmed (trimmed_trim s)

/-! ### tokenRuns -/

/-- the text spelled by a run decomposition -/
def renderRuns (r : List (Str × Str)) : Str := (r.map (fun p => p.1 ++ p.2)).flatten

theorem tokenRuns_spec (s : Str) :
    (tokenRuns s).1 ++ renderRuns (tokenRuns s).2 = s ∧
    (tokenRuns s).1.all (fun c => !isTok c) = true ∧
    (∀ p ∈ (tokenRuns s).2, p.1 ≠ [] ∧ p.1.all isTok = true ∧ p.2.all (fun c => !isTok c) = true) := by
  induction s with
  | nil => simp [tokenRuns, renderRuns]
  | cons c cs ih =>
    obtain ⟨h1, h2, h3⟩ := ih
    unfold tokenRuns
    by_cases hc : isTok c
    · simp only [hc, if_true]
      cases hl : (tokenRuns cs).1 with
      | nil =>
        cases hr : (tokenRuns cs).2 with
        | nil =>
          rw [hl, hr] at h1
          simp only [renderRuns, List.map_nil, List.flatten_nil, List.append_nil] at h1
          subst h1
          simp [renderRuns, hc]
        | cons p rest =>
          obtain ⟨t, sep⟩ := p
          rw [hl, hr] at h1
          rw [hr] at h3
          refine ⟨?_, by simp, ?_⟩
          · simpa [renderRuns] using h1
          · intro p hp
            simp only [List.mem_cons] at hp
            rcases hp with rfl | hp
            · have := h3 (t, sep) (by simp)
              exact ⟨by simp, by simp [hc, this.2.1], this.2.2⟩
            · exact h3 p (by simp [hp])
      | cons l ls =>
        rw [hl] at h1 h2
        refine ⟨?_, by simp, ?_⟩
        · simpa [renderRuns] using h1
        · intro p hp
          simp only [List.mem_cons] at hp
          rcases hp with rfl | hp
          · exact ⟨by simp, by simp [hc], h2⟩
          · exact h3 p hp
    · simp only [hc]
      refine ⟨by simpa using h1, by simp [hc, h2], h3⟩

theorem tokenRuns_sep (s : Str) (hs : s.all (fun c => !isTok c) = true) (r : Str) :
    tokenRuns (s ++ r) = (s ++ (tokenRuns r).1, (tokenRuns r).2) := by
  induction s with
  | nil => rfl
  | cons c cs ih =>
    simp only [List.all_cons, Bool.and_eq_true, Bool.not_eq_true'] at hs
    simp [tokenRuns, hs.1, ih hs.2]

theorem tokenRuns_tok (t : Str) (hne : t ≠ []) (ht : t.all isTok = true) (r : Str)
    (hr : (tokenRuns r).1 ≠ [] ∨ r = []) :
    tokenRuns (t ++ r) = ([], (t, (tokenRuns r).1) :: (tokenRuns r).2) := by
  induction t with
  | nil => exact absurd rfl hne
  | cons c cs ih =>
    simp only [List.all_cons, Bool.and_eq_true] at ht
    cases cs with
    | nil =>
      rcases hr with hr | rfl
      · simp only [List.cons_append, List.nil_append, tokenRuns, ht.1, if_true]
        split
        · rename_i heq _; exact absurd heq hr
        · rfl
      · simp [tokenRuns, ht.1]
    | cons d ds =>
      rw [List.cons_append, tokenRuns, ih (by simp) ht.2]
      simp [ht.1]

/-! ### interleave -/

theorem sepChar {p : Str} (h : p = c!"." ∨ p = c!"-" ∨ p = c!"+") :
    ∃ c, p = [c] ∧ isTok c = false ∧ isWs c = false := by
  rcases h with rfl | rfl | rfl
  · exact ⟨'.', rfl, by decide, by decide⟩
  · exact ⟨'-', rfl, by decide, by decide⟩
  · exact ⟨'+', rfl, by decide, by decide⟩

theorem isTok_iff (c : Char) : isTok c = true ↔ isAlpha c = true ∨ isDigit c = true ∨ c = '_' := by
  simp [isTok, or_assoc]

theorem tokenRuns_interleave {ts seps : List Str} (hl : seps.length + 1 = ts.length)
    (hs : ∀ p ∈ seps, p = c!"." ∨ p = c!"-" ∨ p = c!"+")
    (ht : ∀ t ∈ ts, t ≠ [] ∧ t.all isTok = true) :
    tokenRuns (interleave ts seps) = ([], ts.zip (seps ++ [[]])) := by
  induction ts generalizing seps with
  | nil => simp at hl
  | cons t ts ih =>
    cases seps with
    | nil =>
      cases ts with
      | nil =>
        have := tokenRuns_tok t (ht t (by simp)).1 (ht t (by simp)).2 [] (Or.inr rfl)
        simpa [interleave, tokenRuns] using this
      | cons => simp at hl
    | cons p ps =>
      cases ts with
      | nil => simp at hl
      | cons t2 ts2 =>
        have hi := ih (seps := ps) (by simpa using hl) (fun q hq => hs q (by simp [hq]))
          (fun q hq => ht q (by simp [hq]))
        obtain ⟨c, rfl, hc, _⟩ := sepChar (hs p (by simp))
        have h2 : tokenRuns ([c] ++ interleave (t2 :: ts2) ps) =
            ([c], (t2 :: ts2).zip (ps ++ [[]])) := by
          rw [tokenRuns_sep [c] (by simp [hc]), hi]; simp
        have h3 := tokenRuns_tok t (ht t (by simp)).1 (ht t (by simp)).2
          ([c] ++ interleave (t2 :: ts2) ps) (Or.inl (by rw [h2]; simp))
        have h4 : interleave (t :: t2 :: ts2) ([c] :: ps) = t ++ ([c] ++ interleave (t2 :: ts2) ps) := by
          simp [interleave]
        rw [h4, h3, h2]
        simp

theorem tokenOk_iff (t : Str) (hne : t ≠ []) : tokenOk t = true ↔ TokenWf t := by
  simp only [tokenOk, Bool.and_eq_true, Bool.not_eq_true', Bool.or_eq_false_iff, beq_eq_false_iff_ne,
    List.all_eq_true]
  constructor
  · rintro ⟨⟨⟨h1, h2⟩, h3⟩, h4⟩
    refine ⟨hne, fun c hc => (isTok_iff c).mp (h1 c hc), h2.1, h2.2, ?_, h4⟩
    intro ha
    have : ¬ (t.length > 10) := by
      intro hlt
      have : t.all isAlpha = true := List.all_eq_true.mpr ha
      simp [this] at h3; omega
    omega
  · intro h
    refine ⟨⟨⟨fun c hc => (isTok_iff c).mpr (h.chars c hc), h.noUnderscoreStart, h.noUnderscoreEnd⟩, ?_⟩,
      h.notReserved⟩
    by_cases ha : t.all isAlpha = true
    · have := h.notLongWord (List.all_eq_true.mp ha)
      simp [ha]; omega
    · simp only [Bool.not_eq_true] at ha; simp [ha]

theorem containsDots_of_ne (c : Char) (cs : Str) (h : c ≠ '.') :
    containsStr (c :: cs) c!".." = containsStr cs c!".." := by
  simp [containsStr, List.isPrefixOf, Ne.symm h]

theorem containsDots_of_head (c : Char) (cs : Str) (h : cs.head? ≠ some '.') :
    containsStr (c :: cs) c!".." = containsStr cs c!".." := by
  rw [containsStr]
  cases cs with
  | nil => simp [List.isPrefixOf]
  | cons d ds =>
    have hd : d ≠ '.' := by simpa using h
    simp [List.isPrefixOf, Ne.symm hd]

theorem dot_not_tok : isTok '.' = false := by decide

theorem containsDots_tok (t r : Str) (ht : t.all isTok = true) :
    containsStr (t ++ r) c!".." = containsStr r c!".." := by
  induction t with
  | nil => rfl
  | cons c cs ih =>
    simp only [List.all_cons, Bool.and_eq_true] at ht
    rw [List.cons_append, containsDots_of_ne, ih ht.2]
    rintro rfl; rw [dot_not_tok] at ht; simp at ht

theorem head_interleave {ts seps : List Str} (ht : ∀ t ∈ ts, t ≠ [] ∧ t.all isTok = true) :
    ∀ c, (interleave ts seps).head? = some c → isTok c = true := by
  intro c hc
  cases ts with
  | nil => simp [interleave] at hc
  | cons t ts =>
    have h := ht t (by simp)
    have hh : (interleave (t :: ts) seps).head? = t.head? := by
      obtain ⟨x, xs, rfl⟩ := List.exists_cons_of_ne_nil h.1
      cases ts <;> cases seps <;> simp [interleave]
    rw [hh] at hc
    obtain ⟨x, xs, rfl⟩ := List.exists_cons_of_ne_nil h.1
    simp only [List.head?_cons, Option.some.injEq] at hc
    subst hc
    simp only [List.all_cons, Bool.and_eq_true] at h
    exact h.2.1

theorem last_interleave {ts seps : List Str} (ht : ∀ t ∈ ts, t ≠ [] ∧ t.all isTok = true) :
    ∀ c, (interleave ts seps).getLast? = some c → isTok c = true := by
  induction ts generalizing seps with
  | nil => simp [interleave]
  | cons t ts ih =>
    intro c hc
    have htt := ht t (by simp)
    have hlast : t.getLast? = some c → isTok c = true := by
      intro h
      exact List.all_eq_true.mp htt.2 c (List.mem_of_getLast? h)
    have htail : ∀ q ∈ ts, q ≠ [] ∧ q.all isTok = true := fun q hq => ht q (by simp [hq])
    cases ts with
    | nil => exact hlast (by simpa [interleave] using hc)
    | cons t2 ts2 =>
      have hne : ∀ sp, interleave (t2 :: ts2) sp ≠ [] := by
        intro sp
        have := (htail t2 (by simp)).1
        cases ts2 <;> cases sp <;> simp [interleave, this]
      have hgl : ∀ sp, ∃ x, (interleave (t2 :: ts2) sp).getLast? = some x := by
        intro sp; rw [List.getLast?_eq_some_getLast (hne sp)]; exact ⟨_, rfl⟩
      cases seps with
      | nil =>
        obtain ⟨x, hx⟩ := hgl []
        simp only [interleave, List.getLast?_append, hx, Option.some_or] at hc
        exact ih htail c (by rw [hx]; exact hc)
      | cons p ps =>
        obtain ⟨x, hx⟩ := hgl ps
        simp only [interleave, List.getLast?_append, hx, Option.some_or] at hc
        exact ih htail c (by rw [hx]; exact hc)

theorem noDots_interleave {ts seps : List Str}
    (hs : ∀ p ∈ seps, p = c!"." ∨ p = c!"-" ∨ p = c!"+")
    (ht : ∀ t ∈ ts, t ≠ [] ∧ t.all isTok = true) :
    containsStr (interleave ts seps) c!".." = false := by
  induction ts generalizing seps with
  | nil => simp [interleave, containsStr]
  | cons t ts ih =>
    have htt := ht t (by simp)
    have htail : ∀ q ∈ ts, q ≠ [] ∧ q.all isTok = true := fun q hq => ht q (by simp [hq])
    cases ts with
    | nil =>
      have : containsStr (t ++ []) c!".." = containsStr [] c!".." := containsDots_tok t [] htt.2
      simpa [interleave, containsStr] using this
    | cons t2 ts2 =>
      cases seps with
      | nil => simp only [interleave]; rw [containsDots_tok t _ htt.2]; exact ih (by simp) htail
      | cons p ps =>
        obtain ⟨c, rfl, _, _⟩ := sepChar (hs p (by simp))
        simp only [interleave, List.append_assoc]
        rw [containsDots_tok t _ htt.2]
        rw [List.cons_append, List.nil_append, containsDots_of_head]
        · exact ih (fun q hq => hs q (by simp [hq])) htail
        · intro h
          have := head_interleave htail '.' h
          rw [dot_not_tok] at this; simp at this

theorem zip_snd_dropLast {ts seps : List Str} (hl : seps.length + 1 = ts.length) :
    (ts.zip (seps ++ [[]])).map Prod.fst = ts ∧
    ((ts.zip (seps ++ [[]])).map Prod.snd) = seps ++ [[]] := by
  constructor
  · rw [List.map_fst_zip]; simp; omega
  · rw [List.map_snd_zip]; simp; omega

theorem parseInternal_of_spells {s : Str} {ts seps : List Str} (h : Spells s ts seps) :
    parseInternal s = some (ts, seps) := by
  have ht : ∀ t ∈ ts, t ≠ [] ∧ t.all isTok = true := fun t htm =>
    ⟨(h.tokens t htm).nonempty, List.all_eq_true.mpr fun c hc => (isTok_iff c).mpr ((h.tokens t htm).chars c hc)⟩
  have hr := tokenRuns_interleave h.oneSepBetween h.separators ht
  have hd := noDots_interleave h.separators ht
  have hz := zip_snd_dropLast h.oneSepBetween
  rw [← h.spelling] at hr hd
  have hhead : s.head? ≠ some '.' := by
    intro hh
    have := head_interleave (seps := seps) ht '.' (by rw [← h.spelling]; exact hh)
    rw [dot_not_tok] at this; simp at this
  have hlast : s.getLast? ≠ some '.' := by
    intro hh
    have := last_interleave (seps := seps) ht '.' (by rw [← h.spelling]; exact hh)
    rw [dot_not_tok] at this; simp at this
  unfold parseInternal
  rw [if_neg (by simp [h.noVPrefix]), if_neg (by simp [hd, hhead, hlast])]
  simp only [hr, hz]
  have hne : ts.isEmpty = false := by
    cases ts with
    | nil => have := h.oneSepBetween; simp at this
    | cons => rfl
  have h5 := h.atMostFiveNumeric
  have h10 := h.atMostTen
  rw [if_neg (by simp [hne]), if_neg (by omega), if_neg (by omega)]
  rw [if_neg (by simp [List.getLast?_cons])]
  have hsep : seps.all sepOk = true := by
    rw [List.all_eq_true]; intro p hp
    rcases h.separators p hp with rfl | rfl | rfl <;> decide
  have htok : ts.all tokenOk = true := by
    rw [List.all_eq_true]; intro t htm
    exact (tokenOk_iff t (ht t htm).1).mpr (h.tokens t htm)
  simp [hsep, htok]

theorem renderRuns_interleave (r : List (Str × Str)) (hlast : (r.map Prod.snd).getLast? = some []) :
    renderRuns r = interleave (r.map Prod.fst) (r.map Prod.snd).dropLast := by
  induction r with
  | nil => rfl
  | cons p ps ih =>
    cases ps with
    | nil =>
      simp at hlast
      simp [renderRuns, interleave, hlast]
    | cons q qs =>
      have := ih (by simpa [List.getLast?_cons_cons] using hlast)
      simp only [renderRuns, List.map_cons, List.flatten_cons] at this ⊢
      rw [this]
      simp [interleave]

theorem spells_of_parseInternal {s : Str} {ts seps : List Str} (h : parseInternal s = some (ts, seps)) :
    Spells s ts seps := by
  unfold parseInternal at h
  obtain ⟨hr1, hr2, hr3⟩ := tokenRuns_spec s
  split at h
  · simp at h
  rename_i hv
  split at h
  · simp at h
  dsimp only at h
  split at h
  · simp at h
  rename_i hne
  split at h
  · simp at h
  rename_i h5
  split at h
  · simp at h
  rename_i h10
  split at h
  · simp at h
  rename_i hlead
  split at h
  · simp at h
  rename_i hsep
  split at h
  · simp at h
  rename_i htok
  simp only [Option.some.injEq, Prod.mk.injEq] at h
  obtain ⟨rfl, rfl⟩ := h
  simp only [Bool.or_eq_true, not_or, Bool.not_eq_true, Bool.not_eq_false', List.isEmpty_iff, bne_eq_false_iff_eq] at hlead
  rw [hlead.1] at hr1 hlead
  have hrne : (tokenRuns s).2 ≠ [] := by
    intro hh; rw [hh] at hne; simp at hne
  have hlast : ((tokenRuns s).2.map Prod.snd).getLast? = some [] := by
    have := hlead.2
    obtain ⟨p, ps, hp⟩ := List.exists_cons_of_ne_nil hrne
    rw [hp] at this ⊢
    simpa [List.getLast?_cons_cons] using this
  simp only [Bool.not_eq_true, Bool.not_eq_false', List.all_eq_true] at hsep htok
  refine ⟨?_, ?_, by omega, by omega, ?_, ?_, ?_⟩
  · rw [← renderRuns_interleave _ hlast]; simpa using hr1.symm
  · have : (tokenRuns s).2.length ≠ 0 := by simpa using hrne
    simp; omega
  · intro p hp
    have hp' := hsep p hp
    have hmem : p ∈ (tokenRuns s).2.map Prod.snd := (List.dropLast_sublist _).subset hp
    obtain ⟨q, hq, rfl⟩ := List.mem_map.mp hmem
    have h3 := (hr3 q hq).2.2
    simp only [sepOk, Bool.or_eq_true, beq_iff_eq] at hp'
    rcases hp' with ((h | h) | h) | h
    · exact Or.inl h
    · exact Or.inr (Or.inl h)
    · rw [h] at h3; simp [isTok] at h3
    · exact Or.inr (Or.inr h)
  · intro t ht
    have := htok t ht
    obtain ⟨q, hq, rfl⟩ := List.mem_map.mp ht
    exact (tokenOk_iff _ (hr3 q hq).1).mp this
  · simpa using hv

theorem parseInternal_iff (s : Str) (ts seps : List Str) :
    parseInternal s = some (ts, seps) ↔ Spells s ts seps :=
  ⟨spells_of_parseInternal, parseInternal_of_spells⟩

namespace Version

theorem parse_cases {s : Str} {v : Version} (h : parse s = some v) :
    (v = empty ∧ (trim s = [] ∨ trim s = c!"epsilon")) ∨ (v = inf ∧ trim s = c!"inf") ∨
    (Spells (trim s) v.tokens v.separators ∧ v.repr = trim s ∧ trim s ≠ [] ∧ trim s ≠ c!"inf" ∧
      trim s ≠ c!"epsilon") := by
  unfold parse at h
  dsimp only at h
  split at h
  · rename_i he; left; simp at h he; exact ⟨h.symm, Or.inl he⟩
  rename_i h1
  split at h
  · rename_i he; right; left; simp at h he; exact ⟨h.symm, he⟩
  rename_i h2
  split at h
  · rename_i he; left; simp at h he; exact ⟨h.symm, Or.inr he⟩
  rename_i h3
  split at h
  · simp at h
  · rename_i ts seps heq
    simp only [Option.some.injEq] at h
    subst h
    right; right
    simp only [List.isEmpty_iff, beq_iff_eq] at h1 h2 h3
    exact ⟨spells_of_parseInternal heq, rfl, h1, h2, h3⟩

theorem parse_of_spells {s : Str} {ts seps : List Str} (h : Spells (trim s) ts seps)
    (h2 : trim s ≠ c!"inf") (h3 : trim s ≠ c!"epsilon") : parse s = some ⟨ts, seps, trim s⟩ := by
  have h1 : trim s ≠ [] := by
    intro he
    have ht : ∀ t ∈ ts, t ≠ [] := fun t htm => (h.tokens t htm).nonempty
    have hl := h.oneSepBetween
    have hsp := h.spelling
    rw [he] at hsp
    cases ts with
    | nil => simp at hl
    | cons t ts =>
      have := ht t (by simp)
      cases ts <;> cases seps <;> simp [interleave] at hsp <;> simp_all
  unfold parse
  simp [h1, h2, h3, parseInternal_of_spells h]

end Version
end Rez
