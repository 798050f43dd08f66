import Verif.Spec.Bind
import Verif.Lemmas.Words
import Verif.Lemmas.Text
import Verif.Lemmas.RequirementParse
import Mathlib.Data.List.TakeWhile
/-!
# C178, C181: the versions of tools
-/
namespace Rez.Props
open Rez Rez.Files Rez.Bind Rez.Bind.Spec

namespace BindLemmas

theorem tok_iff (c : Char) : isTok c = true ↔ InWord c := by
  unfold isTok InWord
  simp [or_assoc]

theorem digit_tok {c : Char} (h : isDigit c = true) : isTok c = true := by simp [isTok, h]

theorem point_tok : isTok '.' = false := by decide

theorem point_digit : isDigit '.' = false := by decide

theorem takeWhile_run {p : Char → Bool} {d r : Str} (hd : ∀ c ∈ d, p c = true) (hr : ∀ c, r.head? = some c → p c = false) :
    (d ++ r).takeWhile p = d ∧ (d ++ r).dropWhile p = r := by
  induction d with
  | nil =>
    cases r with
    | nil => exact ⟨rfl, rfl⟩
    | cons c r =>
      have := hr c rfl
      simp [this]
  | cons c d ih =>
    have hc := hd c List.mem_cons_self
    obtain ⟨h1, h2⟩ := ih fun x hx => hd x (List.mem_cons_of_mem _ hx)
    simp [hc, h1, h2]

/-- Text of numbers, each after a point. -/
def pointed (l : List Str) : Str := l.flatMap fun d => '.' :: d

theorem join_pointed (d : Str) (l : List Str) : joinWith c!"." (d :: l) = d ++ pointed l := by
  induction l generalizing d with
  | nil => simp [joinWith, pointed]
  | cons e l ih =>
    rw [show joinWith c!"." (d :: e :: l) = d ++ c!"." ++ joinWith c!"." (e :: l) from rfl, ih]
    simp [pointed]

theorem groups_run (l : List Str) : ∀ (n : Nat) (r : Str), l.length ≤ n → (∀ d ∈ l, Number d) →
    (∀ c, r.head? = some c → isDigit c = false) → (∀ c t, r = '.' :: c :: t → isDigit c = false) →
    groups n (pointed l ++ r) = (l, r) := by
  induction l with
  | nil =>
    intro n r _ _ _ h2
    cases n with
    | zero => rfl
    | succ n =>
      rw [show pointed [] ++ r = r from rfl]
      unfold groups
      split
      · rename_i t _
        rw [if_pos]
        cases t with
        | nil => rfl
        | cons c t => simp [h2 c t rfl]
      · rfl
  | cons d l ih =>
    intro n r hn hl h1 h2
    cases n with
    | zero => simp at hn
    | succ n =>
      have hd := hl d List.mem_cons_self
      have he : pointed (d :: l) ++ r = '.' :: (d ++ (pointed l ++ r)) := by simp [pointed]
      have hh : ∀ c, (pointed l ++ r).head? = some c → isDigit c = false := by
        intro c hc
        cases l with
        | nil => exact h1 c (by simpa [pointed] using hc)
        | cons e l => simp [pointed] at hc; subst hc; exact point_digit
      obtain ⟨e1, e2⟩ := takeWhile_run hd.2 hh
      rw [he]
      unfold groups
      simp only [e1, e2]
      rw [if_neg (by simpa using hd.1), ih n r (by simp at hn; omega) (fun x hx => hl x (List.mem_cons_of_mem _ hx)) h1 h2]

/-- What `groups` finds is there. -/
theorem groups_sound : ∀ (n : Nat) (s : Str), (∀ d ∈ (groups n s).1, Number d) ∧ s = pointed (groups n s).1 ++ (groups n s).2 := by
  intro n
  induction n with
  | zero => intro s; simp [groups, pointed]
  | succ n ih =>
    intro s
    unfold groups
    split
    · rename_i t
      split
      · simp [pointed]
      · rename_i ht
        obtain ⟨h1, h2⟩ := ih (t.dropWhile isDigit)
        dsimp only
        refine ⟨?_, ?_⟩
        · intro d hd
          rcases List.mem_cons.1 hd with rfl | hd
          · refine ⟨by simpa using ht, fun c hc => ?_⟩
            exact List.all_eq_true.1 (List.all_takeWhile (l := t) (p := isDigit)) c hc
          · exact h1 d hd
        · have : t = t.takeWhile isDigit ++ (pointed (groups n (t.dropWhile isDigit)).1 ++ (groups n (t.dropWhile isDigit)).2) := by
            rw [← h2, List.takeWhile_append_dropWhile]
          conv_lhs => rw [this]
          simp [pointed]
    · simp [pointed]

theorem pointed_length (l : List Str) : l.length ≤ (pointed l).length := by
  induction l with
  | nil => simp
  | cons d l ih => simp [pointed] at ih ⊢; omega

theorem pointed_append (a b : List Str) : pointed (a ++ b) = pointed a ++ pointed b := by simp [pointed]

theorem matchAt_sound {s v : Str} (h : matchAt s = some v) : Dotted v ∧ ∃ r, s = v ++ r := by
  unfold matchAt at h
  dsimp only at h
  obtain ⟨h1, h2⟩ := groups_sound s.length (s.dropWhile isDigit)
  generalize hg : groups s.length (s.dropWhile isDigit) = g at h h1 h2
  have hs : s = s.takeWhile isDigit ++ (pointed g.1 ++ g.2) := by rw [← h2, List.takeWhile_append_dropWhile]
  have hsub : ∃ b, g.1 = (if g.2.head?.any isTok = true then g.1.dropLast else g.1) ++ b := by
    split
    · exact List.dropLast_prefix g.1 |>.imp fun b h => h.symm
    · exact ⟨[], by simp⟩
  obtain ⟨b, hb⟩ := hsub
  generalize (if g.2.head?.any isTok = true then g.1.dropLast else g.1) = l at h hb
  by_cases hc : ((s.takeWhile isDigit).isEmpty || l.isEmpty) = true
  · rw [if_pos hc] at h; cases h
  · rw [if_neg hc] at h
    simp only [Bool.or_eq_true, List.isEmpty_iff, not_or] at hc
    simp only [Option.some.injEq] at h
    have hd : Number (s.takeWhile isDigit) :=
      ⟨hc.1, fun c hc => List.all_eq_true.1 (List.all_takeWhile (l := s) (p := isDigit)) c hc⟩
    refine ⟨⟨s.takeWhile isDigit :: l, ?_, ?_, h.symm⟩, ?_⟩
    · have := List.length_pos_iff.2 hc.2
      simp; omega
    · intro d hd'
      rcases List.mem_cons.1 hd' with rfl | hd'
      · exact hd
      · exact h1 d (by rw [hb]; simp [hd'])
    · refine ⟨pointed b ++ g.2, ?_⟩
      rw [← h, join_pointed]
      conv_lhs => rw [hs, hb, pointed_append]
      simp

theorem semver_sound {s v : Str} : ∀ {w : Bool}, semver w s = some v → Dotted v ∧ ∃ pre post, s = pre ++ v ++ post := by
  induction s with
  | nil => intro w h; cases h
  | cons c s ih =>
    intro w h
    unfold semver at h
    split at h
    · rename_i u hu
      cases h
      split at hu
      · obtain ⟨h1, r, h2⟩ := matchAt_sound hu
        exact ⟨h1, [], r, by simpa using h2⟩
      · cases hu
    · obtain ⟨h1, pre, post, h2⟩ := ih h
      exact ⟨h1, c :: pre, post, by rw [h2]; rfl⟩

/-- In front of a number with a point there is a digit, a point and a digit. -/
theorem dotted_window {v : Str} (h : Dotted v) : ∃ a c d b, v = a ++ c :: '.' :: d :: b ∧ isDigit c = true ∧ isDigit d = true := by
  obtain ⟨l, h1, h2, rfl⟩ := h
  match l, h1 with
  | x :: y :: l, _ =>
    rw [join_pointed]
    have hx := h2 x (by simp)
    have hy := h2 y (by simp)
    obtain ⟨c, hc⟩ : ∃ c, x.getLast? = some c := by
      cases h : x.getLast? with
      | none => exact absurd (List.getLast?_eq_none_iff.1 h) hx.1
      | some c => exact ⟨c, rfl⟩
    obtain ⟨x', rfl⟩ := List.getLast?_eq_some_iff.1 hc
    cases y with
    | nil => exact absurd rfl hy.1
    | cons d y =>
      exact ⟨x', c, d, y ++ pointed l, by simp [pointed], hx.2 c (by simp), hy.2 d (by simp)⟩

theorem matchAt_run {v post : Str} (hv : Dotted v) (hp : ∀ c, post.head? = some c → ¬ InWord c)
    (hq : ∀ c t, post = '.' :: c :: t → isDigit c = false) : matchAt (v ++ post) = some v := by
  obtain ⟨l, h1, h2, rfl⟩ := hv
  cases l with
  | nil => simp at h1
  | cons d l =>
    have hd := h2 d List.mem_cons_self
    have hdig : ∀ c, post.head? = some c → isDigit c = false := by
      intro c hc
      cases hk : isDigit c with
      | false => rfl
      | true => exact absurd (Or.inr (Or.inl hk)) (hp c hc)
    have hh : ∀ c, (pointed l ++ post).head? = some c → isDigit c = false := by
      intro c hc
      cases l with
      | nil => simp at h1
      | cons e l => simp [pointed] at hc; subst hc; exact point_digit
    rw [join_pointed, List.append_assoc]
    obtain ⟨e1, e2⟩ := takeWhile_run hd.2 hh
    unfold matchAt
    dsimp only
    rw [e1, e2, groups_run l _ post (by have := pointed_length l; simp; omega) (fun x hx => h2 x (by simp [hx])) hdig hq]
    dsimp only
    have ht : post.head?.any isTok = false := by
      cases hc : post.head? with
      | none => rfl
      | some c =>
        have := hp c hc
        rw [← tok_iff] at this
        simpa using this
    have hl : l ≠ [] := by
      rintro rfl
      simp at h1
    have hc : ¬ ((d.isEmpty || l.isEmpty) = true) := by
      simp only [Bool.or_eq_true, List.isEmpty_iff, not_or]
      exact ⟨hd.1, hl⟩
    rw [ht]
    simp only [Bool.false_eq_true, if_false]
    rw [if_neg hc, join_pointed]

theorem semver_skip (pre : Str) : ∀ (w : Bool) (x : Char) (r : Str), isDigit x = true → Undotted (pre ++ [x]) →
    (∀ c, pre.getLast? = some c → isTok c = false) → semver w (pre ++ x :: r) = semver (pre.getLast?.elim w isTok) (x :: r) := by
  induction pre with
  | nil => intro w x r _ _ _; rfl
  | cons c pre ih =>
    intro w x r hx h hlast
    have hu : Undotted (pre ++ [x]) := by
      intro a b c' d e
      exact h (c :: a) b c' d (by rw [List.cons_append, e]; rfl)
    rw [List.cons_append]
    unfold semver
    have hn : (if (!w && isDigit c) = true then matchAt (c :: (pre ++ x :: r)) else none) = none := by
      split
      · cases hm : matchAt (c :: (pre ++ x :: r)) with
        | none => rfl
        | some v =>
          exfalso
          obtain ⟨hv, t, ht⟩ := matchAt_sound hm
          obtain ⟨l, h1, h2, rfl⟩ := hv
          match l, h1 with
          | p :: q :: l, _ =>
            rw [join_pointed] at ht
            have hp := h2 p (by simp)
            have hq := h2 q (by simp)
            -- the digits of `p` are all in front of the point, and so in `pre`, unless `x` is one of them
            obtain ⟨p', y, rfl⟩ : ∃ p' y, p = p' ++ [y] := by
              refine ⟨p.dropLast, p.getLast hp.1, (List.dropLast_append_getLast hp.1).symm⟩
            cases q with
            | nil => exact hq.1 rfl
            | cons z q =>
              have hz := hq.2 z (by simp)
              have hy := hp.2 y (by simp)
              have ht' : c :: (pre ++ x :: r) = p' ++ y :: '.' :: z :: (q ++ pointed l ++ t) := by
                rw [ht]; simp [pointed]
              have ht2 : (c :: pre) ++ (x :: r) = (p' ++ [y]) ++ ('.' :: z :: (q ++ pointed l ++ t)) := by
                rw [List.cons_append, ht']; simp
              rcases List.append_eq_append_iff.1 ht2 with ⟨u, hu1, hu2⟩ | ⟨u, hu1, hu2⟩
              · have hne : (c :: pre).getLast? = some ((c :: pre).getLast (by simp)) := List.getLast?_eq_some_getLast (by simp)
                have hmem : (c :: pre).getLast (by simp) ∈ p' ++ [y] := by
                  rw [hu1]; exact List.mem_append_left _ (List.getLast_mem _)
                have := hlast _ hne
                rw [digit_tok (hp.2 _ hmem)] at this
                cases this
              · cases u with
                | nil =>
                  simp only [List.append_nil] at hu1
                  have hne : (c :: pre).getLast? = some y := by rw [hu1]; simp
                  have := hlast _ hne
                  rw [digit_tok hy] at this
                  cases this
                | cons u0 u =>
                  simp only [List.cons_append, List.cons.injEq] at hu2
                  obtain ⟨rfl, hu2⟩ := hu2
                  cases u with
                  | nil =>
                    simp only [List.nil_append, List.cons.injEq] at hu2
                    obtain ⟨rfl, -⟩ := hu2
                    exact h p' [] y z (by rw [hu1]; simp) ⟨hy, hz⟩
                  | cons u1 u =>
                    simp only [List.cons_append, List.cons.injEq] at hu2
                    obtain ⟨rfl, -⟩ := hu2
                    exact h p' (u ++ [x]) y z (by rw [hu1]; simp) ⟨hy, hz⟩
      · rfl
    rw [hn]
    dsimp only
    have hl' : ∀ d, pre.getLast? = some d → isTok d = false := by
      intro d hd
      refine hlast d ?_
      cases pre with
      | nil => cases hd
      | cons e pre => rw [List.getLast?_cons_cons]; exact hd
    rw [ih _ x r hx hu hl']
    cases pre with
    | nil => rfl
    | cons d pre =>
      rw [List.getLast?_cons_cons]
      have hs : (d :: pre).getLast? = some ((d :: pre).getLast (by simp)) := List.getLast?_eq_some_getLast (by simp)
      rw [hs]
      rfl


theorem undotted_none {s : Str} (h : Undotted s) (w : Bool) : semver w s = none := by
  cases hs : semver w s with
  | none => rfl
  | some v =>
    obtain ⟨hv, pre, post, rfl⟩ := semver_sound hs
    obtain ⟨a, c, d, b, rfl, hc, hd⟩ := dotted_window hv
    exact absurd ⟨hc, hd⟩ (h (pre ++ a) (b ++ post) c d (by simp))

/-- Every character that is no white space is in a word, and every word is in the text. -/
theorem words_mem (s : Str) (c : Char) (hc : isWs c = false) : c ∈ s ↔ ∃ t ∈ splitWs s, c ∈ t := by
  induction s with
  | nil => simp [splitWs]
  | cons d s ih =>
    unfold splitWs
    by_cases hd : isWs d = true
    · rw [if_pos hd, ← ih]
      simp only [List.mem_cons]
      refine ⟨fun h => h.resolve_left ?_, Or.inr⟩
      rintro rfl
      rw [hc] at hd; cases hd
    · rw [if_neg hd]
      cases s with
      | nil => simp [splitWs]
      | cons e s =>
        dsimp only
        split
        · simp only [List.mem_cons, exists_eq_or_imp] at ih ⊢
          rw [ih]
          simp
        · cases hw : splitWs (e :: s) with
          | nil =>
            rw [hw] at ih
            rw [List.mem_cons, ih]
            simp
          | cons x l =>
            rw [hw] at ih
            rw [List.mem_cons, ih]
            simp [or_assoc]

theorem digit_not_ws {c : Char} (h : isDigit c = true) : isWs c = false := by
  unfold isDigit at h
  simp only [Bool.and_eq_true, decide_eq_true_eq] at h
  cases hw : isWs c with
  | false => rfl
  | true =>
    exfalso
    unfold isWs at hw
    simp at hw
    omega

theorem dropWhile_split (p : Char → Bool) (s : Str) : ∃ a, s = a ++ s.dropWhile p ∧ ∀ c ∈ a, p c = true :=
  ⟨s.takeWhile p, List.takeWhile_append_dropWhile.symm, fun c hc => List.all_eq_true.1 (List.all_takeWhile (l := s) (p := p)) c hc⟩

theorem strip_split (p : Char → Bool) (s : Str) : ∃ a b, s = a ++ strip p s ++ b ∧ (∀ c ∈ a ++ b, p c = true) ∧
    (∀ c, (strip p s).getLast? = some c → p c = false) ∧ ∀ c, (strip p s).head? = some c → p c = false := by
  obtain ⟨a, ha, hp⟩ := dropWhile_split p s
  obtain ⟨b, hb, hq⟩ := dropWhile_split p (s.dropWhile p).reverse
  have hb' : s.dropWhile p = strip p s ++ b.reverse := by
    have := congrArg List.reverse hb
    simpa [strip] using this
  have hlast : ∀ c, (strip p s).getLast? = some c → p c = false := by
    intro c hc
    unfold strip at hc
    rw [List.getLast?_reverse] at hc
    cases hl : (s.dropWhile p).reverse.dropWhile p with
    | nil => rw [hl] at hc; cases hc
    | cons x l =>
      rw [hl] at hc
      cases hc
      have := List.head_dropWhile_not (p := p) (l := (s.dropWhile p).reverse) (by rw [hl]; simp)
      simpa [hl] using this
  refine ⟨a, b.reverse, by rw [List.append_assoc, ← hb', ← ha], ?_, hlast, ?_⟩
  · intro c hc
    rcases List.mem_append.1 hc with h | h
    · exact hp c h
    · exact hq c (by simpa using h)
  · intro c hc
    have hc' : (s.dropWhile p).head? = some c := by
      rw [hb']
      cases h : strip p s with
      | nil => rw [h] at hc; cases hc
      | cons x l => rw [h] at hc; exact hc
    cases hl : s.dropWhile p with
    | nil => rw [hl] at hc'; cases hc'
    | cons x l =>
      rw [hl] at hc'
      cases hc'
      have := List.head_dropWhile_not (p := p) (l := s) (by rw [hl]; simp)
      simpa [hl] using this

end BindLemmas
open BindLemmas

/-! ## C178: the version that a tool prints -/

/-- **C178**: numbers with points between them that stand alone — no letter, digit or `_` before or after them and no more
numbers that belong to them — are the version, if nothing before them has a point between two digits. -/
theorem C178_found (pre v post : Str) (hv : Dotted v) (hpre : ∀ c, pre.getLast? = some c → ¬ InWord c)
    (hpost : ∀ c, post.head? = some c → ¬ InWord c) (hmore : ∀ c t, post = '.' :: c :: t → isDigit c = false)
    (hfirst : Undotted (pre ++ v.take 1)) : extract (pre ++ v ++ post) = some v := by
  have hm := matchAt_run hv hpost hmore
  obtain ⟨x, r, hx, hd⟩ : ∃ x r, v = x :: r ∧ isDigit x = true := by
    obtain ⟨l, h1, h2, rfl⟩ := hv
    match l, h1 with
    | p :: q :: l, _ =>
      have hp := h2 p (by simp)
      cases p with
      | nil => exact absurd rfl hp.1
      | cons x p => exact ⟨x, p ++ pointed (q :: l), by rw [join_pointed]; rfl, hp.2 x (by simp)⟩
  have hlast : ∀ c, pre.getLast? = some c → isTok c = false := by
    intro c hc
    have := hpre c hc
    rw [← tok_iff] at this
    simpa using this
  subst hx
  unfold extract
  rw [List.append_assoc, List.cons_append, semver_skip pre false x (r ++ post) hd (by simpa using hfirst) hlast]
  have he : pre.getLast?.elim false isTok = false := by
    cases h : pre.getLast? with
    | none => rfl
    | some c => exact hlast c h
  rw [he]
  unfold semver
  rw [List.cons_append] at hm
  rw [hd, hm]
  rfl

/-- A version is found in the outputs of Python, Git and Java. -/
example : Dotted c!"3.11.4" ∧ extract c!"Python 3.11.4" = some c!"3.11.4" ∧
    extract c!"git version 2.42.0.windows.1" = some c!"2.42.0" ∧
    extract c!"openjdk 17.0.8 2023-07-18\nOpenJDK 64-Bit Server" = some c!"17.0.8" :=
  ⟨⟨[c!"3", c!"11", c!"4"], by decide, by
    intro d hd
    simp only [List.mem_cons, List.not_mem_nil, or_false] at hd
    rcases hd with rfl | rfl | rfl <;> exact ⟨by decide, by decide⟩, rfl⟩, by decide +kernel, by decide +kernel, by decide +kernel⟩

/-- **C178**: whatever is taken as the version is part of the output: numbers with points between them, or, if the output has
no point between two digits, the first word with a digit, without what is neither letter, digit nor point at its ends. -/
theorem C178_part (s v : Str) (h : extract s = some v) :
    (Dotted v ∧ ∃ pre post, s = pre ++ v ++ post) ∨
    ∃ l t r a b, splitWs s = l ++ t :: r ∧ (∀ u ∈ l, ∀ c ∈ u, isDigit c = false) ∧ (∃ c ∈ t, isDigit c = true) ∧ t = a ++ v ++ b ∧
      (∀ c ∈ a ++ b, isAlpha c = false ∧ isDigit c = false ∧ c ≠ '.') := by
  unfold extract at h
  cases hs : semver false s with
  | some u =>
    rw [hs] at h
    cases h
    exact Or.inl (semver_sound hs)
  | none =>
    rw [hs] at h
    right
    rw [Option.none_or, Option.map_eq_some_iff] at h
    obtain ⟨t, ht, rfl⟩ := h
    obtain ⟨hd, l, r, hl, hn⟩ := List.find?_eq_some_iff_append.1 ht
    obtain ⟨a, b, hab, hodd, -⟩ := strip_split odd t
    refine ⟨l, t, r, a, b, hl, ?_, by simpa using hd, hab, ?_⟩
    · intro u hu c hc
      have := hn u hu
      simp only [Bool.not_eq_true', List.any_eq_false, Bool.not_eq_true] at this
      exact this c hc
    · intro c hc
      have := hodd c hc
      simpa [odd, and_assoc] using this

/-- **C178**: a version is found if and only if the output has a digit. -/
theorem C178_none (s : Str) : extract s = none ↔ ∀ c ∈ s, isDigit c = false := by
  unfold extract
  rw [Option.or_eq_none_iff, Option.map_eq_none_iff, List.find?_eq_none]
  constructor
  · rintro ⟨-, h⟩ c hc
    cases hd : isDigit c with
    | false => rfl
    | true =>
      obtain ⟨t, ht, hct⟩ := (words_mem s c (digit_not_ws hd)).1 hc
      exact absurd (List.any_eq_true.2 ⟨c, hct, hd⟩) (h t ht)
  · intro h
    refine ⟨undotted_none ?_ false, ?_⟩
    · rintro a b c d rfl ⟨hc, -⟩
      rw [h c (by simp)] at hc; cases hc
    · intro t ht hd
      obtain ⟨c, hc, hcd⟩ := List.any_eq_true.1 hd
      rw [h c ((words_mem s c (digit_not_ws hcd)).2 ⟨t, ht, hc⟩)] at hcd
      cases hcd

/-- **C178**: the output is that of the first of `--version`, `-version`, `-V` and `version` with which the program starts and
prints more than white space. -/
theorem C178_flags (w : World) (exe : Str) (f : Str) (a : Bind.Answer) (l r : List Str)
    (hf : [c!"--version", c!"-version", c!"-V", c!"version"] = l ++ f :: r) (ha : w.run exe [f] = some a) (hne : trim (a.out ++ a.err) ≠ [])
    (hl : ∀ g ∈ l, ∀ b, w.run exe [g] = some b → trim (b.out ++ b.err) = []) : rawVersion w exe = trim (a.out ++ a.err) := by
  unfold rawVersion flags
  rw [hf, List.filterMap_append, List.find?_append]
  have h0 : (List.find? (fun t => !t.isEmpty) (l.filterMap fun f => (w.run exe [f]).map fun a => trim (a.out ++ a.err))) = none := by
    rw [List.find?_eq_none]
    intro t ht
    obtain ⟨g, hg, hgt⟩ := List.mem_filterMap.1 ht
    obtain ⟨b, hb, rfl⟩ := Option.map_eq_some_iff.1 hgt
    simp [hl g hg b hb]
  rw [h0, List.filterMap_cons, ha]
  simp [hne]

/-- **C178** is false: whether the program succeeded with the flag is not looked at, so the text of an error is taken as well. -/
theorem C178_status_false (w : World) (exe : Str) (ok : Str → List Str → Bool) :
    rawVersion { w with run := fun e f => (w.run e f).map fun a => { a with success := ok e f } } exe = rawVersion w exe := by
  unfold rawVersion
  simp only [Option.map_map]
  rfl

/-- **C178** is false where a letter stands before or after the version: the version is cut. -/
theorem C178_letters_false : extract c!"v18.17.0" = some c!"17.0" ∧
    extract c!"go version go1.21.0 linux/amd64" = some c!"21.0" ∧
    extract c!"Python 3.13.0rc1" = some c!"3.13" := ⟨by decide +kernel, by decide +kernel, by decide +kernel⟩

/-! ## C181: the version that the command takes -/

namespace BindLemmas

theorem sep_iff (c : Char) : (c == '.' || c == '-' || c == '_') = true ↔ Separator c := by
  simp [Separator, or_assoc]

theorem verChar_iff (c : Char) : verChar c = true ↔ isDigit c = true ∨ Separator c := by
  simp [verChar, Separator, or_assoc]

theorem trim_split (s : Str) : ∃ a b, s = a ++ trim s ++ b ∧ ∀ c ∈ a ++ b, isWs c = true := by
  obtain ⟨a, b, h1, h2, -⟩ := strip_split isWs s
  exact ⟨a, b, h1, h2⟩

theorem ws_not_ver {c : Char} (h : isWs c = true) : isDigit c = false ∧ ¬ Separator c := by
  constructor
  · cases hd : isDigit c with
    | false => rfl
    | true => rw [digit_not_ws hd] at h; cases h
  · rintro (rfl | rfl | rfl) <;> revert h <;> decide

theorem first_unique {s v u : Str} (h : First s v) (k : First s u) : v = u := by
  obtain ⟨p, q, r, hs, hp, hq, hr⟩ := h.split
  obtain ⟨p', q', r', hs', hp', hq', hr'⟩ := k.split
  have hv : ∀ (x : Str) (p q r : Str), First s x → s = p ++ x ++ q ++ r → (∀ c ∈ p, isDigit c = false) → (∀ c ∈ q, Separator c) →
      (∀ c, r.head? = some c → ¬ (isDigit c = true ∨ Separator c)) →
      x = (((s.dropWhile fun c => !isDigit c).takeWhile verChar).reverse.dropWhile fun c => c == '.' || c == '-' || c == '_').reverse := by
    intro x p q r hx hs hp hq hr
    obtain ⟨d, hd1, hd2⟩ := hx.head
    obtain ⟨e, he1, he2⟩ := hx.last
    have h1 : s.dropWhile (fun c => !isDigit c) = (x ++ q) ++ r := by
      have := (takeWhile_run (p := fun c => !isDigit c) (d := p) (r := x ++ q ++ r) (by simpa using hp) (by
        intro c hc
        cases x with
        | nil => cases hd1
        | cons y x => simp only [List.cons_append, List.head?_cons] at hc hd1; cases hc; cases hd1; simp [hd2])).2
      rw [hs, List.append_assoc, List.append_assoc, ← List.append_assoc x, this]
    have h2 := (takeWhile_run (p := verChar) (d := x ++ q) (r := r) (by
        intro c hc
        rw [verChar_iff]
        rcases List.mem_append.1 hc with h | h
        · exact hx.all c h
        · exact Or.inr (hq c h)) (by
        intro c hc
        have := hr c hc
        rw [← verChar_iff] at this
        simpa using this)).1
    rw [h1, h2, List.reverse_append]
    have h3 := (takeWhile_run (p := fun c => c == '.' || c == '-' || c == '_') (d := q.reverse) (r := x.reverse) (by
        intro c hc
        exact (sep_iff c).2 (hq c (by simpa using hc))) (by
        intro c hc
        rw [List.head?_reverse, he1] at hc
        cases hc
        cases hk : (e == '.' || e == '-' || e == '_') with
        | false => rfl
        | true =>
          rcases (sep_iff e).1 hk with rfl | rfl | rfl <;> revert he2 <;> decide)).2
    rw [h3, List.reverse_reverse]
  rw [hv v p q r h hs hp hq hr, hv u p' q' r' k hs' hp' hq' hr']

end BindLemmas

/-- **C181**: the version that is taken from a text is its first run of digits, points, dashes and underscores that begins
with a digit, without those that are not digits at its end. -/
theorem C181_first (s v : Str) : parseVersion s = some v ↔ First s v := by
  have hex : ∀ v, parseVersion s = some v → First s v := by
    intro v h
    unfold parseVersion at h
    dsimp only at h
    obtain ⟨x, y, hxy, hws⟩ := trim_split s
    obtain ⟨p, hp1, hp2⟩ := dropWhile_split (fun c => !isDigit c) (trim s)
    split at h
    · cases h
    · rename_i hne
      generalize ht : (trim s).dropWhile (fun c => !isDigit c) = t at h hne hp1
      obtain ⟨d, t', rfl⟩ : ∃ d t', t = d :: t' := by
        cases t with
        | nil => exact absurd rfl hne
        | cons d t' => exact ⟨d, t', rfl⟩
      have hd : isDigit d = true := by
        have := List.head_dropWhile_not (p := fun c => !isDigit c) (l := trim s) (by rw [ht]; simp)
        simpa [ht] using this
      have hdv : verChar d = true := (verChar_iff d).2 (Or.inl hd)
      obtain ⟨q, hq1, hq2⟩ := dropWhile_split (fun c => c == '.' || c == '-' || c == '_') ((d :: t').takeWhile verChar).reverse
      generalize hk : (((d :: t').takeWhile verChar).reverse.dropWhile fun c => c == '.' || c == '-' || c == '_').reverse = k at h
      have hk' : (d :: t').takeWhile verChar = k ++ q.reverse := by
        have := congrArg List.reverse hq1
        rw [List.reverse_reverse, List.reverse_append, hk] at this
        exact this
      split at h
      · cases h
      · rename_i hkn
        simp only [Option.some.injEq] at h
        subst h
        have hd' : d :: t' = k ++ q.reverse ++ (d :: t').dropWhile verChar := by
          rw [← hk', List.takeWhile_append_dropWhile]
        refine ⟨⟨x ++ p, q.reverse, (d :: t').dropWhile verChar ++ y, ?_, ?_, ?_, ?_⟩, ?_, ?_, ?_⟩
        · conv_lhs => rw [hxy, hp1, hd']
          simp
        · intro c hc
          rcases List.mem_append.1 hc with h | h
          · exact (ws_not_ver (hws c (by simp [h]))).1
          · simpa using hp2 c h
        · intro c hc
          exact (sep_iff c).1 (hq2 c (by simpa using hc))
        · intro c hc
          cases hr : (d :: t').dropWhile verChar with
          | nil =>
            rw [hr] at hc
            have hcm : c ∈ y := List.mem_of_mem_head? hc
            have := ws_not_ver (hws c (by simp [hcm]))
            rintro (h | h)
            · rw [this.1] at h; cases h
            · exact this.2 h
          | cons e r =>
            rw [hr] at hc
            cases hc
            have := List.head_dropWhile_not (p := verChar) (l := d :: t') (by rw [hr]; simp)
            rw [← verChar_iff]
            simpa [hr] using this
        · cases hkk : k with
          | nil => rw [hkk] at hkn; exact absurd rfl hkn
          | cons e k' =>
            rw [hkk] at hk'
            simp only [List.takeWhile_cons, hdv, if_true, List.cons_append, List.cons.injEq] at hk'
            exact ⟨d, by rw [← hk'.1]; rfl, hd⟩
        · cases hl : k.getLast? with
          | none => rw [List.getLast?_eq_none_iff] at hl; rw [hl] at hkn; exact absurd rfl hkn
          | some e =>
            refine ⟨e, rfl, ?_⟩
            have hmem : e ∈ (d :: t').takeWhile verChar := by rw [hk']; exact List.mem_append_left _ (List.mem_of_getLast? hl)
            have hev := (verChar_iff e).1 (List.all_eq_true.1 (List.all_takeWhile (l := d :: t') (p := verChar)) e hmem)
            rcases hev with h | h
            · exact h
            · exfalso
              rw [← hk, List.getLast?_reverse] at hl
              cases hz : ((d :: t').takeWhile verChar).reverse.dropWhile (fun c => c == '.' || c == '-' || c == '_') with
              | nil => rw [hz] at hl; cases hl
              | cons z zs =>
                rw [hz] at hl
                simp only [List.head?_cons, Option.some.injEq] at hl
                have := List.head_dropWhile_not (p := fun c => c == '.' || c == '-' || c == '_')
                  (l := ((d :: t').takeWhile verChar).reverse) (by rw [hz]; simp)
                simp only [hz, List.head_cons] at this
                rw [hl, (sep_iff e).2 h] at this
                cases this
        · intro c hc
          have hmem : c ∈ (d :: t').takeWhile verChar := by rw [hk']; exact List.mem_append_left _ hc
          exact (verChar_iff c).1 (List.all_eq_true.1 (List.all_takeWhile (l := d :: t') (p := verChar)) c hmem)
  refine ⟨hex v, fun h => ?_⟩
  cases hp : parseVersion s with
  | some u => rw [first_unique (hex u hp) h]
  | none =>
    exfalso
    obtain ⟨p, q, r, hs, -⟩ := h.split
    obtain ⟨d, hd1, hd2⟩ := h.head
    have hdm : d ∈ trim s := by
      obtain ⟨x, y, hxy, hws⟩ := trim_split s
      have hm : d ∈ s := by rw [hs]; simp [List.mem_of_mem_head? hd1]
      rw [hxy] at hm
      rcases List.mem_append.1 hm with h | h
      · rcases List.mem_append.1 h with h | h
        · rw [(ws_not_ver (hws d (by simp [h]))).1] at hd2; cases hd2
        · exact h
      · rw [(ws_not_ver (hws d (by simp [h]))).1] at hd2; cases hd2
    unfold parseVersion at hp
    dsimp only at hp
    obtain ⟨p', hp1, hp2⟩ := dropWhile_split (fun c => !isDigit c) (trim s)
    generalize ht : (trim s).dropWhile (fun c => !isDigit c) = t at hp hp1
    have hdt : d ∈ t := by
      rw [hp1] at hdm
      rcases List.mem_append.1 hdm with h | h
      · have := hp2 d h; simp [hd2] at this
      · exact h
    cases t with
    | nil => cases hdt
    | cons e t' =>
      have he : isDigit e = true := by
        have := List.head_dropWhile_not (p := fun c => !isDigit c) (l := trim s) (by rw [ht]; simp)
        simpa [ht] using this
      rw [if_neg (by simp)] at hp
      split at hp
      · rename_i hk
        simp only [List.isEmpty_iff, List.reverse_eq_nil_iff, List.dropWhile_eq_nil_iff] at hk
        have := hk e (by simp [List.takeWhile_cons, (verChar_iff e).2 (Or.inl he)])
        rcases (sep_iff e).1 this with rfl | rfl | rfl <;> revert he <;> decide
      · cases hp

/-- Such a text, and one without a digit. -/
example : First c!"Python 3.11.4-_ (main)" c!"3.11.4" ∧ parseVersion c!"no version" = none :=
  ⟨(C181_first _ _).1 (by decide +kernel), by decide +kernel⟩

/-- **C181** is false where more than the version is made of such characters, or a number comes before it. -/
theorem C181_gcc_false : parseVersion c!"gcc (Ubuntu 11.4.0-1ubuntu1~22.04) 11.4.0" = some c!"11.4.0-1" ∧
    parseVersion c!"x86_64-linux-gnu-gcc (GCC) 12.2.0" = some c!"86_64" := ⟨by decide +kernel, by decide +kernel⟩

/-- **C181** is false: the version that is asked for is not looked at; whatever is asked for, the command does the same. -/
theorem C181_request_false (w : World) (l r : Path) (a : Bind.Args) (n v : Str) (c : Char) (hc : v.head? = some c) (hd : isDigit c = true)
    (hv : '-' ∉ v) (u : Str) (e : Char) (he : u.head? = some e) (hed : isDigit e = true) (hu : '-' ∉ u) :
    execute w l r { a with package := some (n ++ '-' :: v) } = execute w l r { a with package := some (n ++ '-' :: u) } := by
  have key : ∀ (v : Str) (c : Char), v.head? = some c → isDigit c = true → '-' ∉ v → (parseSpec (n ++ '-' :: v)).1 = n := by
    intro v c hc hd hv
    unfold parseSpec
    rw [rsplitOnce_append n hv]
    simp [hc, hd]
  unfold execute
  dsimp only
  rw [key v c hc hd hv, key u e he hed hu]
  rfl

/-- **C181** is false: a tool that is not there, and of which nothing is known, gets the version `1.0.0`. -/
theorem C181_missing_false (w : World) (fs : FS) (root : Path) (noDeps : Bool) (name : Str)
    (hn : name ∉ [c!"python", c!"pip", c!"cmake", c!"git", c!"gcc", c!"clang", c!"setuptools", c!"platform", c!"arch", c!"os", c!"rez"])
    (hb : blocked fs (join (join root name) c!"1.0.0") = false)
    (hf : mget (Files.run fs (mkdirAll (join (join root name) c!"1.0.0"))) (join (join root name) c!"1.0.0" ++ [c!"package.py"]) ≠ some .dir) :
    (bindSingle w fs root noDeps name).2 = .done := by
  have hd : detect w name = none := by
    simp only [List.mem_cons, List.not_mem_nil, or_false, not_or] at hn
    unfold detect
    simp [hn]
  have hv : (Version.parse c!"1.0.0").isNone = false := by decide +kernel
  unfold bindSingle
  rw [hd]
  simp only [Option.map_none, Option.getD_none]
  rw [hv, if_neg (by simp)]
  unfold Bundle.next Bundle.makeAll
  rw [hb]
  simp only [Bool.false_eq_true, if_false]
  unfold Bundle.writeFile
  rw [if_neg hf]

/-- **C181**: a program that succeeds and whose line of version begins with its name, a space and the version: that is the
version. -/
theorem C181_asked (w : World) (pat cmd v rest : Str) (withErr : Bool) (a : Bind.Answer) (ha : w.run cmd [c!"--version"] = some a)
    (hok : a.success = true) (hpat : '\n' ∉ pat) (hline : (a.out ++ if withErr then a.err else []) = pat ++ ' ' :: v ++ '\n' :: rest)
    (hv : First v v) : askTool w pat withErr cmd = some ⟨v, w.which cmd⟩ := by
  have hvc : ∀ c ∈ v, c ≠ '\n' ∧ c ≠ '\r' := by
    intro c hc
    rcases hv.all c hc with h | h | h | h
    · constructor <;> rintro rfl <;> revert h <;> decide
    all_goals subst h; decide
  have hlast : (pat ++ ' ' :: v).getLast? ≠ some '\r' := by
    obtain ⟨c, hc, hd⟩ := hv.last
    have hne : v ≠ [] := by rintro rfl; cases hc
    rw [show pat ++ ' ' :: v = (pat ++ [' ']) ++ v by simp, List.getLast?_append_of_ne_nil _ hne, hc]
    intro h
    cases h
    revert hd; decide
  have hlines : ∃ l, Serial.linesOf (pat ++ ' ' :: v ++ '\n' :: rest) = (pat ++ ' ' :: v) :: l := by
    unfold Serial.linesOf
    dsimp only
    rw [splitChar_append (by
      rw [List.mem_append, List.mem_cons]
      rintro (h | h | h)
      · exact hpat h
      · cases h
      · exact (hvc _ h).1 rfl)]
    obtain ⟨x, l, hx⟩ : ∃ x l, splitChar '\n' rest = x :: l := by
      cases h : splitChar '\n' rest with
      | nil => exact absurd h (splitChar_ne_nil _ _)
      | cons x l => exact ⟨x, l, rfl⟩
    rw [hx, List.dropLast_cons_of_ne_nil (by simp), List.map_cons, if_neg hlast]
    exact ⟨_, rfl⟩
  obtain ⟨l, hl⟩ := hlines
  have hafter : after (pat.map lowerChar) (pat ++ ' ' :: v) = some (' ' :: v) := by
    have hpre : (pat.map lowerChar).isPrefixOf ((pat ++ ' ' :: v).map lowerChar) = true := by
      rw [List.isPrefixOf_iff_prefix, List.map_append]
      exact List.prefix_append _ _
    cases hq : pat ++ ' ' :: v with
    | nil => simp at hq
    | cons c s =>
      rw [hq] at hpre
      unfold after
      rw [if_pos hpre, ← hq]
      simp
  have hp : parseVersion (' ' :: v) = some v := by
    rw [C181_first]
    obtain ⟨p, q, r, h1, h2, h3, h4⟩ := hv.split
    refine ⟨⟨' ' :: p, q, r, ?_, ?_, h3, h4⟩, hv.head, hv.last, hv.all⟩
    · conv_lhs => rw [h1]
      simp
    · intro c hc
      rcases List.mem_cons.1 hc with rfl | hc
      · decide
      · exact h2 c hc
  unfold askTool
  rw [ha]
  dsimp only
  rw [if_pos hok, hline]
  unfold extractAfter
  rw [hl, List.findSome?_cons, hafter]
  simp [hp]

/-- Python that prints its version. -/
example : askTool { fs := [], which := fun _ => some c!"/usr/bin/python3", run := fun _ _ => some { out := c!"Python 3.11.4\n" } }
    c!"Python" true c!"python3" = some ⟨c!"3.11.4", some c!"/usr/bin/python3"⟩ :=
  C181_asked _ _ _ c!"3.11.4" [] _ _ rfl rfl (by decide) rfl ((C181_first _ _).1 (by decide +kernel))

/-- **C181**: of the two commands of Python and of pip the first one with a version is taken: `python3` before `python`, `pip3`
before `pip`, whatever the other answers. -/
theorem C181_order (w : World) (n first second pat v rest : Str) (e : Bool) (a : Bind.Answer)
    (hn : (n, first, second, pat, e) ∈ [(c!"python", c!"python3", c!"python", c!"Python", true), (c!"pip", c!"pip3", c!"pip", c!"pip", false)])
    (hok : a.success = true) (hline : (a.out ++ if e then a.err else []) = pat ++ ' ' :: v ++ '\n' :: rest) (hv : First v v) :
    (w.run first [c!"--version"] = some a → detect w n = some ⟨v, w.which first⟩) ∧
    ((∀ b, w.run first [c!"--version"] = some b → b.success = false) → w.run second [c!"--version"] = some a →
      detect w n = some ⟨v, w.which second⟩) := by
  have key : (∀ b, w.run first [c!"--version"] = some b → b.success = false) → askTool w pat e first = none := by
    intro h
    unfold askTool
    cases hr : w.run first [c!"--version"] with
    | none => rfl
    | some b =>
      dsimp only
      rw [if_neg (by rw [h b hr]; decide)]
  simp only [List.mem_cons, Prod.mk.injEq, List.not_mem_nil, or_false] at hn
  rcases hn with ⟨rfl, rfl, rfl, rfl, rfl⟩ | ⟨rfl, rfl, rfl, rfl, rfl⟩
  · refine ⟨fun h => ?_, fun h1 h2 => ?_⟩
    · unfold detect
      rw [if_pos rfl, List.findSome?_cons, C181_asked w _ _ v rest true a h hok (by decide) hline hv]
    · unfold detect
      rw [if_pos rfl, List.findSome?_cons, key h1, List.findSome?_cons, C181_asked w _ _ v rest true a h2 hok (by decide) hline hv]
  · refine ⟨fun h => ?_, fun h1 h2 => ?_⟩
    · unfold detect
      rw [if_neg (by decide), if_pos rfl, List.findSome?_cons, C181_asked w _ _ v rest false a h hok (by decide) hline hv]
    · unfold detect
      rw [if_neg (by decide), if_pos rfl, List.findSome?_cons, key h1, List.findSome?_cons, C181_asked w _ _ v rest false a h2 hok (by decide) hline hv]

example : detect { fs := [], which := some, run := fun c _ => if c = c!"python" then some { out := c!"Python 2.7.1\n" }
    else if c = c!"python3" then some { out := c!"Python 3.11.4\n" } else none } c!"python" = some ⟨c!"3.11.4", some c!"python3"⟩ := by
  refine (C181_order _ c!"python" c!"python3" c!"python" c!"Python" c!"3.11.4" [] true { out := c!"Python 3.11.4\n" } (by simp) rfl rfl
    ((C181_first _ _).1 (by decide +kernel))).1 ?_
  rfl

/-- **C181**: the version of gcc is the first in the first line of what it prints, whatever is in the lines after it. -/
theorem C181_gcc (w : World) (line rest v : Str) (a : Bind.Answer) (ha : w.run c!"gcc" [c!"--version"] = some a)
    (hok : a.success = true) (hline : a.out = line ++ '\n' :: rest) (hnl : '\n' ∉ line) (hr : line.getLast? ≠ some '\r')
    (hv : First line v) : detect w c!"gcc" = some ⟨v, w.which c!"gcc"⟩ := by
  have hlines : ∃ l, Serial.linesOf (line ++ '\n' :: rest) = line :: l := by
    unfold Serial.linesOf
    dsimp only
    rw [splitChar_append hnl]
    obtain ⟨x, l, hx⟩ : ∃ x l, splitChar '\n' rest = x :: l := by
      cases h : splitChar '\n' rest with
      | nil => exact absurd h (splitChar_ne_nil _ _)
      | cons x l => exact ⟨x, l, rfl⟩
    rw [hx, List.dropLast_cons_of_ne_nil (by simp), List.map_cons, if_neg hr]
    exact ⟨_, rfl⟩
  obtain ⟨l, hl⟩ := hlines
  unfold detect
  rw [if_neg (by decide), if_neg (by decide), if_neg (by decide), if_neg (by decide), if_pos rfl]
  unfold detectGcc
  rw [ha]
  dsimp only
  rw [if_pos hok, hline, hl]
  simp [(C181_first line v).2 hv]

example : detect { fs := [], which := some, run := fun _ _ => some { out := c!"gcc (GCC) 12.2.0\nCopyright 2022\n" } } c!"gcc" =
    some ⟨c!"12.2.0", some c!"gcc"⟩ :=
  C181_gcc _ c!"gcc (GCC) 12.2.0" c!"Copyright 2022\n" _ _ rfl rfl rfl (by decide) (by decide) ((C181_first _ _).1 (by decide +kernel))

end Rez.Props
