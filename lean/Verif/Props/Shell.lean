import Verif.Model.RexShell
import Verif.Spec.Shell
import Verif.Props.Rex
import Verif.Lemmas.Version
import Mathlib.Data.List.TakeWhile
/-!
# C59, C106: activation scripts
-/
namespace Rez.Props
open Rez Rez.Rex Rez.RexShell Rez.Spec.Shell

namespace ShellLemmas

/-- A reader of quoted text that reads `esc c` as `c`, for every allowed character, reads the escaped form of a value
as the value. -/
theorem read_esc {rd : Nat → Str → Option (Str × Str)} {esc : Char → Str} {ok : Char → Prop} {q : Char} {t : Str}
    (hc : ∀ c, ok c → ∀ k s, rd (k + 1) (esc c ++ s) = push [c] (rd k s)) (hq : ∀ k, rd (k + 1) (q :: t) = some ([], t))
    (v : Str) (hv : ∀ c ∈ v, ok c) (fuel : Nat) (hf : v.length < fuel) :
    rd fuel (v.flatMap esc ++ q :: t) = some (v, t) := by
  induction v generalizing fuel with
  | nil =>
    obtain ⟨k, rfl⟩ : ∃ k, fuel = k + 1 := ⟨fuel - 1, by simp at hf; omega⟩
    exact hq k
  | cons c v ih =>
    obtain ⟨k, rfl⟩ : ∃ k, fuel = k + 1 := ⟨fuel - 1, by simp at hf; omega⟩
    rw [List.flatMap_cons, List.append_assoc, hc c (hv c List.mem_cons_self),
      ih (fun x hx => hv x (List.mem_cons_of_mem _ hx)) k (by simp at hf; omega)]
    rfl

theorem length_esc {esc : Char → Str} (h : ∀ c, esc c ≠ []) (v : Str) : v.length ≤ (v.flatMap esc).length := by
  induction v with
  | nil => simp
  | cons c v ih =>
    rw [List.flatMap_cons, List.length_append, List.length_cons]
    have := List.length_pos_iff.mpr (h c)
    omega

theorem replaceChar_flatMap (c : Char) (b : Str) (esc : Char → Str) (v : Str) :
    replaceChar c b (v.flatMap esc) = v.flatMap fun x => replaceChar c b (esc x) := by
  unfold replaceChar
  rw [List.flatMap_assoc]

theorem replaceChar_eq (c : Char) (b v : Str) : replaceChar c b v = v.flatMap fun x => if x = c then b else [x] := rfl

/-- What each escape does to a character. -/
def bashEsc (c : Char) : Str := if c = '\\' then c!"\\\\" else if c = '"' then c!"\\\"" else [c]
def ctxBashEsc (c : Char) : Str := if c = '"' then c!"\\\"" else if c = '$' then c!"\\$" else if c = '`' then c!"\\`" else [c]
def ctxPsEsc (c : Char) : Str := if c = '"' then c!"`\"" else if c = '$' then c!"`$" else [c]
def ctxFishEsc (c : Char) : Str := if c = '"' then c!"\\\"" else if c = '$' then c!"\\$" else [c]
def psEsc (c : Char) : Str := if c = '\'' then c!"''" else [c]

theorem escBash_eq (v : Str) : escBash v = v.flatMap bashEsc := by
  unfold escBash
  rw [replaceChar_eq '\\', replaceChar_flatMap]
  congr 1
  funext c
  unfold bashEsc
  by_cases h : c = '\\'
  · rw [if_pos h, if_pos h]; rfl
  · rw [if_neg h, if_neg h]; simp [replaceChar]

theorem ctxEscBash_eq (v : Str) : ctxEscBash v = v.flatMap ctxBashEsc := by
  unfold ctxEscBash
  rw [replaceChar_eq '"', replaceChar_flatMap, replaceChar_flatMap]
  congr 1
  funext c
  unfold ctxBashEsc
  by_cases h : c = '"'
  · rw [if_pos h, if_pos h]; rfl
  · rw [if_neg h, if_neg h]
    by_cases h2 : c = '$'
    · subst h2; rfl
    · simp [replaceChar, h2]

theorem ctxEscPs_eq (v : Str) : ctxEscPs v = v.flatMap ctxPsEsc := by
  unfold ctxEscPs
  rw [replaceChar_eq '"', replaceChar_flatMap]
  congr 1
  funext c
  unfold ctxPsEsc
  by_cases h : c = '"'
  · rw [if_pos h, if_pos h]; rfl
  · rw [if_neg h, if_neg h]; simp [replaceChar]

theorem ctxEscFish_eq (v : Str) : ctxEscFish v = v.flatMap ctxFishEsc := by
  unfold ctxEscFish
  rw [replaceChar_eq '"', replaceChar_flatMap]
  congr 1
  funext c
  unfold ctxFishEsc
  by_cases h : c = '"'
  · rw [if_pos h, if_pos h]; rfl
  · rw [if_neg h, if_neg h]; simp [replaceChar]

theorem bashDq_char (var : Str → Option Str) (c : Char) (h : c ≠ '$' ∧ c ≠ '`') (k : Nat) (s : Str) :
    bashDq var (k + 1) (bashEsc c ++ s) = push [c] (bashDq var k s) := by
  unfold bashEsc
  by_cases h1 : c = '\\'
  · subst h1; rfl
  · rw [if_neg h1]
    by_cases h2 : c = '"'
    · subst h2; rfl
    · rw [if_neg h2, List.cons_append, List.nil_append, bashDq.eq_def]; simp only; rw [if_neg h2, if_neg h.2, if_neg h1, if_neg h.1]

theorem ctxBashDq_char (var : Str → Option Str) (c : Char) (h : c ≠ '\\') (k : Nat) (s : Str) :
    bashDq var (k + 1) (ctxBashEsc c ++ s) = push [c] (bashDq var k s) := by
  unfold ctxBashEsc
  by_cases h2 : c = '"'
  · subst h2; rfl
  · rw [if_neg h2]
    by_cases h3 : c = '$'
    · subst h3; rfl
    · rw [if_neg h3]
      by_cases h4 : c = '`'
      · subst h4; rfl
      · rw [if_neg h4, List.cons_append, List.nil_append, bashDq.eq_def]; simp only; rw [if_neg h2, if_neg h4, if_neg h, if_neg h3]

theorem fishDq_char (var : Str → Option Str) (c : Char) (h : c ≠ '$') (k : Nat) (s : Str) :
    fishDq var (k + 1) (bashEsc c ++ s) = push [c] (fishDq var k s) := by
  unfold bashEsc
  by_cases h1 : c = '\\'
  · subst h1; rfl
  · rw [if_neg h1]
    by_cases h2 : c = '"'
    · subst h2; rfl
    · rw [if_neg h2, List.cons_append, List.nil_append, fishDq.eq_def]; simp only; rw [if_neg h2, if_neg h1, if_neg h]

theorem ctxFishDq_char (var : Str → Option Str) (c : Char) (h : c ≠ '\\') (k : Nat) (s : Str) :
    fishDq var (k + 1) (ctxFishEsc c ++ s) = push [c] (fishDq var k s) := by
  unfold ctxFishEsc
  by_cases h2 : c = '"'
  · subst h2; rfl
  · rw [if_neg h2]
    by_cases h3 : c = '$'
    · subst h3; rfl
    · rw [if_neg h3, List.cons_append, List.nil_append, fishDq.eq_def]; simp only; rw [if_neg h2, if_neg h, if_neg h3]

/-- Quotes of PowerShell other than the ASCII ones. -/
def Curly (c : Char) : Prop := c ∈ c!"‘’‚‛“”„"

theorem psSq_char (c : Char) (h : psSingle c = true → c = '\'') (k : Nat) (s : Str) :
    psSq (k + 1) (psEsc c ++ s) = push [c] (psSq k s) := by
  unfold psEsc
  by_cases h1 : c = '\''
  · subst h1; rfl
  · rw [if_neg h1, List.cons_append, List.nil_append, psSq.eq_def]; simp only; rw [if_neg (fun hp => h1 (h hp))]

theorem ctxPsDq_char (var : Str → Option Str) (c : Char) (h : c ≠ '`' ∧ (psDouble c = true → c = '"')) (k : Nat) (s : Str) :
    psDq var (k + 1) (ctxPsEsc c ++ s) = push [c] (psDq var k s) := by
  unfold ctxPsEsc
  by_cases h1 : c = '"'
  · subst h1; rfl
  · rw [if_neg h1]
    by_cases h2 : c = '$'
    · subst h2; rfl
    · rw [if_neg h2, List.cons_append, List.nil_append, psDq.eq_def]; simp only; rw [if_neg (fun hp => h1 (h.2 hp)), if_neg h.1, if_neg h2]

/-! ### Lines -/

/-- A line is a statement with an effect, wherever it stands. -/
structure StepOk (step : State → Str → Option (State × Str)) (line : Str) (eff : State → State) : Prop where
  mid : ∀ st rest, step st (line ++ '\n' :: rest) = some (eff st, rest)
  last : line ≠ [] → ∀ st, step st line = some (eff st, [])
  blank : line = [] → eff = id

theorem run_lines {step : State → Str → Option (State × Str)} (L : List (Str × (State → State)))
    (h : ∀ x ∈ L, StepOk step x.1 x.2) (k : Nat) (hk : (joinWith c!"\n" (L.map Prod.fst)).length < k) (st : State) :
    runAux step k st (joinWith c!"\n" (L.map Prod.fst)) = some (L.foldl (fun st x => x.2 st) st) := by
  induction L generalizing k st with
  | nil =>
    obtain ⟨k, rfl⟩ : ∃ j, k = j + 1 := ⟨k - 1, by simp [joinWith] at hk; omega⟩
    rfl
  | cons x L ih =>
    have hx := h x List.mem_cons_self
    have hL := fun y hy => h y (List.mem_cons_of_mem _ hy)
    obtain ⟨k, rfl⟩ : ∃ j, k = j + 1 := ⟨k - 1, by omega⟩
    cases L with
    | nil =>
      simp only [List.map_cons, List.map_nil, joinWith] at hk ⊢
      rw [runAux]
      by_cases hb : x.1 = []
      · rw [hb]
        show some st = some (x.2 st)
        rw [hx.blank hb]; rfl
      · rw [if_neg (by simpa using hb), hx.last hb]
        simp only [Option.bind_some]
        have : x.1.length ≠ 0 := fun e => hb (List.length_eq_zero_iff.mp e)
        obtain ⟨k, rfl⟩ : ∃ j, k = j + 1 := ⟨k - 1, by omega⟩
        rfl
    | cons y L =>
      have ej : joinWith c!"\n" ((x :: y :: L).map Prod.fst) = x.1 ++ '\n' :: joinWith c!"\n" ((y :: L).map Prod.fst) := by
        show x.1 ++ c!"\n" ++ joinWith c!"\n" ((y :: L).map Prod.fst) = _
        simp
      rw [ej] at hk ⊢
      rw [runAux, if_neg (by simp), hx.mid]
      simp only [Option.bind_some]
      rw [ih hL k (by simp at hk ⊢; omega)]
      rfl

theorem name_of {k : Str} (h : IsName k) {c : Char} (hc : isTok c = false) (s : Str) :
    Spec.Shell.name (k ++ c :: s) = some (k, c :: s) := by
  obtain ⟨d, t, rfl, hd, ht⟩ := h
  unfold Spec.Shell.name
  rw [List.cons_append]
  simp only
  rw [if_pos (by rcases hd with hd | hd <;> simp [hd])]
  have h1 : (t ++ c :: s).takeWhile isTok = t := by
    rw [List.takeWhile_append_of_pos ht, List.takeWhile_cons, hc]
    simp
  have h2 : (t ++ c :: s).dropWhile isTok = c :: s := by
    rw [List.dropWhile_append_of_pos ht, List.dropWhile_cons, hc]
    simp
  rw [h1, h2]

theorem after_of (t s : Str) : after t (t ++ s) = some s := by
  unfold after
  rw [if_pos (List.isPrefixOf_iff_prefix.mpr (List.prefix_append _ _)), List.drop_left]

theorem afterComment_of {t : Str} (h : '\n' ∉ t) (rest : Str) : afterComment (t ++ '\n' :: rest) = rest ∧ afterComment t = [] := by
  have hp : ∀ c ∈ t, (c != '\n') = true := by
    intro c hc
    simp only [bne_iff_ne]
    exact fun e => h (e ▸ hc)
  unfold afterComment
  constructor
  · rw [List.dropWhile_append_of_pos hp]
    simp
  · rw [List.dropWhile_eq_nil_iff.mpr hp]
    rfl

/-- The ends of a statement. -/
inductive Tail : Str → Str → Prop
  | last : Tail [] []
  | mid (rest) : Tail ('\n' :: rest) rest

theorem bashWord_tail {var : Str → Option Str} {t r : Str} (h : Tail t r) (k : Nat) :
    bashWord var (k + 1) t = some ([], t) ∧ endLine t = some r := by
  cases h <;> exact ⟨rfl, rfl⟩

theorem bashWord_dq {var : Str → Option Str} {esc : Char → Str} {ok : Char → Prop}
    (hc : ∀ c, ok c → ∀ k s, bashDq var (k + 1) (esc c ++ s) = push [c] (bashDq var k s)) (hne : ∀ c, esc c ≠ [])
    {v : Str} (hv : ∀ c ∈ v, ok c) {t r : Str} (ht : Tail t r) (k : Nat) :
    bashWord var (k + 2) ('"' :: (v.flatMap esc ++ '"' :: t)) = some (v, t) := by
  rw [bashWord.eq_def]
  simp only
  rw [if_neg (by decide), if_neg (by decide), if_pos trivial]
  rw [read_esc hc (fun _ => rfl) v hv _ (by
    have := length_esc hne v
    simp only [List.length_append]
    omega)]
  simp only [Option.bind_some]
  rw [(bashWord_tail ht k).1]
  simp [push]

theorem bashEsc_ne (c : Char) : bashEsc c ≠ [] := by
  unfold bashEsc; split <;> [simp; (split <;> simp)]
theorem ctxBashEsc_ne (c : Char) : ctxBashEsc c ≠ [] := by
  unfold ctxBashEsc; split <;> [simp; (split <;> [simp; (split <;> simp)])]
theorem ctxPsEsc_ne (c : Char) : ctxPsEsc c ≠ [] := by
  unfold ctxPsEsc; split <;> [simp; (split <;> simp)]
theorem ctxFishEsc_ne (c : Char) : ctxFishEsc c ≠ [] := by
  unfold ctxFishEsc; split <;> [simp; (split <;> simp)]
theorem psEsc_ne (c : Char) : psEsc c ≠ [] := by
  unfold psEsc; split <;> simp

theorem bash_export {esc : Char → Str} {ok : Char → Prop}
    (hc : ∀ var : Str → Option Str, ∀ c, ok c → ∀ k s, bashDq var (k + 1) (esc c ++ s) = push [c] (bashDq var k s))
    (hne : ∀ c, esc c ≠ []) {k v : Str} (hk : IsName k) (hv : ∀ c ∈ v, ok c) {t r : Str} (ht : Tail t r) (st : State) :
    bashStep st (c!"export " ++ (k ++ (c!"=\"" ++ (v.flatMap esc ++ (c!"\"" ++ t))))) = some (st.setVar k v, r) := by
  unfold bashStep
  rw [show after c!"\n" (c!"export " ++ (k ++ (c!"=\"" ++ (v.flatMap esc ++ (c!"\"" ++ t))))) = none from rfl]
  simp only
  rw [show after c!"#" (c!"export " ++ (k ++ (c!"=\"" ++ (v.flatMap esc ++ (c!"\"" ++ t))))) = none from rfl]
  simp only
  rw [after_of]
  simp only
  rw [show c!"=\"" ++ (v.flatMap esc ++ (c!"\"" ++ t)) = '=' :: ('"' :: (v.flatMap esc ++ '"' :: t)) from rfl,
    name_of hk (by decide)]
  simp only [Option.bind_some]
  rw [show after c!"=" ('=' :: ('"' :: (v.flatMap esc ++ '"' :: t))) = some ('"' :: (v.flatMap esc ++ '"' :: t)) from rfl]
  simp only [Option.bind_some]
  rw [show ('"' :: (v.flatMap esc ++ '"' :: t)).length + 1 = (v.flatMap esc ++ '"' :: t).length + 2 by simp,
    bashWord_dq (hc _) hne hv ht]
  simp only [Option.bind_some]
  rw [(bashWord_tail (var := st.var) ht 0).2]
  rfl

theorem comment_ok {step : State → Str → Option (State × Str)}
    (hs : ∀ st r, step st ('#' :: r) = some (st, afterComment r)) {t : Str} (h : '\n' ∉ t) : StepOk step ('#' :: t) id where
  mid := fun st rest => by rw [List.cons_append, hs, (afterComment_of h rest).1]; rfl
  last := fun _ st => by rw [hs, (afterComment_of h []).2]; rfl
  blank := fun e => by cases e

theorem blank_ok {step : State → Str → Option (State × Str)} (hs : ∀ st r, step st ('\n' :: r) = some (st, r)) :
    StepOk step [] id where
  mid := fun st rest => hs st rest
  last := fun e => absurd rfl e
  blank := fun _ => rfl

theorem bash_hash (st : State) (r : Str) : bashStep st ('#' :: r) = some (st, afterComment r) := rfl
theorem bash_blank (st : State) (r : Str) : bashStep st ('\n' :: r) = some (st, r) := rfl
theorem fish_hash (flag : Str) (st : State) (r : Str) : fishStep flag st ('#' :: r) = some (st, afterComment r) := rfl
theorem fish_blank (flag : Str) (st : State) (r : Str) : fishStep flag st ('\n' :: r) = some (st, r) := rfl
theorem ps_hash (st : State) (r : Str) : psStep st ('#' :: r) = some (st, afterComment r) := rfl
theorem ps_blank (st : State) (r : Str) : psStep st ('\n' :: r) = some (st, r) := rfl

theorem export_ok {x : Str × Str} (hk : IsName x.1) (hv : ∀ c ∈ x.2, c ≠ '$' ∧ c ≠ '`') :
    StepOk bashStep (bashExport x) (fun st => st.setVar x.1 x.2) where
  mid := fun st rest => by
    unfold bashExport
    rw [escBash_eq]
    simpa only [List.append_assoc] using bash_export bashDq_char bashEsc_ne hk hv (Tail.mid rest) st
  last := fun _ st => by
    unfold bashExport
    rw [escBash_eq]
    have := bash_export bashDq_char bashEsc_ne hk hv Tail.last st
    rw [List.append_nil] at this
    simpa only [List.append_assoc] using this
  blank := fun e => by unfold bashExport at e; simp at e

/-! ### Aliases -/

theorem bashWord_sq {var : Str → Option Str} (v : Str) : ∀ (w : Str), '\'' ∉ w → ∀ {t r : Str}, Tail t r → ∀ k,
    (replaceChar '\'' c!"'\\''" v).length + 1 < k →
    bashWord var k ('\'' :: (w ++ (replaceChar '\'' c!"'\\''" v ++ '\'' :: t))) = some (w ++ v, t) := by
  have hspan : ∀ (w s : Str), '\'' ∉ w → (w ++ '\'' :: s).takeWhile (· != '\'') = w ∧
      (w ++ '\'' :: s).dropWhile (· != '\'') = '\'' :: s := by
    intro w s hw
    have hp : ∀ c ∈ w, (c != '\'') = true := by
      intro c hc
      simp only [bne_iff_ne]
      exact fun e => hw (e ▸ hc)
    rw [List.takeWhile_append_of_pos hp, List.dropWhile_append_of_pos hp]
    simp
  induction v with
  | nil =>
    intro w hw t r ht k hk
    obtain ⟨k, rfl⟩ : ∃ j, k = j + 2 := ⟨k - 2, by omega⟩
    rw [show replaceChar '\'' c!"'\\''" [] = [] from rfl, List.nil_append, bashWord.eq_def]
    simp only
    rw [if_neg (by decide), if_pos trivial,
      (hspan w t hw).2, (hspan w t hw).1]
    simp only
    rw [(bashWord_tail ht k).1]
    simp [push]
  | cons c v ih =>
    intro w hw t r ht k hk
    by_cases hc : c = '\''
    · subst hc
      obtain ⟨k, rfl⟩ : ∃ j, k = j + 2 := ⟨k - 2, by omega⟩
      have e : replaceChar '\'' c!"'\\''" ('\'' :: v) = '\'' :: '\\' :: '\'' :: '\'' :: replaceChar '\'' c!"'\\''" v := rfl
      rw [e]
      simp only [List.cons_append]
      rw [bashWord.eq_def]
      simp only
      rw [if_neg (by decide), if_pos trivial, (hspan w _ hw).2, (hspan w _ hw).1]
      simp only
      rw [bashWord.eq_def]
      simp only
      rw [if_neg (by decide), if_neg (by decide), if_neg (by decide), if_pos trivial]
      have := ih [] (by simp) ht k (by rw [e] at hk; simp only [List.length_cons] at hk; omega)
      rw [List.nil_append, List.nil_append] at this
      rw [this]
      simp [push]
    · have e : replaceChar '\'' c!"'\\''" (c :: v) = c :: replaceChar '\'' c!"'\\''" v := by
        unfold replaceChar
        rw [List.flatMap_cons, if_neg hc]
        rfl
      rw [e]
      have := ih (w ++ [c]) (by simp [hw, Ne.symm hc]) ht k (by rw [e] at hk; simp only [List.length_cons] at hk; omega)
      rw [List.append_assoc, List.append_assoc] at this
      exact this

theorem bash_alias {x : Str × Str} (hk : IsName x.1) {t r : Str} (ht : Tail t r) (st : State) :
    bashStep st (c!"alias " ++ (x.1 ++ (c!"='" ++ (replaceChar '\'' c!"'\\''" x.2 ++ (c!"'" ++ t))))) =
      some (st.setAlias x.1 x.2, r) := by
  generalize hw : replaceChar '\'' c!"'\\''" x.2 = w
  have key : bashWord st.var (w.length + t.length + 3) ('\'' :: (w ++ '\'' :: t)) = some (x.2, t) := by
    have := bashWord_sq (var := st.var) x.2 [] (by simp) ht (w.length + t.length + 3) (by rw [hw]; omega)
    rw [hw] at this
    simpa using this
  unfold bashStep
  rw [show after c!"\n" (c!"alias " ++ (x.1 ++ (c!"='" ++ (w ++ (c!"'" ++ t))))) = none from rfl]
  simp only
  rw [show after c!"#" (c!"alias " ++ (x.1 ++ (c!"='" ++ (w ++ (c!"'" ++ t))))) = none from rfl]
  simp only
  rw [show after c!"export " (c!"alias " ++ (x.1 ++ (c!"='" ++ (w ++ (c!"'" ++ t))))) = none from rfl]
  simp only
  rw [after_of]
  simp only [Option.bind_some]
  rw [show c!"='" ++ (w ++ (c!"'" ++ t)) = '=' :: ('\'' :: (w ++ '\'' :: t)) from rfl, name_of hk (by decide)]
  simp only [Option.bind_some]
  rw [show after c!"=" ('=' :: ('\'' :: (w ++ '\'' :: t))) = some ('\'' :: (w ++ '\'' :: t)) from rfl]
  simp only [Option.bind_some]
  rw [show ('\'' :: (w ++ '\'' :: t)).length + 1 = w.length + t.length + 3 by simp; omega, key]
  simp only [Option.bind_some]
  rw [(bashWord_tail (var := st.var) ht 0).2]
  rfl

theorem alias_ok {x : Str × Str} (hk : IsName x.1) :
    StepOk bashStep (bashAlias x) (fun st => st.setAlias x.1 x.2) where
  mid := fun st rest => by
    unfold bashAlias
    simpa only [List.append_assoc] using bash_alias hk (Tail.mid rest) st
  last := fun _ st => by
    unfold bashAlias
    have := bash_alias hk Tail.last st
    rw [List.append_nil] at this
    simpa only [List.append_assoc] using this
  blank := fun e => by unfold bashAlias at e; simp at e

/-! ### Folding assignments -/

theorem fold_vars (l : List (Str × Str)) (hn : (mkeys l).Nodup) (st : State) :
    (∀ k, (l.foldl (fun st x => st.setVar x.1 x.2) st).var k = (mget l k).or (st.var k)) ∧
      (l.foldl (fun st x => st.setVar x.1 x.2) st).alias = st.alias := by
  induction l generalizing st with
  | nil => exact ⟨fun k => by simp [mget], rfl⟩
  | cons x l ih =>
    have hn' : x.1 ∉ mkeys l ∧ (mkeys l).Nodup := List.nodup_cons.mp hn
    obtain ⟨h1, h2⟩ := ih hn'.2 (st.setVar x.1 x.2)
    refine ⟨fun k => ?_, h2⟩
    rw [List.foldl_cons, h1]
    by_cases hk : k = x.1
    · subst hk
      rw [(mget_none_iff l x.1).mpr hn'.1]
      simp [State.setVar, mget]
    · simp [State.setVar, mget, hk, Ne.symm hk]

theorem fold_aliases (l : List (Str × Str)) (hn : (mkeys l).Nodup) (st : State) :
    (∀ k, (l.foldl (fun st x => st.setAlias x.1 x.2) st).alias k = (mget l k).or (st.alias k)) ∧
      (l.foldl (fun st x => st.setAlias x.1 x.2) st).var = st.var := by
  induction l generalizing st with
  | nil => exact ⟨fun k => by simp [mget], rfl⟩
  | cons x l ih =>
    have hn' : x.1 ∉ mkeys l ∧ (mkeys l).Nodup := List.nodup_cons.mp hn
    obtain ⟨h1, h2⟩ := ih hn'.2 (st.setAlias x.1 x.2)
    refine ⟨fun k => ?_, h2⟩
    rw [List.foldl_cons, h1]
    by_cases hk : k = x.1
    · subst hk
      rw [(mget_none_iff l x.1).mpr hn'.1]
      simp [State.setAlias, mget]
    · simp [State.setAlias, mget, hk, Ne.symm hk]

theorem fold_id {l : List (Str × (State → State))} (h : ∀ x ∈ l, x.2 = id) (st : State) :
    l.foldl (fun st x => x.2 st) st = st := by
  induction l with
  | nil => rfl
  | cons x l ih =>
    rw [List.foldl_cons, h x List.mem_cons_self]
    exact ih fun y hy => h y (List.mem_cons_of_mem _ hy)

theorem perm_sort (l : List (Str × Str)) : (sortByKey l).Perm l := List.perm_insertionSort _ l

theorem keys_sort {l : List (Str × Str)} (hn : (mkeys l).Nodup) : (mkeys (sortByKey l)).Nodup :=
  ((perm_sort l).map Prod.fst).nodup_iff.mpr hn

/-! ### fish -/

theorem endLine_tail {t r : Str} (h : Tail t r) : endLine t = some r := by cases h <;> rfl

theorem dq_read {esc : Char → Str} {ok : Char → Prop} {rd : Nat → Str → Option (Str × Str)}
    (hc : ∀ c, ok c → ∀ k s, rd (k + 1) (esc c ++ s) = push [c] (rd k s)) (hne : ∀ c, esc c ≠ []) {q : Char} {t : Str}
    (hq : ∀ k, rd (k + 1) (q :: t) = some ([], t)) {v : Str} (hv : ∀ c ∈ v, ok c) :
    rd ((v.flatMap esc ++ q :: t).length + 1) (v.flatMap esc ++ q :: t) = some (v, t) := by
  apply read_esc hc hq v hv
  have := length_esc hne v
  simp only [List.length_append]
  omega

theorem fish_set {flag : Str} {esc : Char → Str} {ok : Char → Prop}
    (hc : ∀ var : Str → Option Str, ∀ c, ok c → ∀ k s, fishDq var (k + 1) (esc c ++ s) = push [c] (fishDq var k s))
    (hne : ∀ c, esc c ≠ []) {k v : Str} (hk : IsName k) (hv : ∀ c ∈ v, ok c) {t r : Str} (ht : Tail t r) (st : State) :
    fishStep flag st ((c!"set " ++ flag ++ c!" ") ++ (k ++ (c!" \"" ++ (v.flatMap esc ++ (c!"\"" ++ t))))) =
      some (st.setVar k v, r) := by
  unfold fishStep
  rw [show after c!"\n" ((c!"set " ++ flag ++ c!" ") ++ (k ++ (c!" \"" ++ (v.flatMap esc ++ (c!"\"" ++ t))))) = none from rfl]
  simp only
  rw [show after c!"#" ((c!"set " ++ flag ++ c!" ") ++ (k ++ (c!" \"" ++ (v.flatMap esc ++ (c!"\"" ++ t))))) = none from rfl]
  simp only
  rw [show after c!"alias " ((c!"set " ++ flag ++ c!" ") ++ (k ++ (c!" \"" ++ (v.flatMap esc ++ (c!"\"" ++ t))))) = none from rfl]
  simp only
  rw [after_of]
  simp only [Option.bind_some]
  rw [show c!" \"" ++ (v.flatMap esc ++ (c!"\"" ++ t)) = ' ' :: ('"' :: (v.flatMap esc ++ '"' :: t)) from rfl,
    name_of hk (by decide)]
  simp only [Option.bind_some]
  rw [show after c!" \"" (' ' :: ('"' :: (v.flatMap esc ++ '"' :: t))) = some (v.flatMap esc ++ '"' :: t) from rfl]
  simp only [Option.bind_some]
  rw [dq_read (hc _) hne (fun _ => rfl) hv]
  simp only [Option.bind_some]
  rw [endLine_tail ht]
  rfl

theorem fish_alias {flag k v : Str} (hk : IsName k) (hv : ∀ c ∈ v, c ≠ '"' ∧ c ≠ '\\' ∧ c ≠ '$') {t r : Str}
    (ht : Tail t r) (st : State) :
    fishStep flag st (c!"alias " ++ (k ++ (c!" \"" ++ (v ++ (c!"\"" ++ t))))) = some (st.setAlias k v, r) := by
  unfold fishStep
  rw [show after c!"\n" (c!"alias " ++ (k ++ (c!" \"" ++ (v ++ (c!"\"" ++ t))))) = none from rfl]
  simp only
  rw [show after c!"#" (c!"alias " ++ (k ++ (c!" \"" ++ (v ++ (c!"\"" ++ t))))) = none from rfl]
  simp only
  rw [after_of]
  simp only [Option.bind_some]
  rw [show c!" \"" ++ (v ++ (c!"\"" ++ t)) = ' ' :: ('"' :: (v ++ '"' :: t)) from rfl, name_of hk (by decide)]
  simp only [Option.bind_some]
  rw [show after c!" \"" (' ' :: ('"' :: (v ++ '"' :: t))) = some (v ++ '"' :: t) from rfl]
  simp only [Option.bind_some]
  have hc : ∀ c, (c ≠ '"' ∧ c ≠ '\\' ∧ c ≠ '$') → ∀ k s, fishDq st.var (k + 1) ([c] ++ s) = push [c] (fishDq st.var k s) := by
    intro c h k s
    rw [List.cons_append, List.nil_append, fishDq.eq_def]
    simp only
    rw [if_neg h.1, if_neg h.2.1, if_neg h.2.2]
  have := dq_read (rd := fishDq st.var) (esc := fun c => [c]) (t := t) (q := '"') hc (by simp) (fun _ => rfl) hv
  rw [show v.flatMap (fun c => [c]) = v by simp] at this
  rw [this]
  simp only [Option.bind_some]
  rw [endLine_tail ht]
  rfl

theorem stepOk_of {step : State → Str → Option (State × Str)} {line : Str} {eff : State → State}
    (h : ∀ {t r : Str}, Tail t r → ∀ st, step st (line ++ t) = some (eff st, r)) (hne : line ≠ []) : StepOk step line eff where
  mid := fun st rest => h (Tail.mid rest) st
  last := fun _ st => by
    have := h Tail.last st
    rwa [List.append_nil] at this
  blank := fun e => absurd e hne

theorem fishSet_ok {x : Str × Str} (hk : IsName x.1) (hv : ∀ c ∈ x.2, c ≠ '$') :
    StepOk (fishStep c!"-gx") (fishSet x) (fun st => st.setVar x.1 x.2) := by
  apply stepOk_of
  · intro t r ht st
    unfold fishSet
    rw [escBash_eq]
    have := fish_set (flag := c!"-gx") fishDq_char bashEsc_ne hk hv ht st
    rw [show c!"set " ++ c!"-gx" ++ c!" " = c!"set -gx " from rfl] at this
    simpa only [List.append_assoc] using this
  · unfold fishSet; simp

/-! ### PowerShell -/

theorem endLine_ps {t r : Str} (h : Tail t r) : endLine t = some r := endLine_tail h

theorem psSq_end {t r : Str} (h : Tail t r) (k : Nat) : psSq (k + 1) ('\'' :: t) = some ([], t) := by
  cases h
  · rfl
  · rfl

theorem psDq_end {t r : Str} (h : Tail t r) (var : Str → Option Str) (k : Nat) : psDq var (k + 1) ('"' :: t) = some ([], t) := by
  cases h
  · rfl
  · rfl

/-- A name PowerShell can take: not empty, without `}` and backtick. -/
theorem psTarget_name {k : Str} (h0 : k ≠ []) (hk : '}' ∉ k ∧ '`' ∉ k) (s : Str) :
    psTarget (psName k ++ ' ' :: s) = some (k, ' ' :: s) := by
  unfold psName
  by_cases ht : k.all isTok = true
  · rw [if_pos ht]
    have ht' : ∀ c ∈ k, isTok c = true := List.all_eq_true.mp ht
    unfold psTarget
    rw [List.append_assoc, show after c!"${env:" (c!"$env:" ++ (k ++ ' ' :: s)) = none from rfl]
    simp only
    rw [after_of]
    simp only [Option.bind_some]
    have h1 : (k ++ ' ' :: s).takeWhile isTok = k := by
      rw [List.takeWhile_append_of_pos ht', List.takeWhile_cons, show isTok ' ' = false from by decide]; simp
    have h2 : (k ++ ' ' :: s).dropWhile isTok = ' ' :: s := by
      rw [List.dropWhile_append_of_pos ht', List.dropWhile_cons, show isTok ' ' = false from by decide]; simp
    rw [h1, h2, if_neg (by simpa using h0)]
  · rw [if_neg ht]
    unfold psTarget
    have hp : ∀ c ∈ k, (c != '}') = true := by
      intro c hc
      simp only [bne_iff_ne]
      exact fun e => hk.1 (e ▸ hc)
    rw [List.append_assoc, List.append_assoc, after_of]
    simp only
    have h1 : (k ++ (c!"}" ++ ' ' :: s)).takeWhile (· != '}') = k := by
      rw [List.takeWhile_append_of_pos hp]; simp
    have h2 : (k ++ (c!"}" ++ ' ' :: s)).dropWhile (· != '}') = '}' :: ' ' :: s := by
      rw [List.dropWhile_append_of_pos hp]; simp
    rw [h1, h2, if_neg (by simpa using hk.2)]
    rfl

theorem ps_other {s : Str} : after c!"\n" ('$' :: s) = none ∧ after c!"#" ('$' :: s) = none ∧
    after c!"Set-Alias -Name " ('$' :: s) = none := ⟨rfl, rfl, rfl⟩

theorem psName_cons (k s : Str) : ∃ s', psName k ++ s = '$' :: s' := by
  unfold psName
  by_cases ht : k.all isTok = true
  · rw [if_pos ht]; exact ⟨_, rfl⟩
  · rw [if_neg ht]; exact ⟨_, rfl⟩

theorem ps_set {k w v : Str} {q : Char} (h0 : k ≠ []) (hk : '}' ∉ k ∧ '`' ∉ k) {t r : Str} (ht : Tail t r) (st : State)
    (hq : psQuoted st.var (q :: (w ++ q :: t)) = some (v, t)) :
    psStep st (psName k ++ (c!" = " ++ (q :: (w ++ q :: t)))) = some (st.setVar k v, r) := by
  unfold psStep
  obtain ⟨s', hs'⟩ := psName_cons k (c!" = " ++ (q :: (w ++ q :: t)))
  rw [hs', ps_other.1]
  simp only
  rw [ps_other.2.1]
  simp only
  rw [ps_other.2.2]
  simp only
  rw [← hs', show c!" = " ++ (q :: (w ++ q :: t)) = ' ' :: ('=' :: ' ' :: (q :: (w ++ q :: t))) from rfl,
    psTarget_name h0 hk]
  simp only [Option.bind_some]
  rw [show after c!" = " (' ' :: ('=' :: ' ' :: (q :: (w ++ q :: t)))) = some (q :: (w ++ q :: t)) from rfl]
  simp only [Option.bind_some]
  rw [hq]
  simp only [Option.bind_some]
  rw [endLine_tail ht]
  rfl

theorem ps_alias {k v : Str} (hk : IsName k) (hv : ∀ c ∈ v, psDouble c = false ∧ c ≠ '`' ∧ c ≠ '$') {t r : Str}
    (ht : Tail t r) (st : State) :
    psStep st (c!"Set-Alias -Name " ++ (k ++ (c!" -Value \"" ++ (v ++ (c!"\"" ++ t))))) = some (st.setAlias k v, r) := by
  unfold psStep
  rw [show after c!"\n" (c!"Set-Alias -Name " ++ (k ++ (c!" -Value \"" ++ (v ++ (c!"\"" ++ t))))) = none from rfl]
  simp only
  rw [show after c!"#" (c!"Set-Alias -Name " ++ (k ++ (c!" -Value \"" ++ (v ++ (c!"\"" ++ t))))) = none from rfl]
  simp only
  rw [after_of]
  simp only
  rw [show c!" -Value \"" ++ (v ++ (c!"\"" ++ t)) = ' ' :: (c!"-Value " ++ ('"' :: (v ++ '"' :: t))) from rfl,
    name_of hk (by decide)]
  simp only [Option.bind_some]
  rw [show after c!" -Value " (' ' :: (c!"-Value " ++ ('"' :: (v ++ '"' :: t)))) = some ('"' :: (v ++ '"' :: t)) from rfl]
  simp only [Option.bind_some]
  have hc : ∀ c, (psDouble c = false ∧ c ≠ '`' ∧ c ≠ '$') →
      ∀ k s, psDq st.var (k + 1) ([c] ++ s) = push [c] (psDq st.var k s) := by
    intro c h k s
    rw [List.cons_append, List.nil_append, psDq.eq_def]
    simp only
    rw [if_neg (by simp [h.1]), if_neg h.2.1, if_neg h.2.2]
  have := dq_read (rd := psDq st.var) (esc := fun c => [c]) (t := t) (q := '"') hc (by simp) (psDq_end ht _) hv
  rw [show v.flatMap (fun c => [c]) = v by simp] at this
  have hq : psQuoted st.var ('"' :: (v ++ '"' :: t)) = some (v, t) := by
    unfold psQuoted
    simp only
    rw [if_neg (by decide), if_pos (by decide)]
    exact this
  rw [hq]
  simp only [Option.bind_some]
  rw [endLine_tail ht]
  rfl

theorem psSet_ok {x : Str × Str} (h0 : x.1 ≠ []) (hk : '}' ∉ x.1 ∧ '`' ∉ x.1)
    (hv : ∀ c ∈ x.2, psSingle c = true → c = '\'') :
    StepOk psStep (psSet x) (fun st => st.setVar x.1 x.2) := by
  apply stepOk_of
  · intro t r ht st
    have hq : psQuoted st.var ('\'' :: (replaceChar '\'' c!"''" x.2 ++ '\'' :: t)) = some (x.2, t) := by
      unfold psQuoted
      simp only
      rw [if_pos (by decide)]
      exact dq_read (rd := psSq) (esc := psEsc) psSq_char psEsc_ne (psSq_end ht) hv
    have := ps_set h0 hk ht st hq
    have e : psSet x ++ t = psName x.1 ++ (c!" = " ++ ('\'' :: (replaceChar '\'' c!"''" x.2 ++ '\'' :: t))) := by
      unfold psSet
      simp [List.append_assoc]
    rw [e]
    exact this
  · unfold psSet; simp

/-! ### Scripts -/

/-- A rex script: comments and blank lines, the variables, a blank line, the aliases, and comments. -/
theorem run_script {step : State → Str → Option (State × Str)} {vl al : Str × Str → Str} {pre mid post : List Str}
    {vars aliases : List (Str × Str)} (hv : (mkeys vars).Nodup) (ha : (mkeys aliases).Nodup)
    (hpre : ∀ l ∈ pre, StepOk step l id) (hmid : ∀ l ∈ mid, StepOk step l id) (hpost : ∀ l ∈ post, StepOk step l id)
    (hvs : ∀ x ∈ vars, StepOk step (vl x) (fun st => st.setVar x.1 x.2))
    (has : ∀ x ∈ aliases, StepOk step (al x) (fun st => st.setAlias x.1 x.2)) (st : State) :
    ∃ st', run step st (joinWith c!"\n" (pre ++ (sortByKey vars).map vl ++ mid ++ (sortByKey aliases).map al ++ post)) = some st' ∧
      (∀ k, st'.var k = (mget vars k).or (st.var k)) ∧ ∀ k, st'.alias k = (mget aliases k).or (st.alias k) := by
  let none_ : List Str → List (Str × (State → State)) := fun l => l.map fun s => (s, id)
  let L : List (Str × (State → State)) := none_ pre ++ (sortByKey vars).map (fun x => (vl x, fun st => st.setVar x.1 x.2)) ++
    none_ mid ++ (sortByKey aliases).map (fun x => (al x, fun st => st.setAlias x.1 x.2)) ++ none_ post
  have e : L.map Prod.fst = pre ++ (sortByKey vars).map vl ++ mid ++ (sortByKey aliases).map al ++ post := by
    simp [L, none_, List.map_append, List.map_map, Function.comp_def]
  have hL : ∀ x ∈ L, StepOk step x.1 x.2 := by
    intro x hx
    simp only [L, none_, List.mem_append, List.mem_map] at hx
    rcases hx with (((⟨l, hl, rfl⟩ | ⟨y, hy, rfl⟩) | ⟨l, hl, rfl⟩) | ⟨y, hy, rfl⟩) | ⟨l, hl, rfl⟩
    · exact hpre l hl
    · exact hvs y ((perm_sort vars).mem_iff.mp hy)
    · exact hmid l hl
    · exact has y ((perm_sort aliases).mem_iff.mp hy)
    · exact hpost l hl
  have hid : ∀ l : List Str, ∀ x ∈ none_ l, x.2 = id := by
    intro l x hx
    simp only [none_, List.mem_map] at hx
    obtain ⟨_, _, rfl⟩ := hx
    rfl
  refine ⟨_, by rw [← e]; exact run_lines L hL _ (Nat.lt_succ_self _) st, ?_⟩
  simp only [L, List.foldl_append, fold_id (hid _), List.foldl_map]
  obtain ⟨v1, v2⟩ := fold_vars (sortByKey vars) (keys_sort hv) st
  obtain ⟨a1, a2⟩ := fold_aliases (sortByKey aliases) (keys_sort ha) ((sortByKey vars).foldl (fun st x => st.setVar x.1 x.2) st)
  constructor
  · intro k
    rw [a2, v1, RexLemmas.mget_perm (perm_sort vars).symm hv]
  · intro k
    rw [a1, v2, RexLemmas.mget_perm (perm_sort aliases).symm ha]

/-- A context script: a heading, then one line for each variable, in any order. -/
theorem run_ctx {step : State → Str → Option (State × Str)} {vl : Str × Str → Str} {pre : List Str}
    {vars : List (Str × Str)} (hv : (mkeys vars).Nodup) (hpre : ∀ l ∈ pre, StepOk step l id)
    (hvs : ∀ x ∈ vars, StepOk step (vl x) (fun st => st.setVar x.1 x.2)) (hb : StepOk step [] id) (st : State) :
    ∃ st', run step st (joinWith c!"\n" (pre ++ vars.map vl ++ [[]])) = some st' ∧
      (∀ k, st'.var k = (mget vars k).or (st.var k)) ∧ st'.alias = st.alias := by
  let none_ : List Str → List (Str × (State → State)) := fun l => l.map fun s => (s, id)
  let L : List (Str × (State → State)) := none_ pre ++ vars.map (fun x => (vl x, fun st => st.setVar x.1 x.2)) ++ none_ [[]]
  have e : L.map Prod.fst = pre ++ vars.map vl ++ [[]] := by
    simp [L, none_, List.map_append, List.map_map, Function.comp_def]
  have hL : ∀ x ∈ L, StepOk step x.1 x.2 := by
    intro x hx
    simp only [L, none_, List.mem_append, List.mem_map, List.mem_singleton] at hx
    rcases hx with (⟨l, hl, rfl⟩ | ⟨y, hy, rfl⟩) | ⟨l, rfl, rfl⟩
    · exact hpre l hl
    · exact hvs y hy
    · exact hb
  have hid : ∀ l : List Str, ∀ x ∈ none_ l, x.2 = id := by
    intro l x hx
    simp only [none_, List.mem_map] at hx
    obtain ⟨_, _, rfl⟩ := hx
    rfl
  refine ⟨_, by rw [← e]; exact run_lines L hL _ (Nat.lt_succ_self _) st, ?_⟩
  simp only [L, List.foldl_append, fold_id (hid _), List.foldl_map]
  obtain ⟨v1, v2⟩ := fold_vars vars hv st
  exact ⟨v1, v2⟩

theorem join_ctx (pre : List Str) (hne : pre ≠ []) (lines : List Str) :
    joinWith c!"\n" (pre ++ lines ++ [[]]) = joinWith c!"\n" pre ++ c!"\n" ++ lines.flatMap (· ++ c!"\n") := by
  have h1 : ∀ lines : List Str, joinWith c!"\n" (lines ++ [[]]) = lines.flatMap (· ++ c!"\n") := by
    intro lines
    induction lines with
    | nil => rfl
    | cons x l ih =>
      cases l with
      | nil => simp [joinWith]
      | cons y l =>
        show x ++ c!"\n" ++ joinWith c!"\n" (y :: l ++ [[]]) = _
        rw [ih]
        simp
  induction pre with
  | nil => exact absurd rfl hne
  | cons x pre ih =>
    cases pre with
    | nil =>
      cases lines with
      | nil => simp [joinWith]
      | cons y l =>
        show x ++ c!"\n" ++ joinWith c!"\n" (y :: l ++ [[]]) = _
        rw [h1]
        simp [joinWith]
    | cons y pre =>
      show x ++ c!"\n" ++ joinWith c!"\n" (y :: pre ++ lines ++ [[]]) = x ++ c!"\n" ++ joinWith c!"\n" (y :: pre) ++ _ ++ _
      rw [ih (by simp)]
      simp [List.append_assoc]

theorem between_ok {step : State → Str → Option (State × Str)} (hb : StepOk step [] id) (e : Env) :
    ∀ l ∈ between e, StepOk step l id := by
  intro l hl
  unfold between at hl
  split at hl
  · cases hl
  · rw [List.mem_singleton.mp hl]; exact hb

theorem heading_ok {step : State → Str → Option (State × Str)} (hs : ∀ st r, step st ('#' :: r) = some (st, afterComment r))
    (hb : StepOk step [] id) : ∀ l ∈ [c!"# Generated by rez-next rex", c!""], StepOk step l id := by
  intro l hl
  rcases List.mem_cons.mp hl with rfl | hl
  · exact comment_ok hs (by decide)
  · rw [List.mem_singleton.mp hl]; exact hb

end ShellLemmas
open ShellLemmas

/-! ### C59: sourcing the generated script gives the variables exactly the computed values -/

/-- C59 (bash and zsh, rex): running the script gives every variable and alias the value the environment has for it and
leaves the others alone, for all names a shell accepts and all values without `$` and backtick.

Full statement: the same for every value.  It is false: see `C59_bash_false`.  Startup commands and sourced scripts are
arbitrary shell text and are left out. -/
theorem C59_bash_partial (e : Env) (st : State) (hv : (mkeys e.vars).Nodup) (ha : (mkeys e.aliases).Nodup)
    (hnames : ∀ x ∈ e.vars, IsName x.1) (hvalues : ∀ x ∈ e.vars, ∀ c ∈ x.2, c ≠ '$' ∧ c ≠ '`')
    (haliases : ∀ x ∈ e.aliases, IsName x.1) (hinfo : ∀ m ∈ e.info, '\n' ∉ m)
    (hstart : e.startup = []) (hsrc : e.sourced = []) :
    ∃ st', run bashStep st (bashScript e) = some st' ∧
      (∀ k, st'.var k = (mget e.vars k).or (st.var k)) ∧ ∀ k, st'.alias k = (mget e.aliases k).or (st.alias k) := by
  have hb := blank_ok bash_blank
  have := run_script (step := bashStep) (vl := bashExport) (al := bashAlias) (pre := [c!"# Generated by rez-next rex", c!""])
    (mid := between e) (post := block [c!"", c!"# Info messages"] (e.info.map fun m => c!"# [info] " ++ replaceChar '\'' c!"'\\''" m))
    hv ha (heading_ok bash_hash hb) (between_ok hb e)
    (by
      intro l hl
      unfold block at hl
      split at hl
      · cases hl
      · rcases List.mem_append.mp hl with hl | hl
        · rcases List.mem_cons.mp hl with rfl | hl
          · exact hb
          · rw [List.mem_singleton.mp hl]; exact comment_ok bash_hash (by decide)
        · obtain ⟨m, hm, rfl⟩ := List.mem_map.mp hl
          refine comment_ok (t := c!" [info] " ++ replaceChar '\'' c!"'\\''" m) bash_hash ?_
          intro hn
          rcases List.mem_append.mp hn with hn | hn
          · exact absurd hn (by decide)
          · unfold replaceChar at hn
            obtain ⟨x, hx, hn⟩ := List.mem_flatMap.mp hn
            split at hn
            · exact absurd hn (by decide)
            · rw [List.mem_singleton] at hn
              exact hinfo m hm (hn ▸ hx))
    (fun x hx => export_ok (hnames x hx) (hvalues x hx)) (fun x hx => alias_ok (haliases x hx)) st
  unfold bashScript bashLines
  rw [hstart, hsrc]
  simpa [block] using this

/-- C59 is false in bash: a value with `$` gets the value of another variable, one with a backtick runs a command. -/
theorem C59_bash_false :
    (∃ st', run bashStep ⟨fun k => if k = c!"HOME" then some c!"/root" else none, fun _ => none⟩
        (bashScript { Env.new with vars := [(c!"A", c!"$HOME")] }) = some st' ∧ st'.var c!"A" = some c!"/root") ∧
    ∀ st, run bashStep st (bashScript { Env.new with vars := [(c!"A", c!"`id`")] }) = none := by
  refine ⟨⟨_, rfl, rfl⟩, fun st => ?_⟩
  rfl

/-- Not vacuous: quotes, backslashes, a space; an alias with both kinds of quotes; a message. -/
example : ∃ st', run bashStep ⟨fun k => if k = c!"HOME" then some c!"/root" else none, fun _ => none⟩
      (bashScript { Env.new with
        vars := [(c!"PATH", c!"/a b:\\x\"y"), (c!"A1", c!"")], aliases := [(c!"ll", c!"echo 'it' \"x\" $HOME")], info := [c!"hi"] }) =
        some st' ∧ st'.var c!"PATH" = some c!"/a b:\\x\"y" ∧ st'.var c!"HOME" = some c!"/root" ∧
      st'.alias c!"ll" = some c!"echo 'it' \"x\" $HOME" := by
  obtain ⟨st', h1, h2, h3⟩ := C59_bash_partial { Env.new with
        vars := [(c!"PATH", c!"/a b:\\x\"y"), (c!"A1", c!"")], aliases := [(c!"ll", c!"echo 'it' \"x\" $HOME")], info := [c!"hi"] }
    ⟨fun k => if k = c!"HOME" then some c!"/root" else none, fun _ => none⟩ (by decide) (by decide)
    (by
      intro x hx
      simp only [List.mem_cons, List.not_mem_nil, or_false] at hx
      rcases hx with rfl | rfl
      · exact ⟨'P', c!"ATH", rfl, by decide, by decide⟩
      · exact ⟨'A', c!"1", rfl, by decide, by decide⟩)
    (by decide)
    (by
      intro x hx
      simp only [List.mem_cons, List.not_mem_nil, or_false] at hx
      subst hx
      exact ⟨'l', c!"l", rfl, by decide, by decide⟩)
    (by decide) rfl rfl
  exact ⟨st', h1, h2 _, h2 _, h3 _⟩

/-- C59 (fish, rex): for values without `$`, and commands without `$`, `"` and backslash.

Full statement: the same for every value and command; false, see `C59_fish_false`. -/
theorem C59_fish_partial (e : Env) (st : State) (hv : (mkeys e.vars).Nodup) (ha : (mkeys e.aliases).Nodup)
    (hnames : ∀ x ∈ e.vars, IsName x.1) (hvalues : ∀ x ∈ e.vars, '$' ∉ x.2) (haliases : ∀ x ∈ e.aliases, IsName x.1)
    (hcommands : ∀ x ∈ e.aliases, ∀ c ∈ x.2, c ≠ '"' ∧ c ≠ '\\' ∧ c ≠ '$')
    (hstart : e.startup = []) (hsrc : e.sourced = []) :
    ∃ st', run (fishStep c!"-gx") st (fishScript e) = some st' ∧
      (∀ k, st'.var k = (mget e.vars k).or (st.var k)) ∧ ∀ k, st'.alias k = (mget e.aliases k).or (st.alias k) := by
  have hb := blank_ok (fish_blank c!"-gx")
  have := run_script (step := fishStep c!"-gx") (vl := fishSet) (al := fun x => c!"alias " ++ x.1 ++ c!" \"" ++ x.2 ++ c!"\"")
    (pre := [c!"# Generated by rez-next rex", c!""]) (mid := between e) (post := [])
    hv ha (heading_ok (fish_hash _) hb) (between_ok hb e) (by simp)
    (fun x hx => fishSet_ok (hnames x hx) (fun c hc e => hvalues x hx (e ▸ hc)))
    (fun x hx => stepOk_of (by
      intro t r ht st
      simpa only [List.append_assoc] using fish_alias (haliases x hx) (hcommands x hx) ht st) (by simp)) st
  unfold fishScript
  rw [hstart, hsrc]
  simpa [block] using this

/-- C59 is false in fish: `$` in a value, and a quote in the command of an alias. -/
theorem C59_fish_false :
    (∃ st', run (fishStep c!"-gx") ⟨fun k => if k = c!"HOME" then some c!"/root" else none, fun _ => none⟩
        (fishScript { Env.new with vars := [(c!"A", c!"$HOME")] }) = some st' ∧ st'.var c!"A" = some c!"/root") ∧
    ∀ st, run (fishStep c!"-gx") st (fishScript { Env.new with aliases := [(c!"a", c!"echo \"x\"")] }) = none := by
  refine ⟨⟨_, rfl, rfl⟩, fun st => ?_⟩
  rfl

/-- Not vacuous: a value with quotes and a backslash. -/
example : ∃ st', run (fishStep c!"-gx") ⟨fun _ => none, fun _ => none⟩
      (fishScript { Env.new with vars := [(c!"A", c!"\\x\"y'")], aliases := [(c!"ll", c!"ls -l")] }) = some st' ∧
      st'.var c!"A" = some c!"\\x\"y'" ∧ st'.alias c!"ll" = some c!"ls -l" := by
  obtain ⟨st', h1, h2, h3⟩ := C59_fish_partial
    { Env.new with vars := [(c!"A", c!"\\x\"y'")], aliases := [(c!"ll", c!"ls -l")] }
    ⟨fun _ => none, fun _ => none⟩ (by decide) (by decide)
    (by
      intro x hx
      rw [List.mem_singleton.mp hx]
      exact ⟨'A', [], rfl, by decide, by decide⟩)
    (by decide)
    (by
      intro x hx
      rw [List.mem_singleton.mp hx]
      exact ⟨'l', c!"l", rfl, by decide, by decide⟩)
    (by decide) rfl rfl
  exact ⟨st', h1, h2 _, h3 _⟩

/-- C59 (PowerShell, rex): for every name without `}` and backtick, values without typographic single quotes, and
commands without `$`, backtick and double quotes.

Full statement: the same for every name, value and command; false, see `C59_powershell_false`. -/
theorem C59_powershell_partial (e : Env) (st : State) (hv : (mkeys e.vars).Nodup) (ha : (mkeys e.aliases).Nodup)
    (hnames : ∀ x ∈ e.vars, x.1 ≠ [] ∧ '}' ∉ x.1 ∧ '`' ∉ x.1) (hvalues : ∀ x ∈ e.vars, ∀ c ∈ c!"‘’‚‛", c ∉ x.2)
    (haliases : ∀ x ∈ e.aliases, IsName x.1)
    (hcommands : ∀ x ∈ e.aliases, ∀ c ∈ x.2, c ∉ c!"\"“”„`$")
    (hstart : e.startup = []) (hsrc : e.sourced = []) :
    ∃ st', run psStep st (psScript e) = some st' ∧
      (∀ k, st'.var k = (mget e.vars k).or (st.var k)) ∧ ∀ k, st'.alias k = (mget e.aliases k).or (st.alias k) := by
  have hb := blank_ok ps_blank
  have := run_script (step := psStep) (vl := psSet) (al := fun x => c!"Set-Alias -Name " ++ x.1 ++ c!" -Value \"" ++ x.2 ++ c!"\"")
    (pre := [c!"# Generated by rez-next rex", c!""]) (mid := between e) (post := [])
    hv ha (heading_ok ps_hash hb) (between_ok hb e) (by simp)
    (fun x hx => psSet_ok (hnames x hx).1 (hnames x hx).2 (by
      intro c hc hp
      have h := hvalues x hx
      simp only [List.mem_cons, List.not_mem_nil, or_false, forall_eq_or_imp, forall_eq] at h
      unfold psSingle at hp
      simp only [Bool.or_eq_true, beq_iff_eq] at hp
      rcases hp with (((hp | hp) | hp) | hp) | hp
      · exact hp
      · exact absurd (hp ▸ hc) h.1
      · exact absurd (hp ▸ hc) h.2.1
      · exact absurd (hp ▸ hc) h.2.2.1
      · exact absurd (hp ▸ hc) h.2.2.2))
    (fun x hx => stepOk_of (by
      intro t r ht st
      have hc : ∀ c ∈ x.2, psDouble c = false ∧ c ≠ '`' ∧ c ≠ '$' := by
        intro c hc
        have h := hcommands x hx c hc
        simp only [List.mem_cons, List.not_mem_nil, or_false, not_or] at h
        unfold psDouble
        simp [h]
      simpa only [List.append_assoc] using ps_alias (haliases x hx) hc ht st) (by simp)) st
  unfold psScript
  rw [hstart, hsrc]
  simpa [block] using this

/-- C59 is false in PowerShell: a typographic quote in a value ends it; `$` in the command of an alias is expanded. -/
theorem C59_powershell_false :
    (∀ st, run psStep st (psScript { Env.new with vars := [(c!"A", c!"it’s")] }) = none) ∧
    ∃ st', run psStep ⟨fun k => if k = c!"x" then some c!"rm" else none, fun _ => none⟩
        (psScript { Env.new with aliases := [(c!"a", c!"$x")] }) = some st' ∧ st'.alias c!"a" = some c!"rm" := by
  refine ⟨fun st => ?_, ⟨_, rfl, rfl⟩⟩
  rfl

/-- Not vacuous: a name that needs braces, a value with quotes, `$` and a backtick. -/
example : ∃ st', run psStep ⟨fun _ => none, fun _ => none⟩
      (psScript { Env.new with vars := [(c!"A(x86)", c!"it's $5 `n \"")] }) = some st' ∧
      st'.var c!"A(x86)" = some c!"it's $5 `n \"" := by
  obtain ⟨st', h1, h2, _⟩ := C59_powershell_partial { Env.new with vars := [(c!"A(x86)", c!"it's $5 `n \"")] }
    ⟨fun _ => none, fun _ => none⟩ (by decide) (by decide) (by decide) (by decide) (fun x hx => nomatch hx) (fun x hx => nomatch hx) rfl rfl
  exact ⟨st', h1, h2 _⟩

/-- C59 (bash, the script of a resolved context): for values without backslash.

Full statement: the same for every value; false, see `C59_context_false`. -/
theorem C59_context_bash_partial (vars : List (Str × Str)) (st : State) (hv : (mkeys vars).Nodup)
    (hnames : ∀ x ∈ vars, IsName x.1) (hvalues : ∀ x ∈ vars, '\\' ∉ x.2) :
    ∃ st', run bashStep st (ctxBash vars) = some st' ∧
      (∀ k, st'.var k = (mget vars k).or (st.var k)) ∧ st'.alias = st.alias := by
  have hb := blank_ok bash_blank
  have := run_ctx (step := bashStep) (vl := fun x => c!"export " ++ x.1 ++ c!"=\"" ++ ctxEscBash x.2 ++ c!"\"")
    (pre := [c!"#!/bin/bash", c!"# Generated by rez-core", c!""]) hv
    (by
      intro l hl
      rcases List.mem_cons.mp hl with rfl | hl
      · exact comment_ok bash_hash (by decide)
      rcases List.mem_cons.mp hl with rfl | hl
      · exact comment_ok bash_hash (by decide)
      · rw [List.mem_singleton.mp hl]; exact hb)
    (fun x hx => stepOk_of (by
      intro t r ht st
      rw [ctxEscBash_eq]
      simpa only [List.append_assoc] using bash_export (ok := (· ≠ '\\')) ctxBashDq_char ctxBashEsc_ne (hnames x hx)
        (fun c hc e => hvalues x hx (e ▸ hc)) ht st) (by simp)) hb st
  rw [join_ctx _ (by simp)] at this
  unfold ctxBash
  simpa [joinWith, List.flatMap_map] using this

/-- Not vacuous: `$`, backtick and quote. -/
example : ∃ st', run bashStep ⟨fun _ => none, fun _ => none⟩ (ctxBash [(c!"A", c!"$HOME `id` \"x\"")]) = some st' ∧
    st'.var c!"A" = some c!"$HOME `id` \"x\"" := by
  obtain ⟨st', h1, h2, _⟩ := C59_context_bash_partial [(c!"A", c!"$HOME `id` \"x\"")] ⟨fun _ => none, fun _ => none⟩
    (by decide) (by
      intro x hx
      rw [List.mem_singleton.mp hx]
      exact ⟨'A', [], rfl, by decide, by decide⟩) (by decide)
  exact ⟨st', h1, h2 _⟩

/-- C59 (fish, the script of a resolved context): for values without backslash. -/
theorem C59_context_fish_partial (vars : List (Str × Str)) (st : State) (hv : (mkeys vars).Nodup)
    (hnames : ∀ x ∈ vars, IsName x.1) (hvalues : ∀ x ∈ vars, '\\' ∉ x.2) :
    ∃ st', run (fishStep c!"-x") st (ctxFish vars) = some st' ∧
      (∀ k, st'.var k = (mget vars k).or (st.var k)) ∧ st'.alias = st.alias := by
  have hb := blank_ok (fish_blank c!"-x")
  have := run_ctx (step := fishStep c!"-x") (vl := fun x => c!"set -x " ++ x.1 ++ c!" \"" ++ ctxEscFish x.2 ++ c!"\"")
    (pre := [c!"#!/usr/bin/env fish", c!"# Generated by rez-core", c!""]) hv
    (by
      intro l hl
      rcases List.mem_cons.mp hl with rfl | hl
      · exact comment_ok (fish_hash _) (by decide)
      rcases List.mem_cons.mp hl with rfl | hl
      · exact comment_ok (fish_hash _) (by decide)
      · rw [List.mem_singleton.mp hl]; exact hb)
    (fun x hx => stepOk_of (by
      intro t r ht st
      rw [ctxEscFish_eq]
      have := fish_set (flag := c!"-x") (ok := (· ≠ '\\')) ctxFishDq_char ctxFishEsc_ne (hnames x hx)
        (fun c hc e => hvalues x hx (e ▸ hc)) ht st
      rw [show c!"set " ++ c!"-x" ++ c!" " = c!"set -x " from rfl] at this
      simpa only [List.append_assoc] using this) (by simp)) hb st
  rw [join_ctx _ (by simp)] at this
  unfold ctxFish
  simpa [joinWith, List.flatMap_map] using this

/-- C59 (PowerShell, the script of a resolved context): for values without backtick and typographic double quotes. -/
theorem C59_context_powershell_partial (vars : List (Str × Str)) (st : State) (hv : (mkeys vars).Nodup)
    (hnames : ∀ x ∈ vars, x.1 ≠ [] ∧ ∀ c ∈ x.1, isTok c = true) (hvalues : ∀ x ∈ vars, ∀ c ∈ c!"`“”„", c ∉ x.2) :
    ∃ st', run psStep st (ctxPs vars) = some st' ∧
      (∀ k, st'.var k = (mget vars k).or (st.var k)) ∧ st'.alias = st.alias := by
  have hb := blank_ok ps_blank
  have := run_ctx (step := psStep) (vl := fun x => c!"$env:" ++ x.1 ++ c!" = \"" ++ ctxEscPs x.2 ++ c!"\"")
    (pre := [c!"# Generated by rez-core", c!""]) hv
    (by
      intro l hl
      rcases List.mem_cons.mp hl with rfl | hl
      · exact comment_ok ps_hash (by decide)
      · rw [List.mem_singleton.mp hl]; exact hb)
    (fun x hx => stepOk_of (by
      intro t r ht st
      have h := hvalues x hx
      simp only [List.mem_cons, List.not_mem_nil, or_false, forall_eq_or_imp, forall_eq] at h
      have hall : x.1.all isTok = true := List.all_eq_true.mpr (hnames x hx).2
      have hq : psQuoted st.var ('"' :: (ctxEscPs x.2 ++ '"' :: t)) = some (x.2, t) := by
        rw [ctxEscPs_eq]
        unfold psQuoted
        simp only
        rw [if_neg (by decide), if_pos (by decide)]
        refine dq_read (rd := psDq st.var) (esc := ctxPsEsc) (ctxPsDq_char st.var) ctxPsEsc_ne (psDq_end ht _) ?_
        intro c hc
        refine ⟨fun e => h.1 (e ▸ hc), fun hp => ?_⟩
        unfold psDouble at hp
        simp only [Bool.or_eq_true, beq_iff_eq] at hp
        rcases hp with ((hp | hp) | hp) | hp
        · exact hp
        · exact absurd (hp ▸ hc) h.2.1
        · exact absurd (hp ▸ hc) h.2.2.1
        · exact absurd (hp ▸ hc) h.2.2.2
      have := ps_set (hnames x hx).1 ⟨fun hm => absurd ((hnames x hx).2 _ hm) (by decide),
        fun hm => absurd ((hnames x hx).2 _ hm) (by decide)⟩ ht st hq
      unfold psName at this
      rw [if_pos hall] at this
      simpa [List.append_assoc] using this) (by simp)) hb st
  rw [join_ctx _ (by simp)] at this
  unfold ctxPs
  simpa [joinWith, List.flatMap_map] using this

/-- C59 is false for the script of a resolved context: a backslash before `"` or at the end of a value, a backtick. -/
theorem C59_context_false :
    (∀ st, run bashStep st (ctxBash [(c!"A", c!"C:\\")]) = none) ∧
    (∀ st, run (fishStep c!"-x") st (ctxFish [(c!"A", c!"C:\\")]) = none) ∧
    (∀ st, ∃ st', run bashStep st (ctxBash [(c!"A", c!"\\\\host")]) = some st' ∧ st'.var c!"A" = some c!"\\host") ∧
    ∀ st, ∃ st', run psStep st (ctxPs [(c!"A", c!"a`nb")]) = some st' ∧ st'.var c!"A" = some c!"a\nb" := by
  refine ⟨fun st => ?_, fun st => ?_, fun st => ⟨_, rfl, rfl⟩, fun st => ⟨_, rfl, rfl⟩⟩ <;> rfl

/-! ### C106: the script does not depend on hash order -/

namespace ShellLemmas

theorem sort_perm {l l' : List (Str × Str)} (h : l.Perm l') (hn : (mkeys l).Nodup) : sortByKey l = sortByKey l' := by
  have hle : ∀ l : List (Str × Str), (sortByKey l).Pairwise fun a b => cmpStr a.1 b.1 ≠ .gt := by
    intro l
    have : Std.Total fun a b : Str × Str => cmpStr a.1 b.1 ≠ .gt := ⟨fun a b => by
      have := cmpStr_swap a.1 b.1
      cases h : cmpStr a.1 b.1 <;> rw [h] at this <;> simp_all [Ordering.swap] <;> rw [← this] <;> simp⟩
    have : IsTrans (Str × Str) fun a b => cmpStr a.1 b.1 ≠ .gt := ⟨fun a b c h1 h2 => by
      have := Std.TransCmp.isLE_trans (cmp := cmpStr) (a := a.1) (b := b.1) (c := c.1)
      exact Ordering.isLE_iff_ne_gt.mp (this (Ordering.isLE_iff_ne_gt.mpr h1) (Ordering.isLE_iff_ne_gt.mpr h2))⟩
    exact List.pairwise_insertionSort _ l
  refine List.Perm.eq_of_pairwise (le := fun a b => cmpStr a.1 b.1 ≠ .gt) ?_ (hle l) (hle l') (((perm_sort l).trans h).trans (perm_sort l').symm)
  intro a b ha hb h1 h2
  have hk : a.1 = b.1 := by
    rw [← cmpStr_eq_iff]
    have := cmpStr_swap a.1 b.1
    cases h : cmpStr a.1 b.1 with
    | eq => rfl
    | gt => exact absurd h h1
    | lt => rw [h] at this; exact absurd this.symm h2
  have ha' := mget_of_mem hn ((perm_sort l).mem_iff.mp ha)
  have hb' := mget_of_mem hn (h.mem_iff.mpr ((perm_sort l').mem_iff.mp hb))
  rw [hk, hb'] at ha'
  exact Prod.ext hk (Option.some.inj ha').symm

end ShellLemmas

/-- C106: two environments with the same variables and aliases, however their maps iterate, give the same script for
every shell. -/
theorem C106_rex (e e' : Env) (hv : e.vars.Perm e'.vars) (ha : e.aliases.Perm e'.aliases) (hnv : (mkeys e.vars).Nodup)
    (hna : (mkeys e.aliases).Nodup) (hs : e.startup = e'.startup) (hsrc : e.sourced = e'.sourced) (hi : e.info = e'.info)
    (sh : Shell) : script e sh = script e' sh := by
  have h1 := sort_perm hv hnv
  have h2 := sort_perm ha hna
  have hb : between e = between e' := by
    unfold between
    have hx : ∀ {l l' : List (Str × Str)}, l.Perm l' → l.isEmpty = l'.isEmpty := by
      intro l l' h
      rw [Bool.eq_iff_iff, List.isEmpty_iff_length_eq_zero, List.isEmpty_iff_length_eq_zero, h.length_eq]
    rw [hx hv, hx ha]
  cases sh <;> simp [script, bashScript, bashLines, fishScript, cmdScript, psScript, h1, h2, hb, hs, hsrc, hi]

/-- Not vacuous: two orders. -/
example : script { Env.new with vars := [(c!"B", c!"2"), (c!"A", c!"1")] } .bash =
    script { Env.new with vars := [(c!"A", c!"1"), (c!"B", c!"2")] } .bash :=
  C106_rex { Env.new with vars := [(c!"B", c!"2"), (c!"A", c!"1")] } { Env.new with vars := [(c!"A", c!"1"), (c!"B", c!"2")] }
    (List.Perm.swap (c!"A", c!"1") (c!"B", c!"2") []) (List.Perm.refl _) (by decide) (by decide) rfl rfl rfl _

/-- C106 is false for the script of a resolved context, which lists the variables in the order of its map. -/
theorem C106_context_false : ∃ vars vars' : List (Str × Str), vars.Perm vars' ∧ (mkeys vars).Nodup ∧
    ctxBash vars ≠ ctxBash vars' :=
  ⟨[(c!"B", c!"2"), (c!"A", c!"1")], [(c!"A", c!"1"), (c!"B", c!"2")], List.Perm.swap _ _ _, by decide, by decide⟩

end Rez.Props
