import Verif.Spec.Scanner
import Verif.Props.BuildCopy
/-!
# C188 – C192: scanning repositories
-/
namespace Rez.Props
open Rez Rez.Files Rez.Scanner Rez.Scanner.Spec Rez.Build Rez.Build.Spec Rez.Spec.Files

/-! ## C188: patterns -/

namespace ScannerLemmas

theorem many_iff (p : Char → Bool) (k : Str → Bool) (s : Str) : many p k s = true ↔ ∃ a b, s = a ++ b ∧ a.all p = true ∧ k b = true := by
  induction s with
  | nil =>
    rw [many]
    constructor
    · intro h; exact ⟨[], [], rfl, rfl, h⟩
    · rintro ⟨a, b, e, _, h⟩
      have := List.append_eq_nil_iff.1 e.symm
      rw [this.2] at h; exact h
  | cons d r ih =>
    rw [many, Bool.or_eq_true, Bool.and_eq_true, ih]
    constructor
    · rintro (h | ⟨h, a, b, rfl, h1, h2⟩)
      · exact ⟨[], _, rfl, rfl, h⟩
      · exact ⟨d :: a, b, rfl, by rw [List.all_cons, h, h1]; rfl, h2⟩
    · rintro ⟨a, b, e, h1, h2⟩
      cases a with
      | nil => left; rw [List.nil_append] at e; rw [e]; exact h2
      | cons c a =>
        rw [List.cons_append] at e
        obtain ⟨rfl, rfl⟩ := List.cons.inj e
        rw [List.all_cons, Bool.and_eq_true] at h1
        exact .inr ⟨h1.1, a, b, rfl, h1.2, h2⟩

theorem all_ne (a : Str) (c : Char) : (a.all fun d => d != c) = true ↔ c ∉ a := by
  rw [List.all_eq_true]
  constructor
  · intro h hc
    have := h c hc
    simp at this
  · intro h x hx
    simp only [bne_iff_ne, ne_eq]
    rintro rfl
    exact h hx

theorem tokens_one {s : Str} (h : s.head? ≠ some '*') : tokens ('*' :: s) = .seg :: tokens s := by
  cases s with
  | nil => rfl
  | cons c s =>
    have hc : c ≠ '*' := fun e => h (by rw [e]; rfl)
    rw [tokens]
    intro s' e
    exact hc (List.cons.inj e).1

theorem tokens_char {c : Char} (h1 : c ≠ '*') (h2 : c ≠ '?') (h3 : c ≠ '.') (s : Str) : tokens (c :: s) = .lit c :: tokens s := by
  rw [tokens]
  · intro s' e _; exact h1 e
  · intro e; exact h1 e
  · intro e; exact h2 e
  · intro e; exact h3 e

theorem fits_nil (s : Str) : Fits [] s ↔ s = [] := by
  constructor
  · intro h; cases h; rfl
  · rintro rfl; exact .nil

theorem fits_deep (p s : Str) : Fits ('*' :: '*' :: p) s ↔ ∃ a b, s = a ++ b ∧ '\n' ∉ a ∧ Fits p b := by
  constructor
  · intro h
    cases h with
    | deep h1 h2 => exact ⟨_, _, rfl, h1, h2⟩
    | star h1 _ _ => exact absurd rfl h1
    | char h1 => exact absurd rfl h1
  · rintro ⟨a, b, rfl, h1, h2⟩; exact .deep h1 h2

theorem fits_star {p : Str} (hp : p.head? ≠ some '*') (s : Str) : Fits ('*' :: p) s ↔ ∃ a b, s = a ++ b ∧ '/' ∉ a ∧ Fits p b := by
  constructor
  · intro h
    cases h with
    | deep h1 h2 => exact absurd rfl hp
    | star _ h1 h2 => exact ⟨_, _, rfl, h1, h2⟩
    | char h1 => exact absurd rfl h1
  · rintro ⟨a, b, rfl, h1, h2⟩; exact .star hp h1 h2

theorem fits_char {c : Char} {p s : Str} (h1 : c ≠ '*') (h2 : c ≠ '?') (h3 : c ≠ '.') (h : Fits (c :: p) s) : ∃ r, s = c :: r ∧ Fits p r := by
  generalize e : c :: p = q at h
  cases h with
  | nil => cases e
  | deep => exact absurd (List.cons.inj e).1 h1
  | star => exact absurd (List.cons.inj e).1 h1
  | one => exact absurd (List.cons.inj e).1 h2
  | dot => exact absurd (List.cons.inj e).1 h3
  | char _ _ _ b =>
    obtain ⟨rfl, rfl⟩ := List.cons.inj e
    exact ⟨_, rfl, b⟩

theorem fits_iff (n : Nat) : ∀ (p s : Str), p.length ≤ n → (hits (tokens p) s = true ↔ Fits p s) := by
  induction n with
  | zero =>
    intro p s hn
    have : p = [] := List.length_eq_zero_iff.1 (by omega)
    subst this
    rw [fits_nil, tokens, hits, List.isEmpty_iff]
  | succ n ih =>
    intro p s hn
    cases p with
    | nil => rw [fits_nil, tokens, hits, List.isEmpty_iff]
    | cons c p =>
      rw [List.length_cons] at hn
      by_cases h1 : c = '*'
      · subst h1
        by_cases h2 : p.head? = some '*'
        · cases p with
          | nil => cases h2
          | cons e p =>
            have : e = '*' := by simpa using h2
            subst this
            rw [List.length_cons] at hn
            rw [tokens, hits, many_iff, fits_deep]
            constructor
            · rintro ⟨a, b, e, ha, hb⟩; exact ⟨a, b, e, (all_ne a _).1 ha, (ih p b (by omega)).1 hb⟩
            · rintro ⟨a, b, e, ha, hb⟩; exact ⟨a, b, e, (all_ne a _).2 ha, (ih p b (by omega)).2 hb⟩
        · rw [tokens_one h2, hits, many_iff, fits_star h2]
          constructor
          · rintro ⟨a, b, e, ha, hb⟩; exact ⟨a, b, e, (all_ne a _).1 ha, (ih p b (by omega)).1 hb⟩
          · rintro ⟨a, b, e, ha, hb⟩; exact ⟨a, b, e, (all_ne a _).2 ha, (ih p b (by omega)).2 hb⟩
      · by_cases h2 : c = '?'
        · subst h2
          rw [tokens, hits]
          cases s with
          | nil => exact ⟨fun h => (by cases h), fun h => (by cases h)⟩
          | cons d s =>
            simp only [Bool.and_eq_true, bne_iff_ne, ne_eq]
            constructor
            · rintro ⟨a, b⟩; exact .one a ((ih p s (by omega)).1 b)
            · intro h
              cases h with
              | one a b => exact ⟨a, (ih p s (by omega)).2 b⟩
              | char _ h _ _ => exact absurd rfl h
        · by_cases h3 : c = '.'
          · subst h3
            rw [tokens, hits]
            cases s with
            | nil => exact ⟨fun h => (by cases h), fun h => (by cases h)⟩
            | cons d s =>
              simp only [Bool.and_eq_true, bne_iff_ne, ne_eq]
              constructor
              · rintro ⟨a, b⟩; exact .dot a ((ih p s (by omega)).1 b)
              · intro h
                cases h with
                | dot a b => exact ⟨a, (ih p s (by omega)).2 b⟩
                | char _ _ h _ => exact absurd rfl h
          · rw [tokens_char h1 h2 h3, hits]
            cases s with
            | nil =>
              refine ⟨fun h => (by cases h), fun h => ?_⟩
              obtain ⟨_, e, _⟩ := fits_char h1 h2 h3 h
              cases e
            | cons d s =>
              simp only [Bool.and_eq_true, beq_iff_eq]
              constructor
              · rintro ⟨rfl, b⟩; exact .char h1 h2 h3 ((ih p s (by omega)).1 b)
              · intro h
                obtain ⟨r, e, hr⟩ := fits_char h1 h2 h3 h
                obtain ⟨rfl, rfl⟩ := List.cons.inj e
                exact ⟨rfl, (ih p _ (by omega)).2 hr⟩

theorem mem_tails (s x : Str) : x ∈ tails s ↔ ∃ a, s = a ++ '/' :: x := by
  induction s with
  | nil => simp [tails]
  | cons c s ih =>
    rw [tails]
    by_cases h : c = '/'
    · subst h
      rw [if_pos rfl, List.mem_cons, ih]
      constructor
      · rintro (rfl | ⟨a, rfl⟩)
        · exact ⟨[], rfl⟩
        · exact ⟨'/' :: a, rfl⟩
      · rintro ⟨a, e⟩
        cases a with
        | nil => left; exact (List.cons.inj e).2.symm
        | cons b a => right; exact ⟨a, (List.cons.inj e).2⟩
    · rw [if_neg h, ih]
      constructor
      · rintro ⟨a, rfl⟩; exact ⟨c :: a, rfl⟩
      · rintro ⟨a, e⟩
        cases a with
        | nil => exact absurd (List.cons.inj e).1 h
        | cons b a => exact ⟨a, (List.cons.inj e).2⟩

theorem join_cons (x : Str) (l : Path) : '/' :: joinWith c!"/" (x :: l) = '/' :: x ++ (if l = [] then [] else '/' :: joinWith c!"/" l) := by
  cases l with
  | nil => simp [joinWith]
  | cons y l => simp [joinWith]

/-- What follows a `/` in the text of a path is the text of the last parts. -/
theorem tails_text : ∀ (p : Path), (∀ x ∈ p, '/' ∉ x) → ∀ t, (t ≠ [] ∧ t ∈ tails ('/' :: joinWith c!"/" p)) ↔ (t ≠ [] ∧ ∃ q, q ≠ [] ∧ q <:+ p ∧ t = joinWith c!"/" q) := by
  intro p
  induction p with
  | nil =>
    intro _ t
    constructor
    · rintro ⟨h, ht⟩
      simp [joinWith, tails] at ht
      exact absurd ht h
    · rintro ⟨h, q, hq, hs, e⟩
      exact absurd (List.suffix_nil.1 hs) hq
  | cons x p ih =>
    intro hx t
    have free : ∀ (x r : Str), '/' ∉ x → tails (x ++ r) = tails r := by
      intro x r h
      induction x with
      | nil => rfl
      | cons c x ih =>
        simp only [List.mem_cons, not_or] at h
        rw [List.cons_append, tails, if_neg (Ne.symm h.1), ih h.2]
    have e1 : tails ('/' :: joinWith c!"/" (x :: p)) = joinWith c!"/" (x :: p) :: (if p = [] then [] else tails ('/' :: joinWith c!"/" p)) := by
      rw [tails, if_pos rfl]
      congr 1
      have : joinWith c!"/" (x :: p) = x ++ (if p = [] then [] else '/' :: joinWith c!"/" p) := (List.cons.inj (join_cons x p)).2
      rw [this, free _ _ (hx x List.mem_cons_self)]
      split <;> rfl
    rw [e1, List.mem_cons]
    have ih' := ih (fun y hy => hx y (List.mem_cons_of_mem _ hy)) t
    constructor
    · rintro ⟨h, rfl | ht⟩
      · exact ⟨h, x :: p, by simp, List.suffix_refl _, rfl⟩
      · split at ht
        · cases ht
        · obtain ⟨_, q, a, b, c⟩ := ih'.1 ⟨h, ht⟩
          exact ⟨h, q, a, b.trans (List.suffix_cons _ _), c⟩
    · rintro ⟨h, q, hq, hs, rfl⟩
      refine ⟨h, ?_⟩
      rcases List.suffix_cons_iff.1 hs with rfl | hs
      · left; rfl
      · right
        rw [if_neg]
        · exact (ih'.2 ⟨h, q, hq, hs, rfl⟩).2
        · rintro rfl; exact hq (List.suffix_nil.1 hs)

theorem slashed_plain {s : Str} (h : '\\' ∉ s) : slashed s = s := by
  unfold slashed
  conv => rhs; rw [← List.map_id s]
  apply List.map_congr_left
  intro c hc
  rw [if_neg]
  · rfl
  · rintro rfl; exact h hc

theorem join_free {c : Char} (hc : c ≠ '/') : ∀ (p : Path), (∀ x ∈ p, c ∉ x) → c ∉ joinWith c!"/" p := by
  intro p
  induction p with
  | nil => intro _ h; simp [joinWith] at h
  | cons x p ih =>
    intro h
    have e : joinWith c!"/" (x :: p) = x ++ (if p = [] then [] else '/' :: joinWith c!"/" p) := (List.cons.inj (join_cons x p)).2
    rw [e, List.mem_append, not_or]
    refine ⟨h x List.mem_cons_self, ?_⟩
    split
    · simp
    · rw [List.mem_cons, not_or]
      exact ⟨hc, ih fun y hy => h y (List.mem_cons_of_mem _ hy)⟩

theorem join_ne {q : Path} (hq : q ≠ []) (h : ∀ x ∈ q, x ≠ []) : joinWith c!"/" q ≠ [] := by
  cases q with
  | nil => exact absurd rfl hq
  | cons x q =>
    have e : joinWith c!"/" (x :: q) = x ++ (if q = [] then [] else '/' :: joinWith c!"/" q) := (List.cons.inj (join_cons x q)).2
    rw [e]
    intro hc
    exact h x List.mem_cons_self (List.append_eq_nil_iff.1 hc).1

end ScannerLemmas
open ScannerLemmas

/-- **C188**: what a pattern fits. -/
theorem C188_pattern (p s : Str) : hits (tokens p) s = true ↔ Fits p s := fits_iff _ p s (Nat.le_refl _)

/-- **C188**: a directory is left out exactly if a pattern fits its path or the last parts of it. -/
theorem C188_excluded (cfg : Config) (p : Path) (hp : Spec.Plain p) : excluded cfg p = true ↔ LeftOut cfg p := by
  unfold excluded LeftOut
  have hs : slashed (pathText p) = '/' :: joinWith c!"/" p := by
    unfold pathText
    apply slashed_plain
    rw [List.mem_cons, not_or]
    exact ⟨by decide, join_free (by decide) p fun x hx => (hp x hx).2.2⟩
  rw [List.any_eq_true, hs]
  apply exists_congr; intro x
  apply and_congr_right; intro _
  unfold excludes
  rw [Bool.or_eq_true, C188_pattern, List.any_eq_true]
  apply or_congr_right
  constructor
  · rintro ⟨t, ht, h⟩
    rw [Bool.and_eq_true, C188_pattern] at h
    have hne : t ≠ [] := by
      rintro rfl
      exact absurd h.1 (by decide)
    obtain ⟨_, q, a, b, rfl⟩ := (tails_text p (fun x hx => (hp x hx).2.1) t).1 ⟨hne, ht⟩
    exact ⟨q, a, b, h.2⟩
  · rintro ⟨q, a, b, h⟩
    have hne := join_ne a fun x hx => (hp x (b.subset hx)).1
    refine ⟨_, ((tails_text p (fun x hx => (hp x hx).2.1) _).2 ⟨hne, q, a, b, rfl⟩).2, ?_⟩
    rw [Bool.and_eq_true, C188_pattern]
    refine ⟨?_, h⟩
    cases e : joinWith c!"/" q with
    | nil => exact absurd e hne
    | cons => rfl

example : excluded {} [c!"repo", c!".git", c!"objects"] = true :=
  (C188_excluded {} _ (by unfold Spec.Plain; decide)).2 ⟨c!".git/**", by decide, .inr ⟨[c!".git", c!"objects"], by decide, by decide, (C188_pattern _ _).1 (by decide)⟩⟩

/-- **C188**: a file is one of a package exactly if its name is one of the names to include, or a pattern to include fits it. -/
theorem C188_files (cfg : Config) (name : Str) (hn : '\\' ∉ name) : isPackageFile cfg name = true ↔
    ∃ p ∈ cfg.includes, ('*' ∉ p ∧ '?' ∉ p ∧ name = p) ∨ (('*' ∈ p ∨ '?' ∈ p) ∧ (p = c!"*" ∨ Fits p name)) := by
  have hsl : slashed name = name := by
    unfold slashed
    conv_rhs => rw [← List.map_id name]
    apply List.map_congr_left
    intro c hc
    have hne : c ≠ '\\' := fun h => hn (h ▸ hc)
    rw [if_neg hne]
    rfl
  have hw : ∀ p, wild p = true ↔ ('*' ∈ p ∨ '?' ∈ p) := by intro p; simp [wild]
  unfold isPackageFile matchesPattern
  rw [hsl, Bool.or_eq_true, List.contains_iff_mem, List.any_eq_true]
  simp only [List.mem_filter, Bool.or_eq_true, beq_iff_eq, C188_pattern, hw]
  constructor
  · rintro (⟨h1, h2⟩ | ⟨p, ⟨h1, h2⟩, h3⟩)
    · have : ¬ wild name = true := by simpa using h2
      rw [hw, not_or] at this
      exact ⟨name, h1, .inl ⟨this.1, this.2, rfl⟩⟩
    · exact ⟨p, h1, .inr ⟨h2, h3⟩⟩
  · rintro ⟨p, h1, ⟨h2, h3, rfl⟩ | ⟨h2, h3⟩⟩
    · refine .inl ⟨h1, ?_⟩
      have : ¬ wild name = true := by rw [hw]; tauto
      simpa using this
    · exact .inr ⟨p, ⟨h1, h2⟩, h3⟩

/-- **C188** fails as documented: a `.` of a pattern is any character, so that a package family `agit` is left out. -/
theorem C188_dot_false : excluded {} [c!"repo", c!"agit", c!"1.0"] = true ∧ ¬ Documented c!".git/**" c!"agit/1.0" := by
  refine ⟨by decide, fun h => ?_⟩
  generalize e : c!".git/**" = p at h
  generalize e' : c!"agit/1.0" = s at h
  cases h with
  | nil => cases e
  | deep => exact absurd (List.cons.inj e).1 (by decide)
  | star => exact absurd (List.cons.inj e).1 (by decide)
  | one => exact absurd (List.cons.inj e).1 (by decide)
  | char =>
    have h1 := (List.cons.inj e).1
    have h2 := (List.cons.inj e').1
    rw [← h1] at h2
    exact absurd h2 (by decide)

/-- **C188** fails for the directories themselves: only what is in a directory `.git` is left out, not the files in it. -/
theorem C188_inside_false : excluded {} [c!"repo", c!".git"] = false ∧ excluded {} [c!"repo", c!".git", c!"objects"] = true := by decide

/-- **C188** fails for repositories in such a directory: they are left out as a whole. -/
theorem C188_above_false : excluded {} [c!"node_modules", c!"x", c!"repo"] = true := by decide

/-! ## C189: directories and files -/

namespace ScannerLemmas

/-- A directory that is reached with so many levels left. -/
def Reach (cfg : Config) (d : Disk) (n : Nat) (p q : Path) : Prop :=
  ∃ r, q = p ++ r ∧ r.length < n ∧ ∀ m, p <+: m → m <+: q → mget d.fs m = some .dir ∧ excluded cfg m = false

theorem reach_zero (cfg : Config) (d : Disk) (p q : Path) : ¬ Reach cfg d 0 p q := by
  rintro ⟨r, _, h, _⟩; omega

theorem reach_succ (cfg : Config) (d : Disk) (n : Nat) (p q : Path) :
    Reach cfg d (n + 1) p q ↔ mget d.fs p = some .dir ∧ excluded cfg p = false ∧ (q = p ∨ ∃ x, mget d.fs (p ++ [x]) = some .dir ∧ excluded cfg (p ++ [x]) = false ∧ Reach cfg d n (p ++ [x]) q) := by
  constructor
  · rintro ⟨r, rfl, hl, h⟩
    obtain ⟨h1, h2⟩ := h p (List.prefix_refl _) (List.prefix_append _ _)
    refine ⟨h1, h2, ?_⟩
    cases r with
    | nil => left; simp
    | cons x r =>
      right
      have e : p ++ x :: r = (p ++ [x]) ++ r := by simp
      obtain ⟨h3, h4⟩ := h (p ++ [x]) (List.prefix_append _ _) (by rw [e]; exact List.prefix_append _ _)
      refine ⟨x, h3, h4, r, e, by simpa using hl, fun m hm hq => h m ((List.prefix_append _ _).trans hm) hq⟩
  · rintro ⟨h1, h2, rfl | ⟨x, h3, h4, r, rfl, hl, h⟩⟩
    · refine ⟨[], by simp, by simp, fun m hm hq => ?_⟩
      have := hm.eq_of_length (Nat.le_antisymm hm.length_le hq.length_le)
      rw [← this]; exact ⟨h1, h2⟩
    · refine ⟨x :: r, by simp, by simpa using hl, fun m hm hq => ?_⟩
      rcases List.prefix_or_prefix_of_prefix hq (List.prefix_append (p ++ [x]) r) with hm' | hm'
      · rcases List.prefix_concat_iff.1 hm' with rfl | hm''
        · exact ⟨h3, h4⟩
        · have := hm.eq_of_length (Nat.le_antisymm hm.length_le hm''.length_le)
          rw [← this]; exact ⟨h1, h2⟩
      · exact h m hm' hq

theorem each_spec (cfg : Config) (sub : Path → Option (List Path)) (p : Path) : ∀ (l : List (Str × Entry)),
    (collectEach cfg sub p l = none ↔ ∃ x, (x, Entry.dir) ∈ l ∧ excluded cfg (p ++ [x]) = false ∧ sub (p ++ [x]) = none) ∧
    ∀ ds, collectEach cfg sub p l = some ds → ∀ q, q ∈ ds ↔ ∃ x, (x, Entry.dir) ∈ l ∧ excluded cfg (p ++ [x]) = false ∧ ∃ es, sub (p ++ [x]) = some es ∧ q ∈ es := by
  intro l
  induction l with
  | nil =>
    refine ⟨by simp [collectEach], fun ds h q => ?_⟩
    simp only [collectEach, Option.some.injEq] at h
    subst h; simp
  | cons e l ih =>
    obtain ⟨x, e⟩ := e
    rw [collectEach]
    by_cases hc : (decide (e = .dir) && !excluded cfg (p ++ [x])) = true
    · rw [if_pos hc]
      simp only [Bool.and_eq_true, decide_eq_true_eq, Bool.not_eq_true'] at hc
      obtain ⟨rfl, hx⟩ := hc
      cases hs : sub (p ++ [x]) with
      | none =>
        refine ⟨⟨fun _ => ⟨x, List.mem_cons_self, hx, hs⟩, fun _ => rfl⟩, fun ds h => by cases h⟩
      | some es =>
        constructor
        · simp only [Option.map_eq_none_iff, ih.1]
          constructor
          · rintro ⟨y, h1, h2, h3⟩; exact ⟨y, List.mem_cons_of_mem _ h1, h2, h3⟩
          · rintro ⟨y, h1, h2, h3⟩
            rcases List.mem_cons.1 h1 with h1 | h1
            · cases h1; rw [hs] at h3; cases h3
            · exact ⟨y, h1, h2, h3⟩
        · intro ds h q
          simp only [Option.map_eq_some_iff] at h
          obtain ⟨fs, hf, rfl⟩ := h
          rw [List.mem_append, ih.2 fs hf q]
          constructor
          · rintro (h | ⟨y, h1, h2, h3⟩)
            · exact ⟨x, List.mem_cons_self, hx, es, hs, h⟩
            · exact ⟨y, List.mem_cons_of_mem _ h1, h2, h3⟩
          · rintro ⟨y, h1, h2, gs, h3, h4⟩
            rcases List.mem_cons.1 h1 with h1 | h1
            · cases h1; rw [hs] at h3; cases h3; exact .inl h4
            · exact .inr ⟨y, h1, h2, gs, h3, h4⟩
    · rw [if_neg hc]
      have skip : ∀ y, (y, Entry.dir) ∈ (x, e) :: l → excluded cfg (p ++ [y]) = false → (y, Entry.dir) ∈ l := by
        intro y hy he
        rcases List.mem_cons.1 hy with hy | hy
        · cases hy; exact absurd (by simp [he]) hc
        · exact hy
      refine ⟨ih.1.trans ⟨?_, ?_⟩, fun ds h q => (ih.2 ds h q).trans ⟨?_, ?_⟩⟩
      · rintro ⟨y, h1, h2⟩; exact ⟨y, List.mem_cons_of_mem _ h1, h2⟩
      · rintro ⟨y, h1, h2, h3⟩; exact ⟨y, skip y h1 h2, h2, h3⟩
      · rintro ⟨y, h1, h2⟩; exact ⟨y, List.mem_cons_of_mem _ h1, h2⟩
      · rintro ⟨y, h1, h2, h3⟩; exact ⟨y, skip y h1 h2, h2, h3⟩

theorem child_iff {d : Disk} (hok : Ok d.fs) {order : Listing} (ho : ListsAll order) {p : Path} {x : Str} {e : Entry} :
    (x, e) ∈ order (children d.fs p) ↔ mget d.fs (p ++ [x]) = some e := by
  rw [(ho _).mem_iff, BuildCopyLemmas.mem_children]
  exact ⟨fun h => mget_of_mem hok.nodup h, fun h => mget_some_mem h⟩

theorem collect_spec (cfg : Config) (d : Disk) (hok : Ok d.fs) (order : Listing) (ho : ListsAll order) : ∀ (n : Nat) (p : Path), mget d.fs p = some .dir →
    (collect cfg d order n p = none ↔ ∃ q, Reach cfg d n p q ∧ d.readable q = false) ∧
    ∀ ds, collect cfg d order n p = some ds → ∀ q, q ∈ ds ↔ Reach cfg d n p q := by
  intro n
  induction n with
  | zero =>
    intro p _
    refine ⟨⟨fun h => (by cases h), fun ⟨q, h, _⟩ => absurd h (reach_zero cfg d p q)⟩, fun ds h q => ?_⟩
    cases h
    exact ⟨fun h => (by cases h), fun h => absurd h (reach_zero cfg d p q)⟩
  | succ n ih =>
    intro p hp
    rw [collect]
    by_cases hx : excluded cfg p = true
    · rw [if_pos hx]
      have no : ∀ q, ¬ Reach cfg d (n + 1) p q := by
        intro q h
        have := ((reach_succ ..).1 h).2.1
        rw [hx] at this; cases this
      refine ⟨⟨fun h => (by cases h), fun ⟨q, h, _⟩ => absurd h (no q)⟩, fun ds h q => ?_⟩
      cases h
      exact ⟨fun h => (by cases h), fun h => absurd h (no q)⟩
    · rw [if_neg hx]
      have hx' : excluded cfg p = false := by simpa using hx
      by_cases hr : d.readable p = true
      · rw [if_neg (by simp [hr])]
        obtain ⟨e1, e2⟩ := each_spec cfg (collect cfg d order n) p (order (children d.fs p))
        constructor
        · rw [Option.map_eq_none_iff, e1]
          constructor
          · rintro ⟨x, h1, h2, h3⟩
            have h1' := (child_iff hok ho).1 h1
            obtain ⟨q, hq, hr'⟩ := (ih _ h1').1.1 h3
            exact ⟨q, (reach_succ ..).2 ⟨hp, hx', .inr ⟨x, h1', h2, hq⟩⟩, hr'⟩
          · rintro ⟨q, hq, hr'⟩
            rcases ((reach_succ ..).1 hq).2.2 with rfl | ⟨x, h1, h2, h3⟩
            · rw [hr] at hr'; cases hr'
            · exact ⟨x, (child_iff hok ho).2 h1, h2, (ih _ h1).1.2 ⟨q, h3, hr'⟩⟩
        · intro ds h q
          rw [Option.map_eq_some_iff] at h
          obtain ⟨es, he, rfl⟩ := h
          rw [List.mem_cons, e2 es he q, reach_succ]
          constructor
          · rintro (rfl | ⟨x, h1, h2, gs, h3, h4⟩)
            · exact ⟨hp, hx', .inl rfl⟩
            · have h1' := (child_iff hok ho).1 h1
              exact ⟨hp, hx', .inr ⟨x, h1', h2, ((ih _ h1').2 gs h3 q).1 h4⟩⟩
          · rintro ⟨_, _, rfl | ⟨x, h1, h2, h3⟩⟩
            · exact .inl rfl
            · right
              refine ⟨x, (child_iff hok ho).2 h1, h2, ?_⟩
              cases hg : collect cfg d order n (p ++ [x]) with
              | none =>
                exfalso
                have : collectEach cfg (collect cfg d order n) p (order (children d.fs p)) = none := e1.2 ⟨x, (child_iff hok ho).2 h1, h2, hg⟩
                rw [this] at he; cases he
              | some gs => exact ⟨gs, rfl, ((ih _ h1).2 gs hg q).2 h3⟩
      · rw [if_pos (by simpa using hr)]
        refine ⟨⟨fun _ => ⟨p, (reach_succ ..).2 ⟨hp, hx', .inl rfl⟩, by simpa using hr⟩, fun _ => rfl⟩, fun ds h => by cases h⟩

theorem reach_iff (cfg : Config) (d : Disk) (root p : Path) : Reach cfg d (cfg.maxDepth + 1) root p ↔ Reached cfg d root p := by
  unfold Reach Reached
  simp only [Nat.lt_succ_iff]

end ScannerLemmas

/-- **C189**: the directories that a scan comes to. -/
theorem C189_directories (cfg : Config) (d : Disk) (order : Listing) (root : Path) (hok : Ok d.fs) (ho : ListsAll order) (hr : mget d.fs root = some .dir)
    (ds : List Path) (h : collect cfg d order (cfg.maxDepth + 1) root = some ds) (p : Path) : p ∈ ds ↔ Reached cfg d root p :=
  ((collect_spec cfg d hok order ho _ root hr).2 ds h p).trans (reach_iff ..)

/-- **C189**: a scan fails exactly if the root is no directory, or a directory that it comes to cannot be read. -/
theorem C189_fails {α : Type} (cfg : Config) (d : Disk) (parse : Str → Option α) (w : Sched α) (st : State α) (root : Path) (hok : Ok d.fs) (ho : ListsAll w.listing) :
    (scanRepository cfg d parse w st root).1 = none ↔ mget d.fs root ≠ some .dir ∨ ∃ p, Reached cfg d root p ∧ d.readable p = false := by
  unfold scanRepository
  by_cases hr : mget d.fs root = some .dir
  · rw [if_neg (by simpa using hr)]
    have := (collect_spec cfg d hok w.listing ho (cfg.maxDepth + 1) root hr).1
    simp only [reach_iff] at this
    cases hc : collect cfg d w.listing (cfg.maxDepth + 1) root with
    | none => exact ⟨fun _ => .inr (this.1 hc), fun _ => rfl⟩
    | some ds =>
      refine ⟨fun h => (by cases h), ?_⟩
      rintro (h | h)
      · exact absurd hr h
      · rw [this.2 h] at hc; cases hc
  · rw [if_pos hr]
    exact ⟨fun _ => .inl hr, fun _ => rfl⟩

namespace ScannerLemmas

theorem filesOf_mem (cfg : Config) (d : Disk) (hok : Ok d.fs) (order : Listing) (ho : ListsAll order) (p f : Path) (hp : excluded cfg p = false) :
    f ∈ filesOf cfg d order p ↔ ∃ x s, f = p ++ [x] ∧ mget d.fs f = some (.file s) ∧ isPackageFile cfg x = true := by
  unfold filesOf
  rw [if_neg (by simp [hp]), List.mem_map]
  constructor
  · rintro ⟨⟨x, e⟩, h, rfl⟩
    rw [List.mem_filter, Bool.and_eq_true] at h
    obtain ⟨h1, h2, h3⟩ := h
    cases e with
    | file s => exact ⟨x, s, rfl, (child_iff hok ho).1 h1, h3⟩
    | dir => cases h2
    | link _ => cases h2
    | special => cases h2
  · rintro ⟨x, s, rfl, h1, h2⟩
    refine ⟨(x, .file s), List.mem_filter.2 ⟨(child_iff hok ho).2 h1, ?_⟩, rfl⟩
    rw [h2]; rfl

theorem examined_iff (cfg : Config) (d : Disk) (hok : Ok d.fs) (order : Listing) (ho : ListsAll order) (root : Path) (ds : List Path)
    (hd : ∀ p, p ∈ ds ↔ Reached cfg d root p) (f : Path) : f ∈ ds.flatMap (filesOf cfg d order) ↔ Examined cfg d root f := by
  rw [List.mem_flatMap]
  have ex : ∀ p, Reached cfg d root p → excluded cfg p = false := by
    rintro p ⟨r, rfl, _, h⟩
    exact (h _ (List.prefix_append _ _) (List.prefix_refl _)).2
  constructor
  · rintro ⟨p, hp, hf⟩
    have hp' := (hd p).1 hp
    obtain ⟨x, s, a, b, c⟩ := (filesOf_mem cfg d hok order ho p f (ex p hp')).1 hf
    exact ⟨p, x, s, a, hp', b, c⟩
  · rintro ⟨p, x, s, a, hp', b, c⟩
    exact ⟨p, (hd p).2 hp', (filesOf_mem cfg d hok order ho p f (ex p hp')).2 ⟨x, s, a, b, c⟩⟩

theorem each_below (cfg : Config) (sub : Path → Option (List Path)) (p : Path) (hs : ∀ q l, sub q = some l → (∀ m ∈ l, q <+: m) ∧ l.Nodup) : ∀ (l : List (Str × Entry)),
    (l.map Prod.fst).Nodup → ∀ ds, collectEach cfg sub p l = some ds → (∀ m ∈ ds, ∃ x ∈ l.map Prod.fst, p ++ [x] <+: m) ∧ ds.Nodup := by
  intro l
  induction l with
  | nil => intro _ ds h; cases h; exact ⟨fun m h => (by cases h), List.nodup_nil⟩
  | cons e l ih =>
    obtain ⟨x, e⟩ := e
    intro hn ds h
    rw [List.map_cons, List.nodup_cons] at hn
    rw [collectEach] at h
    split at h
    · split at h
      · cases h
      · rename_i es he
        rw [Option.map_eq_some_iff] at h
        obtain ⟨fs, hf, rfl⟩ := h
        obtain ⟨i1, i2⟩ := ih hn.2 fs hf
        obtain ⟨s1, s2⟩ := hs _ _ he
        refine ⟨fun m hm => ?_, ?_⟩
        · rcases List.mem_append.1 hm with hm | hm
          · exact ⟨x, List.mem_cons_self, s1 m hm⟩
          · obtain ⟨y, hy, h⟩ := i1 m hm
            exact ⟨y, List.mem_cons_of_mem _ hy, h⟩
        · rw [List.nodup_append]
          refine ⟨s2, i2, fun a ha b hb => ?_⟩
          rintro rfl
          obtain ⟨y, hy, h⟩ := i1 a hb
          have h1 := s1 a ha
          have e1 : p ++ [x] = p ++ [y] := by
            rcases List.prefix_or_prefix_of_prefix h1 h with h2 | h2
            · exact h2.eq_of_length (by simp)
            · exact (h2.eq_of_length (by simp)).symm
          have : x = y := by simpa using e1
          rw [this] at hn
          exact hn.1 hy
    · obtain ⟨i1, i2⟩ := ih hn.2 ds h
      exact ⟨fun m hm => (i1 m hm).imp fun y hy => ⟨List.mem_cons_of_mem _ hy.1, hy.2⟩, i2⟩

theorem collect_nodup (cfg : Config) (d : Disk) (hok : Ok d.fs) (order : Listing) (ho : ListsAll order) : ∀ (n : Nat) (p : Path) (ds : List Path),
    collect cfg d order n p = some ds → (∀ m ∈ ds, p <+: m) ∧ ds.Nodup := by
  intro n
  induction n with
  | zero => intro p ds h; cases h; exact ⟨fun m h => (by cases h), List.nodup_nil⟩
  | succ n ih =>
    intro p ds h
    rw [collect] at h
    split at h
    · cases h; exact ⟨fun m h => (by cases h), List.nodup_nil⟩
    · split at h
      · cases h
      · rw [Option.map_eq_some_iff] at h
        obtain ⟨es, he, rfl⟩ := h
        have hn : ((order (children d.fs p)).map Prod.fst).Nodup := (((ho _).map _).nodup_iff).2 (BuildCopyLemmas.children_nodup hok.nodup p)
        obtain ⟨i1, i2⟩ := each_below cfg _ p ih _ hn es he
        refine ⟨fun m hm => ?_, ?_⟩
        · rcases List.mem_cons.1 hm with rfl | hm
          · exact List.prefix_refl _
          · obtain ⟨x, _, h⟩ := i1 m hm
            exact (List.prefix_append _ _).trans h
        · rw [List.nodup_cons]
          refine ⟨fun hm => ?_, i2⟩
          obtain ⟨x, _, h⟩ := i1 p hm
          have := h.length_le
          rw [List.length_append, List.length_singleton] at this
          exact absurd this (by omega)

theorem files_nodup (cfg : Config) (d : Disk) (hok : Ok d.fs) (order : Listing) (ho : ListsAll order) (ds : List Path) (hn : ds.Nodup) :
    (ds.flatMap (filesOf cfg d order)).Nodup := by
  rw [List.nodup_flatMap]
  refine ⟨fun p _ => ?_, hn.imp fun {p q} hne => ?_⟩
  · unfold filesOf
    split
    · exact List.nodup_nil
    · have h1 : ((order (children d.fs p)).map Prod.fst).Nodup := (((ho _).map _).nodup_iff).2 (BuildCopyLemmas.children_nodup hok.nodup p)
      have h2 : (((order (children d.fs p)).filter fun e => isFile e.2 && isPackageFile cfg e.1).map Prod.fst).Nodup :=
        h1.sublist (List.filter_sublist.map _)
      have := h2.map (f := fun x => p ++ [x]) (fun a b h => by simpa using h)
      rwa [List.map_map] at this
  · intro f h1 h2
    have last : ∀ p, f ∈ filesOf cfg d order p → f.dropLast = p := by
      intro p h
      unfold filesOf at h
      split at h
      · cases h
      · obtain ⟨e, _, rfl⟩ := List.mem_map.1 h
        simp
    exact hne ((last p h1).symm.trans (last q h2))

end ScannerLemmas

/-! ## C190: results -/

namespace ScannerLemmas
variable {α : Type}

/-- The cache knows what was in the files. -/
def Fresh (content : Path → Nat → Nat → Str) (parse : Str → Option α) (c : List (Path × Cached α)) : Prop :=
  ∀ f e, (f, e) ∈ c → e.result.file = f ∧ e.result.size = e.size ∧ parse (content f e.mtime e.size) = some e.result.package

theorem fresh_evict {content : Path → Nat → Nat → Str} {parse : Str → Option α} {c : List (Path × Cached α)} (h : Fresh content parse c) (cfg : Config) (order) :
    Fresh content parse (evict cfg order c) := by
  unfold evict
  split
  · intro f e he
    exact h f e (List.mem_filter.1 he).1
  · exact h

theorem mem_mset {κ β : Type} [DecidableEq κ] {m : List (κ × β)} {k : κ} {v : β} {x : κ × β} (h : x ∈ mset m k v) : x = (k, v) ∨ x ∈ m := by
  unfold mset at h
  rcases List.mem_cons.1 h with h | h
  · exact .inl h
  · exact .inr (List.mem_filter.1 h).1

theorem scanFile_spec {content : Path → Nat → Nat → Str} {parse : Str → Option α} (cfg : Config) (d : Disk) (hd : Honest content d) (order) (t : Nat) (st : State α) (f : Path)
    (h : Fresh content parse st.cache) : (scanFile cfg d parse order t st f).1 = held d parse f ∧ Fresh content parse (scanFile cfg d parse order t st f).2.cache := by
  unfold scanFile
  split
  · rename_i s hs
    have hx : held d parse f = (parse s).map fun p => ⟨p, f, byteLen s⟩ := by unfold held; rw [hs]
    rw [hx]
    split
    · rename_i e he
      refine ⟨?_, h⟩
      split at he
      · rw [Option.filter_eq_some_iff] at he
        obtain ⟨h1, h2⟩ := he
        simp only [Bool.and_eq_true, beq_iff_eq] at h2
        obtain ⟨f1, f2, f3⟩ := h f e (mget_some_mem h1)
        rw [h2.1, h2.2, hd f s hs] at f3
        rw [f3, Option.map_some]
        obtain ⟨⟨a, b, c⟩, m, z, l⟩ := e
        simp only at f1 f2 h2 ⊢
        rw [← f1, ← h2.2, f2]
      · cases he
    · have hst : Fresh content parse (if cfg.cacheOn then { st with misses := st.misses + 1 } else st).cache := by split <;> exact h
      generalize (if cfg.cacheOn then { st with misses := st.misses + 1 } else st) = st' at hst
      dsimp only
      split
      · rename_i hp
        exact ⟨by rw [hp]; rfl, hst⟩
      · rename_i p hp
        refine ⟨by rw [hp]; rfl, ?_⟩
        split
        · apply fresh_evict
          intro g e he
          rcases mem_mset he with he | he
          · cases he
            exact ⟨rfl, rfl, by rw [hd f s hs]; exact hp⟩
          · exact hst g e he
        · exact hst
  · rename_i hs
    refine ⟨?_, h⟩
    unfold held
    split
    · rename_i s hs'
      exact absurd hs' (hs s)
    · rfl

theorem scanFiles_spec {content : Path → Nat → Nat → Str} {parse : Str → Option α} (cfg : Config) (d : Disk) (hd : Honest content d) (order) (time : Path → Nat) :
    ∀ (files : List Path) (acc : Found α) (st : State α), Fresh content parse st.cache →
      (∀ f, mget (scanFiles cfg d parse order time files acc st).1.1 f =
        if f ∈ files ∧ (held d parse f).isSome then held d parse f else mget acc.1 f) ∧
      (scanFiles cfg d parse order time files acc st).1.2 = acc.2 ++ files.filter (fun f => (held d parse f).isNone) ∧
      Fresh content parse (scanFiles cfg d parse order time files acc st).2.cache := by
  intro files
  induction files with
  | nil => intro acc st h; exact ⟨fun f => by simp [scanFiles], by simp [scanFiles], h⟩
  | cons g files ih =>
    intro acc st h
    rw [scanFiles]
    obtain ⟨h1, h2⟩ := scanFile_spec cfg d hd order (time g) st g h
    rcases hx : scanFile cfg d parse order (time g) st g with ⟨x, st'⟩
    rw [hx] at h1 h2
    simp only at h1 h2
    cases x with
    | some r =>
      dsimp only
      obtain ⟨i1, i2, i3⟩ := ih (mset acc.1 g r, acc.2) st' h2
      refine ⟨fun f => ?_, ?_, i3⟩
      · rw [i1 f]
        by_cases hf : f ∈ files ∧ (held d parse f).isSome = true
        · rw [if_pos hf, if_pos ⟨List.mem_cons_of_mem _ hf.1, hf.2⟩]
        · rw [if_neg hf, mget_mset]
          by_cases e : f = g
          · subst e
            rw [if_pos rfl, if_pos ⟨List.mem_cons_self, by rw [← h1]; rfl⟩, h1]
          · rw [if_neg e, if_neg]
            rintro ⟨a, b⟩
            rcases List.mem_cons.1 a with a | a
            · exact e a
            · exact hf ⟨a, b⟩
      · rw [i2, List.filter_cons_of_neg (by rw [← h1]; simp)]
    | none =>
      dsimp only
      obtain ⟨i1, i2, i3⟩ := ih (acc.1, acc.2 ++ [g]) st' h2
      refine ⟨fun f => ?_, ?_, i3⟩
      · rw [i1 f]
        by_cases hf : f ∈ files ∧ (held d parse f).isSome = true
        · rw [if_pos hf, if_pos ⟨List.mem_cons_of_mem _ hf.1, hf.2⟩]
        · rw [if_neg hf, if_neg]
          rintro ⟨a, b⟩
          rcases List.mem_cons.1 a with rfl | a
          · rw [← h1] at b; cases b
          · exact hf ⟨a, b⟩
      · rw [i2, List.filter_cons_of_pos (by rw [← h1]; simp), List.append_assoc]
        rfl

theorem scan_fresh {content : Path → Nat → Nat → Str} {parse : Str → Option α} (cfg : Config) (d : Disk) (hd : Honest content d) (w : Sched α) (st : State α) (root : Path)
    (h : Fresh content parse st.cache) : Fresh content parse (scanRepository cfg d parse w st root).2.cache := by
  unfold scanRepository
  split
  · exact h
  · split
    · exact h
    · exact (scanFiles_spec cfg d hd _ _ _ _ _ h).2.2

theorem mem_mupd {κ β : Type} [DecidableEq κ] {m : List (κ × β)} {k : κ} {g : β → β} {x : κ × β} (h : x ∈ mupd m k g) : ∃ v, (x.1, v) ∈ m ∧ (x.2 = v ∨ x.2 = g v) := by
  unfold mupd at h
  obtain ⟨y, hy, e⟩ := List.mem_map.1 h
  split at e
  · subst e; exact ⟨y.2, hy, .inr rfl⟩
  · subst e; exact ⟨y.2, hy, .inl rfl⟩

theorem look_fresh {content : Path → Nat → Nat → Str} {parse : Str → Option α} (cfg : Config) (d : Disk) (order) (t : Nat) (st : State α) (p : Path)
    (h : Fresh content parse st.cache) : Fresh content parse (getByPrefix cfg d order t st p).2.cache := by
  have key : ∀ q, Fresh content parse (mupd st.cache q fun e => { e with last := t }) := by
    intro q f e he
    obtain ⟨v, hv, hx⟩ := mem_mupd he
    have := h f v hv
    rcases hx with hx | hx <;> (simp only at hx; rw [hx]; exact this)
  unfold getByPrefix
  split
  · exact h
  · split
    · exact key _
    · split
      · exact key _
      · exact h

theorem after_fresh {content : Path → Nat → Nat → Str} {parse : Str → Option α} (cfg : Config) : ∀ (acts : List (Act α)) (x : Disk × State α),
    Honest content x.1 → (∀ d, Act.change d ∈ acts → Honest content d) → Fresh content parse x.2.cache →
    Honest content (acts.foldl (step cfg parse) x).1 ∧ Fresh content parse (acts.foldl (step cfg parse) x).2.cache := by
  intro acts
  induction acts with
  | nil => intro x h1 _ h2; exact ⟨h1, h2⟩
  | cons a acts ih =>
    intro x h1 ha h2
    rw [List.foldl_cons]
    apply ih
    · cases a with
      | change d => exact ha d List.mem_cons_self
      | _ => exact h1
    · intro d hd; exact ha d (List.mem_cons_of_mem _ hd)
    · cases a with
      | change d => exact h2
      | scan w root => exact scan_fresh cfg x.1 h1 w x.2 root h2
      | clear => intro f e he; cases he
      | refresh => intro f e he; exact h2 f e (List.mem_filter.1 he).1
      | look order t p => exact look_fresh cfg x.1 order t x.2 p h2

end ScannerLemmas

/-- **C190**: whatever was scanned, looked up, forgotten and changed before, the result of a scan is as if there were no cache: for
every file that is examined, what is in it now, or an error; and nothing else.  (The time and the length of a file say what is in
it.) -/
theorem C190_result {α : Type} (cfg : Config) (parse : Str → Option α) (content : Path → Nat → Nat → Str) (d0 : Disk) (acts : List (Act α))
    (h0 : Honest content d0) (ha : ∀ d, Act.change d ∈ acts → Honest content d)
    (d : Disk) (st : State α) (he : after cfg parse d0 acts = (d, st)) (hok : Ok d.fs)
    (w : Sched α) (ho : ListsAll w.listing) (hf : ∀ l, (w.files l).Perm l) (root : Path) (r : Scan α) (hr : (scanRepository cfg d parse w st root).1 = some r) :
    (∀ f s, Examined cfg d root f → mget d.fs f = some (.file s) →
      (∀ p, parse s = some p → mget r.packages f = some ⟨p, f, byteLen s⟩ ∧ f ∉ r.errors) ∧ (parse s = none → mget r.packages f = none ∧ f ∈ r.errors)) ∧
    (∀ f, ¬ Examined cfg d root f → mget r.packages f = none ∧ f ∉ r.errors) := by
  obtain ⟨hd, hfr⟩ := after_fresh (parse := parse) cfg acts (d0, {}) h0 ha (fun f e he => by cases he)
  have he' : acts.foldl (step cfg parse) (d0, {}) = (d, st) := he
  rw [he'] at hd hfr
  unfold scanRepository at hr
  split at hr
  · cases hr
  · rename_i hroot
    have hroot' : mget d.fs root = some .dir := by simpa using hroot
    split at hr
    · cases hr
    · rename_i dirs hc
      simp only [Option.some.injEq] at hr
      have hds := C189_directories cfg d w.listing root hok ho hroot' dirs hc
      have hex := examined_iff cfg d hok w.listing ho root dirs hds
      generalize hfl : w.files (dirs.flatMap (filesOf cfg d w.listing)) = files at hr
      have hm : ∀ f, f ∈ files ↔ Examined cfg d root f := by
        intro f
        rw [← hex f, ← hfl]
        exact (hf _).mem_iff
      obtain ⟨s1, s2, _⟩ := scanFiles_spec (parse := parse) cfg d hd w.cache w.time files ([], []) st hfr
      subst hr
      simp only [List.nil_append] at s2
      refine ⟨fun f s hx hs => ?_, fun f hx => ?_⟩
      · have e : held d parse f = (parse s).map fun p => ⟨p, f, byteLen s⟩ := by unfold held; rw [hs]
        refine ⟨fun p hp => ⟨?_, ?_⟩, fun hp => ⟨?_, ?_⟩⟩
        · show mget _ f = _
          rw [s1 f, if_pos ⟨(hm f).2 hx, by rw [e, hp]; rfl⟩, e, hp]; rfl
        · show f ∉ _
          rw [s2, List.mem_filter, e, hp]; simp
        · show mget _ f = _
          rw [s1 f, if_neg (by rw [e, hp]; simp)]; rfl
        · show f ∈ _
          rw [s2, List.mem_filter, e, hp]; exact ⟨(hm f).2 hx, rfl⟩
      · refine ⟨?_, ?_⟩
        · show mget _ f = _
          rw [s1 f, if_neg (fun h => hx ((hm f).1 h.1))]; rfl
        · show f ∉ _
          rw [s2, List.mem_filter]
          exact fun h => hx ((hm f).1 h.1)

namespace ScannerLemmas
variable {α : Type}

theorem scanFiles_counts (cfg : Config) (hc : cfg.cacheOn = true) (d : Disk) (parse : Str → Option α) (order) (time : Path → Nat) : ∀ (files : List Path) (acc : Found α) (st : State α),
    (∀ f ∈ files, ∃ s, mget d.fs f = some (.file s)) →
    (scanFiles cfg d parse order time files acc st).2.hits + (scanFiles cfg d parse order time files acc st).2.misses = st.hits + st.misses + files.length := by
  intro files
  induction files with
  | nil => intro acc st _; rfl
  | cons g files ih =>
    intro acc st h
    rw [scanFiles]
    have hx : (scanFile cfg d parse order (time g) st g).2.hits + (scanFile cfg d parse order (time g) st g).2.misses = st.hits + st.misses + 1 := by
      obtain ⟨s, hs⟩ := h g List.mem_cons_self
      unfold scanFile
      rw [hs]
      dsimp only
      split
      · dsimp only; omega
      · simp only [hc, if_true]
        split <;> (dsimp only; omega)
    have hh : ∀ f ∈ files, ∃ s, mget d.fs f = some (.file s) := fun f hf => h f (List.mem_cons_of_mem _ hf)
    rcases hy : scanFile cfg d parse order (time g) st g with ⟨x, st'⟩
    rw [hy] at hx
    dsimp only at hx
    rw [List.length_cons]
    cases x with
    | some r => dsimp only; rw [ih _ _ hh]; omega
    | none => dsimp only; rw [ih _ _ hh]; omega

theorem scan_cases {cfg : Config} {d : Disk} {parse : Str → Option α} {w : Sched α} {st : State α} {root : Path} {r : Scan α} {st' : State α}
    (hr : scanRepository cfg d parse w st root = (some r, st')) :
    mget d.fs root = some .dir ∧ ∃ dirs, collect cfg d w.listing (cfg.maxDepth + 1) root = some dirs ∧ r.directories = dirs.length ∧
      r.files = (w.files (dirs.flatMap (filesOf cfg d w.listing))).length ∧
      r.packages = (scanFiles cfg d parse w.cache w.time (w.files (dirs.flatMap (filesOf cfg d w.listing))) ([], []) st).1.1 ∧
      r.errors = (scanFiles cfg d parse w.cache w.time (w.files (dirs.flatMap (filesOf cfg d w.listing))) ([], []) st).1.2 ∧
      st' = (scanFiles cfg d parse w.cache w.time (w.files (dirs.flatMap (filesOf cfg d w.listing))) ([], []) st).2 := by
  unfold scanRepository at hr
  split at hr
  · cases hr
  · rename_i hroot
    split at hr
    · cases hr
    · rename_i dirs hc
      cases hr
      exact ⟨by simpa using hroot, dirs, hc, rfl, rfl, rfl, rfl, rfl⟩

end ScannerLemmas

/-- **C189**: the numbers that are reported are those of the directories that are come to and of the files that are examined, each
counted once; and with a cache each examined file is a hit or a miss. -/
theorem C189_counts {α : Type} (cfg : Config) (d : Disk) (parse : Str → Option α) (w : Sched α) (st : State α) (root : Path) (hok : Ok d.fs) (ho : ListsAll w.listing)
    (hf : ∀ l, (w.files l).Perm l) (r : Scan α) (st' : State α) (hr : scanRepository cfg d parse w st root = (some r, st')) :
    (∃ dirs : List Path, dirs.Nodup ∧ (∀ p, p ∈ dirs ↔ Reached cfg d root p) ∧ r.directories = dirs.length) ∧
    (∃ files : List Path, files.Nodup ∧ (∀ f, f ∈ files ↔ Examined cfg d root f) ∧ r.files = files.length) ∧
    (cfg.cacheOn = true → st'.hits + st'.misses = st.hits + st.misses + r.files) := by
  obtain ⟨hroot, dirs, hc, h1, h2, _, _, h5⟩ := scan_cases hr
  have hds := C189_directories cfg d w.listing root hok ho hroot dirs hc
  have hn := (collect_nodup cfg d hok w.listing ho _ root dirs hc).2
  have hm : ∀ f, f ∈ w.files (dirs.flatMap (filesOf cfg d w.listing)) ↔ Examined cfg d root f :=
    fun f => ((hf _).mem_iff).trans (examined_iff cfg d hok w.listing ho root dirs hds f)
  refine ⟨⟨dirs, hn, hds, h1⟩, ⟨_, ((hf _).nodup_iff).2 (files_nodup cfg d hok w.listing ho dirs hn), hm, h2⟩, fun hon => ?_⟩
  rw [h5, h2]
  refine scanFiles_counts cfg hon d parse _ _ _ _ st fun f hfm => ?_
  obtain ⟨p, x, s, _, _, hs, _⟩ := (hm f).1 hfm
  exact ⟨s, hs⟩

/-! ## C191: the other scanner -/

namespace ScannerLemmas
variable {α : Type}

/-- What a directory adds. -/
def Does (d : Disk) (order : Listing) (p : Path) (l : List Path) : Prop :=
  ∃ n, ∀ m S acc, discover d order (n + m) (p :: S) acc = discover d order m S (acc ++ l)

theorem does_list (d : Disk) (order : Listing) : ∀ (ps : List Path), (∀ p ∈ ps, ∃ l, Does d order p l ∧ ∀ q, q ∈ l ↔ Below d p q) →
    ∃ n l, (∀ m S acc, discover d order (n + m) (ps ++ S) acc = discover d order m S (acc ++ l)) ∧ ∀ q, q ∈ l ↔ ∃ p ∈ ps, Below d p q := by
  intro ps
  induction ps with
  | nil => intro _; exact ⟨0, [], fun m S acc => by simp, fun q => by simp⟩
  | cons p ps ih =>
    intro h
    obtain ⟨l1, ⟨n1, h1⟩, m1⟩ := h p List.mem_cons_self
    obtain ⟨n2, l2, h2, m2⟩ := ih fun q hq => h q (List.mem_cons_of_mem _ hq)
    refine ⟨n1 + n2, l1 ++ l2, fun m S acc => ?_, fun q => ?_⟩
    · rw [List.cons_append, Nat.add_assoc, h1, h2, List.append_assoc]
    · rw [List.mem_append, m1, m2]
      simp

theorem mem_sortPaths {l : List Path} {q : Path} : q ∈ sortPaths l ↔ q ∈ l := List.mem_insertionSort _

theorem below_step {d : Disk} (hok : Ok d.fs) {p q : Path} (hp : d.readable p = true) :
    Below d p q ↔ ∃ x, mget d.fs (p ++ [x]) = some .dir ∧ (q = p ++ [x] ∨ Below d (p ++ [x]) q) := by
  constructor
  · rintro ⟨r, hr, rfl, hq, hm⟩
    cases r with
    | nil => exact absurd rfl hr
    | cons x r =>
      refine ⟨x, ?_, ?_⟩
      · cases r with
        | nil => exact hq
        | cons y r =>
          exact hok.parents (p ++ x :: y :: r) (p ++ [x]) ⟨y :: r, by simp⟩ (by simp) (by rw [hq]; rfl)
      · cases r with
        | nil => exact .inl rfl
        | cons y r =>
          right
          refine ⟨y :: r, by simp, by simp, hq, fun m h1 h2 h3 => hm m ((List.prefix_append _ _).trans h1) h2 h3⟩
  · rintro ⟨x, hx, h⟩
    have key : ∀ m, p <+: m → ¬ (p ++ [x]) <+: m → m <+: q → (p ++ [x]) <+: q → m = p := by
      intro m h1 h2 h3 h4
      rcases List.prefix_or_prefix_of_prefix h3 h4 with h | h
      · rcases List.prefix_concat_iff.1 h with h | h
        · exact absurd (by rw [h]) h2
        · exact (h1.eq_of_length_le h.length_le).symm
      · exact absurd h h2
    rcases h with rfl | ⟨r, hr, rfl, hq, hm⟩
    · refine ⟨[x], by simp, rfl, hx, fun m h1 h2 h3 => ?_⟩
      rw [key m h1 (fun h => h3 (h2.eq_of_length_le h.length_le)) h2 (List.prefix_refl _)]
      exact hp
    · refine ⟨x :: r, by simp, by simp, hq, fun m h1 h2 h3 => ?_⟩
      by_cases h : (p ++ [x]) <+: m
      · exact hm m h h2 h3
      · rw [key m h1 h h2 (List.prefix_append _ _)]
        exact hp

theorem discover_dir (d : Disk) (hok : Ok d.fs) (order : Listing) (ho : ListsAll order) (B : Nat) (hB : ∀ q e, mget d.fs q = some e → q.length ≤ B) :
    ∀ (k : Nat) (p : Path), B < p.length + k → ∃ l, Does d order p l ∧ ∀ q, q ∈ l ↔ Below d p q := by
  intro k
  induction k with
  | zero =>
    intro p hp
    have none_below : ∀ q, ¬ Below d p q := by
      rintro q ⟨r, _, rfl, hq, _⟩
      have := hB _ _ hq
      rw [List.length_append] at this
      omega
    refine ⟨[], ⟨1, fun m S acc => ?_⟩, fun q => ⟨fun h => (by cases h), fun h => absurd h (none_below q)⟩⟩
    rw [Nat.add_comm, discover]
    split
    · have : (order (children d.fs p)).filter (fun e => decide (e.2 = Entry.dir)) = [] := by
        rw [List.filter_eq_nil_iff]
        rintro ⟨x, e⟩ h
        have := hB _ _ ((child_iff hok ho).1 h)
        rw [List.length_append] at this
        omega
      rw [this]
      rfl
    · rw [List.append_nil]
  | succ k ih =>
    intro p hp
    by_cases hr : d.readable p = true
    · generalize hs : sortPaths (((order (children d.fs p)).filter fun e => e.2 = .dir).map fun e => p ++ [e.1]) = subs
      have hsub : ∀ q, q ∈ subs ↔ ∃ x, q = p ++ [x] ∧ mget d.fs (p ++ [x]) = some .dir := by
        intro q
        rw [← hs, mem_sortPaths, List.mem_map]
        constructor
        · rintro ⟨⟨x, e⟩, h, rfl⟩
          rw [List.mem_filter, decide_eq_true_iff] at h
          obtain ⟨h1, h2⟩ := h
          dsimp only at h2
          subst h2
          exact ⟨x, rfl, (child_iff hok ho).1 h1⟩
        · rintro ⟨x, rfl, h⟩
          exact ⟨(x, .dir), List.mem_filter.2 ⟨(child_iff hok ho).2 h, by simp⟩, rfl⟩
      obtain ⟨n, l, h1, h2⟩ := does_list d order subs.reverse fun q hq => by
        obtain ⟨x, rfl, _⟩ := (hsub q).1 (List.mem_reverse.1 hq)
        exact ih _ (by rw [List.length_append, List.length_singleton]; omega)
      refine ⟨subs ++ l, ⟨n + 1, fun m S acc => ?_⟩, fun q => ?_⟩
      · rw [Nat.add_right_comm, discover, if_pos hr]
        dsimp only
        rw [hs, h1, List.append_assoc]
      · rw [List.mem_append, hsub, h2, below_step hok hr]
        constructor
        · rintro (⟨x, rfl, h⟩ | ⟨s, hm, h⟩)
          · exact ⟨x, h, .inl rfl⟩
          · obtain ⟨x, rfl, hx⟩ := (hsub s).1 (List.mem_reverse.1 hm)
            exact ⟨x, hx, .inr h⟩
        · rintro ⟨x, hx, h | h⟩
          · exact .inl ⟨x, h, hx⟩
          · exact .inr ⟨_, List.mem_reverse.2 ((hsub _).2 ⟨x, rfl, hx⟩), h⟩
    · refine ⟨[], ⟨1, fun m S acc => ?_⟩, fun q => ⟨fun h => (by cases h), ?_⟩⟩
      · rw [Nat.add_comm, discover, if_neg hr, List.append_nil]
      · rintro ⟨r, hr', rfl, _, hm⟩
        exact absurd (hm p (List.prefix_refl _) (List.prefix_append _ _) (by simpa using hr')) hr

theorem discover_root (d : Disk) (hok : Ok d.fs) (order : Listing) (ho : ListsAll order) (root : Path) :
    ∃ n dirs, (∀ fuel, n ≤ fuel → discover d order fuel [root] [] = some dirs) ∧ ∀ q, q ∈ dirs ↔ Below d root q := by
  obtain ⟨B, hB⟩ : ∃ B, ∀ x ∈ d.fs, x.1.length ≤ B := by
    clear hok
    induction d.fs with
    | nil => exact ⟨0, fun x h => (by cases h)⟩
    | cons y l ih =>
      obtain ⟨B, hB⟩ := ih
      refine ⟨max y.1.length B, fun x hx => ?_⟩
      rcases List.mem_cons.1 hx with rfl | hx
      · exact Nat.le_max_left _ _
      · exact (hB x hx).trans (Nat.le_max_right _ _)
  obtain ⟨l, ⟨n, h⟩, hl⟩ := discover_dir d hok order ho B (fun q e he => hB _ (mget_some_mem he)) (B + 1) root (by omega)
  refine ⟨n, l, fun fuel hf => ?_, hl⟩
  obtain ⟨m, rfl⟩ := Nat.exists_eq_add_of_le hf
  rw [h, List.nil_append]
  cases m <;> rfl

theorem mem_foldl_sadd {l : List Path} : ∀ {acc : List Path} {q : Path}, q ∈ l.foldl sadd acc ↔ q ∈ acc ∨ q ∈ l := by
  induction l with
  | nil => simp
  | cons y l ih => intro acc q; rw [List.foldl_cons, ih, mem_sadd, List.mem_cons]; tauto

theorem nodup_foldl_sadd {l : List Path} : ∀ {acc : List Path}, acc.Nodup → (l.foldl sadd acc).Nodup := by
  induction l with
  | nil => intro acc h; exact h
  | cons y l ih => intro acc h; exact ih (nodup_sadd h y)

theorem packageFiles_sorted (d : Disk) (order : Listing) (dirs : List Path) : (packageFiles d order dirs).Pairwise (· < ·) := by
  unfold packageFiles sortPaths
  generalize hx : List.foldl (sadd (κ := Path)) [] _ = l
  have hn : l.Nodup := by rw [← hx]; exact nodup_foldl_sadd List.nodup_nil
  have h1 := List.pairwise_insertionSort (· ≤ ·) l
  have h2 : (l.insertionSort (· ≤ ·)).Nodup := ((List.perm_insertionSort _ l).nodup_iff).2 hn
  exact (h1.and h2).imp fun h => Std.lt_of_le_of_ne h.1 h.2

theorem packageFiles_mem (d : Disk) (hok : Ok d.fs) (order : Listing) (ho : ListsAll order) (root : Path) (dirs : List Path) (hd : ∀ q, q ∈ dirs ↔ Below d root q) (f : Path) :
    f ∈ packageFiles d order dirs ↔ PackagePy d root f := by
  unfold packageFiles
  rw [mem_sortPaths, mem_foldl_sadd, List.mem_flatMap]
  constructor
  · rintro (h | ⟨p, hp, h⟩)
    · cases h
    · split at h
      · rename_i hr
        obtain ⟨⟨x, e⟩, h1, rfl⟩ := List.mem_map.1 h
        rw [List.mem_filter, Bool.and_eq_true, beq_iff_eq] at h1
        obtain ⟨h2, h3, h4⟩ := h1
        dsimp only at h4
        subst h4
        cases e with
        | file s => exact ⟨p, s, rfl, (hd p).1 hp, hr, (child_iff hok ho).1 h2⟩
        | dir => cases h3
        | link _ => cases h3
        | special => cases h3
      · cases h
  · rintro ⟨p, s, rfl, hp, hr, hs⟩
    refine .inr ⟨p, (hd p).2 hp, ?_⟩
    rw [if_pos hr]
    exact List.mem_map.2 ⟨(c!"package.py", .file s), List.mem_filter.2 ⟨(child_iff hok ho).2 hs, by simp [isFile]⟩, rfl⟩

/-- The cache says what is in the files. -/
def Knows (d : Disk) (parse : Str → Option α) (c : List (Path × Result α)) : Prop := ∀ f r, (f, r) ∈ c → held d parse f = some r

theorem fastFiles_spec (d : Disk) (parse : Str → Option α) (cap : Nat) : ∀ (files : List Path) (st : Fast α), Knows d parse st.cache →
    (fastFiles d parse cap files st).1 = files.filterMap (held d parse) ∧ Knows d parse (fastFiles d parse cap files st).2.cache := by
  intro files
  induction files with
  | nil => intro st h; exact ⟨rfl, h⟩
  | cons f files ih =>
    intro st h
    rw [fastFiles]
    have hf : (fastFile d parse cap st f).1 = held d parse f ∧ Knows d parse (fastFile d parse cap st f).2.cache := by
      unfold fastFile
      split
      · rename_i r hr
        have hm := mget_some_mem hr
        refine ⟨(h f r hm).symm, fun g r' hg => ?_⟩
        rcases List.mem_cons.1 hg with hg | hg
        · cases hg; exact h f r hm
        · exact h g r' (List.mem_filter.1 hg).1
      · dsimp only
        split
        · rename_i s hs
          have hx : held d parse f = (parse s).map fun p => ⟨p, f, byteLen s⟩ := by unfold held; rw [hs]
          rw [hx]
          split
          · rename_i hp
            exact ⟨by rw [hp]; rfl, h⟩
          · rename_i p hp
            refine ⟨by rw [hp]; rfl, fun g r' hg => ?_⟩
            rcases List.mem_cons.1 (List.mem_of_mem_take hg) with hg | hg
            · cases hg; rw [hx, hp]; rfl
            · exact h g r' (List.mem_filter.1 hg).1
        · rename_i hs
          refine ⟨?_, h⟩
          unfold held
          split
          · rename_i s hs'
            exact absurd hs' (hs s)
          · rfl
    obtain ⟨i1, i2⟩ := ih _ hf.2
    refine ⟨?_, i2⟩
    dsimp only
    rw [i1, hf.1, List.filterMap_cons]
    cases held d parse f <;> rfl

theorem fastScan_knows (d : Disk) (parse : Str → Option α) (order : Listing) (cap fuel : Nat) (st : Fast α) (root : Path) (h : Knows d parse st.cache) :
    Knows d parse (fastScan d parse order cap fuel st root).2.cache := by
  unfold fastScan
  split
  · exact h
  · exact (fastFiles_spec d parse cap _ st h).2

end ScannerLemmas

/-- **C191**: the other scanner ends, and of a disk that does not change it finds what is in each `package.py` in a directory below the
root that can be come to, each once and sorted by path; whatever it scanned before, whatever its cache holds and in whatever order
directories are listed. -/
theorem C191_packages {α : Type} (d : Disk) (parse : Str → Option α) (order : Listing) (cap : Nat) (hok : Ok d.fs) (ho : ListsAll order)
    (earlier : List (Nat × Path)) (root : Path) :
    ∃ n, ∀ fuel, n ≤ fuel → ∃ (files : List Path) (k : Nat), files.Pairwise (· < ·) ∧ (∀ f, f ∈ files ↔ PackagePy d root f) ∧
      (fastScan d parse order cap fuel (earlier.foldl (fun st e => (fastScan d parse order cap e.1 st e.2).2) {}) root).1 = some (files.filterMap (held d parse), k) := by
  obtain ⟨n, dirs, h1, h2⟩ := discover_root d hok order ho root
  refine ⟨n, fun fuel hf => ?_⟩
  have hk : ∀ (l : List (Nat × Path)) (st : Fast α), Knows d parse st.cache → Knows d parse (l.foldl (fun st e => (fastScan d parse order cap e.1 st e.2).2) st).cache := by
    intro l
    induction l with
    | nil => intro st h; exact h
    | cons e l ih => intro st h; exact ih _ (fastScan_knows d parse order cap e.1 st e.2 h)
  have := hk earlier {} (fun f r h => by cases h)
  generalize earlier.foldl (fun st e => (fastScan d parse order cap e.1 st e.2).2) {} = st at this
  refine ⟨packageFiles d order dirs, (fastFiles d parse cap (packageFiles d order dirs) st).2.hits + (fastFiles d parse cap (packageFiles d order dirs) st).2.misses, packageFiles_sorted d order dirs, packageFiles_mem d hok order ho root dirs h2, ?_⟩
  unfold fastScan
  rw [h1 fuel hf]
  dsimp only
  rw [(fastFiles_spec d parse cap _ st this).1]

/-- **C191**: so two scans of it agree, whatever the orders, the cache sizes and what came before. -/
theorem C191_same {α : Type} (d : Disk) (parse : Str → Option α) (order order' : Listing) (cap cap' : Nat) (hok : Ok d.fs) (ho : ListsAll order) (ho' : ListsAll order')
    (earlier earlier' : List (Nat × Path)) (root : Path) :
    ∃ n, ∀ fuel fuel', n ≤ fuel → n ≤ fuel' →
      (fastScan d parse order cap fuel (earlier.foldl (fun st e => (fastScan d parse order cap e.1 st e.2).2) {}) root).1.map Prod.fst =
      (fastScan d parse order' cap' fuel' (earlier'.foldl (fun st e => (fastScan d parse order' cap' e.1 st e.2).2) {}) root).1.map Prod.fst := by
  obtain ⟨n, h⟩ := C191_packages d parse order cap hok ho earlier root
  obtain ⟨n', h'⟩ := C191_packages d parse order' cap' hok ho' earlier' root
  refine ⟨max n n', fun fuel fuel' hf hf' => ?_⟩
  obtain ⟨files, k, a, b, c⟩ := h fuel ((Nat.le_max_left _ _).trans hf)
  obtain ⟨files', k', a', b', c'⟩ := h' fuel' ((Nat.le_max_right _ _).trans hf')
  have e : files = files' := List.Perm.eq_of_pairwise (fun x y _ _ h1 h2 => absurd rfl (Std.ne_of_lt (Std.lt_trans h1 h2))) a a'
    ((List.perm_ext_iff_of_nodup (a.imp fun h => Std.ne_of_lt h) (a'.imp fun h => Std.ne_of_lt h)).2 fun f => (b f).trans (b' f).symm)
  rw [c, c', e]
  rfl

/-! ## C192: the cache -/

namespace ScannerLemmas
variable {α : Type}

theorem evict_spec (cfg : Config) (order : List (Path × Cached α) → List (Path × Cached α)) (ho : ∀ l, (order l).Perm l) (c : List (Path × Cached α)) (hn : (mkeys c).Nodup)
    (hc : cfg.maxCache * 1000 < c.length) :
    (evict cfg order c).length = cfg.maxCache * 1000 * 4 / 5 ∧ (evict cfg order c).Sublist c ∧
    ∀ a ∈ evict cfg order c, ∀ b ∈ c, b ∉ evict cfg order c → b.2.last ≤ a.2.last := by
  unfold evict
  rw [if_pos hc]
  dsimp only
  generalize hs : (order c).insertionSort (fun a b => a.2.last ≤ b.2.last) = s
  have hp : s.Perm c := by rw [← hs]; exact (List.perm_insertionSort _ _).trans (ho c)
  have : Std.Total (fun a b : Path × Cached α => a.2.last ≤ b.2.last) := ⟨fun a b => Nat.le_total _ _⟩
  have : IsTrans (Path × Cached α) (fun a b => a.2.last ≤ b.2.last) := ⟨fun a b c => Nat.le_trans⟩
  have hsort : s.Pairwise (fun a b => a.2.last ≤ b.2.last) := by rw [← hs]; exact List.pairwise_insertionSort _ _
  generalize hk : c.length - cfg.maxCache * 1000 * 4 / 5 = k
  have hsn : (s.map Prod.fst).Nodup := ((hp.map _).nodup_iff).2 hn
  have hmem : ∀ x, x ∈ c → (x ∈ s.take k ↔ x.1 ∈ (s.take k).map Prod.fst) := by
    intro x hx
    refine ⟨fun h => List.mem_map_of_mem h, fun h => ?_⟩
    obtain ⟨y, hy, e⟩ := List.mem_map.1 h
    have hy' := hp.mem_iff.1 (List.mem_of_mem_take hy)
    have : x = y := by
      obtain ⟨x1, x2⟩ := x
      obtain ⟨y1, y2⟩ := y
      dsimp only at e
      subst e
      have a := mget_of_mem hn hx
      rw [mget_of_mem hn hy'] at a
      cases a; rfl
    rw [this]; exact hy
  have hdrop : (s.filter fun e => !((s.take k).map Prod.fst).contains e.1) = s.drop k := by
    conv_lhs => rw [← List.take_append_drop k s]
    rw [List.filter_append]
    have hsplit : ((s.take k).map Prod.fst ++ (s.drop k).map Prod.fst).Nodup := by rw [← List.map_append, List.take_append_drop]; exact hsn
    have h1 : (s.take k).filter (fun e => !((List.take k (List.take k s ++ List.drop k s)).map Prod.fst).contains e.1) = [] := by
      rw [List.take_append_drop, List.filter_eq_nil_iff]
      intro a ha
      have : a.1 ∈ (s.take k).map Prod.fst := List.mem_map_of_mem ha
      rw [List.contains_iff_mem.2 this]; simp
    have h2 : (s.drop k).filter (fun e => !((List.take k (List.take k s ++ List.drop k s)).map Prod.fst).contains e.1) = s.drop k := by
      rw [List.take_append_drop, List.filter_eq_self]
      intro a ha
      have : a.1 ∉ (s.take k).map Prod.fst := fun h => (List.nodup_append.1 hsplit).2.2 _ h _ (List.mem_map_of_mem ha) rfl
      simpa using this
    rw [h1, h2, List.nil_append]
  refine ⟨?_, List.filter_sublist, fun a ha b hb hnb => ?_⟩
  · rw [← (hp.filter _).length_eq, hdrop, List.length_drop, hp.length_eq, ← hk]
    omega
  · have ha' : a ∈ s.drop k := by rw [← hdrop]; exact ((hp.filter _).mem_iff).2 ha
    have hb' : b ∈ s.take k := by
      rw [hmem b hb]
      by_contra h
      exact hnb (List.mem_filter.2 ⟨hb, by simpa using h⟩)
    have h3 := hsort
    rw [← List.take_append_drop k s, List.pairwise_append] at h3
    exact h3.2.2 b hb' a ha'

/-- A cache that is in order. -/
def Bounded (cfg : Config) (c : List (Path × Cached α)) : Prop := (mkeys c).Nodup ∧ c.length ≤ cfg.maxCache * 1000

theorem bounded_evict (cfg : Config) (order : List (Path × Cached α) → List (Path × Cached α)) (ho : ∀ l, (order l).Perm l) (c : List (Path × Cached α)) (hn : (mkeys c).Nodup) :
    Bounded cfg (evict cfg order c) := by
  by_cases hc : cfg.maxCache * 1000 < c.length
  · obtain ⟨h1, h2, _⟩ := evict_spec cfg order ho c hn hc
    exact ⟨hn.sublist (h2.map _), by rw [h1]; omega⟩
  · unfold evict
    rw [if_neg hc]
    exact ⟨hn, by omega⟩

theorem scanFile_bounded (cfg : Config) (d : Disk) (parse : Str → Option α) (order : List (Path × Cached α) → List (Path × Cached α)) (ho : ∀ l, (order l).Perm l) (t : Nat) (st : State α) (f : Path)
    (h : Bounded cfg st.cache) : Bounded cfg (scanFile cfg d parse order t st f).2.cache := by
  unfold scanFile
  split
  · split
    · exact h
    · have hst : Bounded cfg (if cfg.cacheOn then { st with misses := st.misses + 1 } else st).cache := by split <;> exact h
      generalize (if cfg.cacheOn then { st with misses := st.misses + 1 } else st) = st' at hst
      dsimp only
      split
      · exact hst
      · dsimp only
        split
        · exact bounded_evict cfg order ho _ (nodup_mset hst.1 _ _)
        · exact hst
  · exact h

theorem scanFiles_bounded (cfg : Config) (d : Disk) (parse : Str → Option α) (order : List (Path × Cached α) → List (Path × Cached α)) (ho : ∀ l, (order l).Perm l) (time : Path → Nat) :
    ∀ (files : List Path) (acc : Found α) (st : State α), Bounded cfg st.cache → Bounded cfg (scanFiles cfg d parse order time files acc st).2.cache := by
  intro files
  induction files with
  | nil => intro acc st h; exact h
  | cons f files ih =>
    intro acc st h
    rw [scanFiles]
    have := scanFile_bounded cfg d parse order ho (time f) st f h
    rcases hx : scanFile cfg d parse order (time f) st f with ⟨x, st'⟩
    rw [hx] at this
    cases x <;> exact ih _ _ this

theorem mkeys_mupd {κ β : Type} [DecidableEq κ] (m : List (κ × β)) (k : κ) (g : β → β) : mkeys (mupd m k g) = mkeys m := by
  unfold mkeys mupd
  rw [List.map_map]
  apply List.map_congr_left
  intro a _
  simp only [Function.comp]
  split <;> rfl

theorem look_bounded (cfg : Config) (d : Disk) (order) (t : Nat) (st : State α) (p : Path) (h : Bounded cfg st.cache) : Bounded cfg (getByPrefix cfg d order t st p).2.cache := by
  have key : ∀ q, Bounded cfg (mupd st.cache q fun e => { e with last := t }) := by
    intro q
    refine ⟨by rw [mkeys_mupd]; exact h.1, ?_⟩
    unfold mupd
    rw [List.length_map]
    exact h.2
  unfold getByPrefix
  split
  · exact h
  · split
    · exact key _
    · split
      · exact key _
      · exact h

end ScannerLemmas

/-- **C192**: the cache never holds more than its bound, whatever the history. -/
theorem C192_bounded {α : Type} (cfg : Config) (parse : Str → Option α) (d0 : Disk) (acts : List (Act α)) (hw : ∀ w root, Act.scan w root ∈ acts → ∀ l, (w.cache l).Perm l) :
    (after cfg parse d0 acts).2.cache.length ≤ cfg.maxCache * 1000 := by
  suffices h : ∀ (acts : List (Act α)) (x : Disk × State α), (∀ w root, Act.scan w root ∈ acts → ∀ l, (w.cache l).Perm l) → Bounded cfg x.2.cache →
      Bounded cfg (acts.foldl (step cfg parse) x).2.cache from (h acts (d0, {}) hw ⟨List.nodup_nil, Nat.zero_le _⟩).2
  intro acts
  induction acts with
  | nil => intro x _ h; exact h
  | cons a acts ih =>
    intro x hw h
    rw [List.foldl_cons]
    apply ih _ fun w root hm => hw w root (List.mem_cons_of_mem _ hm)
    cases a with
    | change d => exact h
    | scan w root =>
      show Bounded cfg (scanRepository cfg x.1 parse w x.2 root).2.cache
      unfold scanRepository
      split
      · exact h
      · split
        · exact h
        · exact scanFiles_bounded cfg x.1 parse _ (hw w root List.mem_cons_self) _ _ _ _ h
    | clear => exact ⟨List.nodup_nil, Nat.zero_le _⟩
    | refresh =>
      refine ⟨h.1.sublist (List.filter_sublist.map _), ?_⟩
      exact (List.length_filter_le _ _).trans h.2
    | look order t p => exact look_bounded cfg x.1 order t x.2 p h

/-- **C192**: when it is full, it is cut to four fifths of the bound, and what goes was used no later than anything that stays. -/
theorem C192_evict {α : Type} (cfg : Config) (order : List (Path × Cached α) → List (Path × Cached α)) (ho : ∀ l, (order l).Perm l) (c : List (Path × Cached α)) (hn : (mkeys c).Nodup) :
    (c.length ≤ cfg.maxCache * 1000 → evict cfg order c = c) ∧
    (cfg.maxCache * 1000 < c.length → (evict cfg order c).length = cfg.maxCache * 1000 * 4 / 5 ∧ (evict cfg order c).Sublist c ∧
      ∀ a ∈ evict cfg order c, ∀ b ∈ c, b ∉ evict cfg order c → b.2.last ≤ a.2.last) := by
  refine ⟨fun h => ?_, evict_spec cfg order ho c hn⟩
  unfold evict
  rw [if_neg (by omega)]

namespace ScannerLemmas
variable {α : Type}

theorem valid_held {content : Path → Nat → Nat → Str} {parse : Str → Option α} {d : Disk} (hd : Honest content d) {c : List (Path × Cached α)} (h : Fresh content parse c)
    {f : Path} {e : Cached α} (hm : (f, e) ∈ c) (hv : valid d e = true) : held d parse f = some e.result ∧ e.result.file = f := by
  obtain ⟨h1, h2, h3⟩ := h f e hm
  unfold valid at hv
  rw [h1] at hv
  split at hv
  · rename_i s hs
    simp only [Bool.and_eq_true, beq_iff_eq] at hv
    rw [hv.1, hv.2, hd f s hs] at h3
    unfold held
    rw [hs]
    dsimp only
    rw [h3]
    refine ⟨?_, h1⟩
    obtain ⟨⟨a, b, c⟩, m, z, l⟩ := e
    simp only at h1 h2 hv ⊢
    rw [← h1, ← hv.2, ← h2]
    rfl
  · cases hv

end ScannerLemmas

/-- **C192**: what a lookup finds is what is now in a file of that path, above it or below it. -/
theorem C192_look {α : Type} (cfg : Config) (parse : Str → Option α) (content : Path → Nat → Nat → Str) (d0 : Disk) (acts : List (Act α))
    (h0 : Honest content d0) (ha : ∀ d, Act.change d ∈ acts → Honest content d)
    (d : Disk) (st : State α) (he : after cfg parse d0 acts = (d, st))
    (order : List (Path × Cached α) → List (Path × Cached α)) (ho : ∀ l, (order l).Perm l) (t : Nat) (p : Path) (r : Result α)
    (hr : (getByPrefix cfg d order t st p).1 = some r) : held d parse r.file = some r ∧ (r.file <+: p ∨ p <+: r.file) := by
  obtain ⟨hd, hfr⟩ := after_fresh (parse := parse) cfg acts (d0, {}) h0 ha (fun f e he => by cases he)
  have he' : acts.foldl (step cfg parse) (d0, {}) = (d, st) := he
  rw [he'] at hd hfr
  unfold getByPrefix at hr
  split at hr
  · cases hr
  · split at hr
    · rename_i e hx
      rw [Option.filter_eq_some_iff] at hx
      cases hr
      obtain ⟨h1, h2⟩ := valid_held hd hfr (mget_some_mem hx.1) hx.2
      rw [h2]
      exact ⟨h1, .inl (List.prefix_refl _)⟩
    · split at hr
      · rename_i e hx
        cases hr
        have hp := List.find?_some hx
        have hm := (ho _).mem_iff.1 (List.mem_of_find?_eq_some hx)
        rw [Bool.and_eq_true, Bool.or_eq_true, List.isPrefixOf_iff_prefix, List.isPrefixOf_iff_prefix] at hp
        obtain ⟨h1, h2⟩ := valid_held hd hfr (f := e.1) (e := e.2) hm hp.2
        rw [h2]
        exact ⟨h1, hp.1⟩
      · cases hr

namespace ScannerLemmas
variable {α : Type}

theorem scanFile_keeps (cfg : Config) (hc : cfg.cacheOn = true) (d : Disk) (parse : Str → Option α) (order : List (Path × Cached α) → List (Path × Cached α)) (t : Nat) (st : State α) (f : Path)
    (hl : st.cache.length + 1 ≤ cfg.maxCache * 1000) :
    (scanFile cfg d parse order t st f).2.cache.length ≤ st.cache.length + 1 ∧
    (∀ g e, g ≠ f → mget st.cache g = some e → mget (scanFile cfg d parse order t st f).2.cache g = some e) ∧
    ((held d parse f).isSome → ∃ e, mget (scanFile cfg d parse order t st f).2.cache f = some e ∧ ∃ s, mget d.fs f = some (.file s) ∧ e.mtime = d.mtime f ∧ e.size = byteLen s) := by
  unfold scanFile held
  cases hs : mget d.fs f with
  | none => exact ⟨by dsimp only; omega, fun g e _ h => h, fun h => by cases h⟩
  | some x =>
    cases x with
    | dir => exact ⟨by dsimp only; omega, fun g e _ h => h, fun h => by cases h⟩
    | link _ => exact ⟨by dsimp only; omega, fun g e _ h => h, fun h => by cases h⟩
    | special => exact ⟨by dsimp only; omega, fun g e _ h => h, fun h => by cases h⟩
    | file s =>
      dsimp only
      simp only [hc, if_true]
      cases hg : (mget st.cache f).filter fun e => e.mtime == d.mtime f && e.size == byteLen s with
      | some e =>
        dsimp only
        refine ⟨by omega, fun g e _ h => h, fun _ => ?_⟩
        rw [Option.filter_eq_some_iff] at hg
        simp only [Bool.and_eq_true, beq_iff_eq] at hg
        exact ⟨e, hg.1, s, rfl, hg.2.1, hg.2.2⟩
      | none =>
        dsimp only
        cases hp : parse s with
        | none => exact ⟨by dsimp only; omega, fun g e _ h => h, fun h => by cases h⟩
        | some p =>
          dsimp only
          have hlen : (mset st.cache f (⟨⟨p, f, byteLen s⟩, d.mtime f, byteLen s, t⟩ : Cached α)).length ≤ st.cache.length + 1 := by
            unfold mset
            rw [List.length_cons]
            exact Nat.succ_le_succ (List.length_filter_le _ _)
          have hev : evict cfg order (mset st.cache f (⟨⟨p, f, byteLen s⟩, d.mtime f, byteLen s, t⟩ : Cached α)) = mset st.cache f ⟨⟨p, f, byteLen s⟩, d.mtime f, byteLen s, t⟩ := by
            unfold evict
            rw [if_neg (by omega)]
          rw [hev]
          refine ⟨hlen, fun g e hne h => ?_, fun _ => ⟨_, by rw [mget_mset, if_pos rfl], s, rfl, rfl, rfl⟩⟩
          rw [mget_mset, if_neg hne]
          exact h

theorem scanFiles_keeps (cfg : Config) (hc : cfg.cacheOn = true) (d : Disk) (parse : Str → Option α) (order : List (Path × Cached α) → List (Path × Cached α)) (time : Path → Nat) :
    ∀ (files : List Path) (acc : Found α) (st : State α), st.cache.length + files.length ≤ cfg.maxCache * 1000 → files.Nodup →
    (∀ g e, g ∉ files → mget st.cache g = some e → mget (scanFiles cfg d parse order time files acc st).2.cache g = some e) ∧
    ∀ f ∈ files, (held d parse f).isSome → ∃ e, mget (scanFiles cfg d parse order time files acc st).2.cache f = some e ∧ ∃ s, mget d.fs f = some (.file s) ∧ e.mtime = d.mtime f ∧ e.size = byteLen s := by
  intro files
  induction files with
  | nil => intro acc st _ _; exact ⟨fun g e _ h => h, fun f h => by cases h⟩
  | cons g files ih =>
    intro acc st hl hn
    rw [List.length_cons] at hl
    rw [List.nodup_cons] at hn
    rw [scanFiles]
    obtain ⟨k1, k2, k3⟩ := scanFile_keeps cfg hc d parse order (time g) st g (by omega)
    rcases hx : scanFile cfg d parse order (time g) st g with ⟨x, st'⟩
    rw [hx] at k1 k2 k3
    dsimp only at k1 k2 k3
    have done : ∀ acc' : Found α, (∀ h e, h ∉ g :: files → mget st.cache h = some e → mget (scanFiles cfg d parse order time files acc' st').2.cache h = some e) ∧
        ∀ f ∈ g :: files, (held d parse f).isSome → ∃ e, mget (scanFiles cfg d parse order time files acc' st').2.cache f = some e ∧ ∃ s, mget d.fs f = some (.file s) ∧ e.mtime = d.mtime f ∧ e.size = byteLen s := by
      intro acc'
      obtain ⟨i1, i2⟩ := ih acc' st' (by omega) hn.2
      refine ⟨fun h e hh hm => ?_, fun f hf hs => ?_⟩
      · rw [List.mem_cons, not_or] at hh
        exact i1 h e hh.2 (k2 h e hh.1 hm)
      · rcases List.mem_cons.1 hf with rfl | hf
        · obtain ⟨e, he, h⟩ := k3 hs
          exact ⟨e, i1 f e hn.1 he, h⟩
        · exact i2 f hf hs
    cases x <;> exact done _

end ScannerLemmas

/-- **C192**: right after a scan that fits in the cache, every file it examined is found by its path. -/
theorem C192_found {α : Type} (cfg : Config) (parse : Str → Option α) (content : Path → Nat → Nat → Str) (d0 : Disk) (acts : List (Act α))
    (h0 : Honest content d0) (ha : ∀ d, Act.change d ∈ acts → Honest content d)
    (d : Disk) (st : State α) (he : after cfg parse d0 acts = (d, st)) (hok : Ok d.fs)
    (w : Sched α) (hl : ListsAll w.listing) (hf : ∀ l, (w.files l).Perm l) (root : Path) (r : Scan α) (st' : State α)
    (hr : scanRepository cfg d parse w st root = (some r, st')) (hc : cfg.cacheOn = true) (hp : cfg.prefixOn = true) (hfit : st.cache.length + r.files ≤ cfg.maxCache * 1000)
    (order : List (Path × Cached α) → List (Path × Cached α)) (t : Nat) (f : Path) (hx : Examined cfg d root f) (hs : (held d parse f).isSome) :
    (getByPrefix cfg d order t st' f).1 = held d parse f := by
  obtain ⟨hd, hfr⟩ := after_fresh (parse := parse) cfg acts (d0, {}) h0 ha (fun f e he => by cases he)
  have he' : acts.foldl (step cfg parse) (d0, {}) = (d, st) := he
  rw [he'] at hd hfr
  obtain ⟨hroot, dirs, hcol, h1, h2, _, _, h5⟩ := scan_cases hr
  have hds := C189_directories cfg d w.listing root hok hl hroot dirs hcol
  have hn := (collect_nodup cfg d hok w.listing hl _ root dirs hcol).2
  have hm : f ∈ w.files (dirs.flatMap (filesOf cfg d w.listing)) := (hf _).mem_iff.2 ((examined_iff cfg d hok w.listing hl root dirs hds f).2 hx)
  have hnd : (w.files (dirs.flatMap (filesOf cfg d w.listing))).Nodup := ((hf _).nodup_iff).2 (files_nodup cfg d hok w.listing hl dirs hn)
  obtain ⟨e, k1, s, k2, k3, k4⟩ := (scanFiles_keeps cfg hc d parse w.cache w.time _ ([], []) st (by rw [← h2]; exact hfit) hnd).2 f hm hs
  have hfr' := (scanFiles_spec (parse := parse) cfg d hd w.cache w.time (w.files (dirs.flatMap (filesOf cfg d w.listing))) ([], []) st hfr).2.2
  rw [← h5] at k1 hfr'
  have hfile := (hfr' f e (mget_some_mem k1)).1
  have hv : valid d e = true := by
    unfold valid
    rw [hfile, k2]
    simp [k3, k4]
  have hg : (mget st'.cache f).filter (valid d) = some e := by rw [k1, Option.filter_some, if_pos hv]
  unfold getByPrefix
  rw [hp, hg]
  exact (valid_held hd hfr' (mget_some_mem k1) hv).1.symm

/-- C192: after `clear_cache` a scanner is as new: its next scan has the result, the counts and the memory of the first scan of a new
one. -/
theorem C192_clear {α : Type} (cfg : Config) (d : Disk) (parse : Str → Option α) (w : Sched α) (st : State α) (root : Path) :
    scanRepository cfg d parse w (clear st) root = scanRepository cfg d parse w {} root := rfl

/-- **C192**: after a refresh the cache holds only what is now in the files; nothing that still holds is lost. -/
theorem C192_refresh {α : Type} (cfg : Config) (parse : Str → Option α) (content : Path → Nat → Nat → Str) (d0 : Disk) (acts : List (Act α))
    (h0 : Honest content d0) (ha : ∀ d, Act.change d ∈ acts → Honest content d)
    (d : Disk) (st : State α) (he : after cfg parse d0 acts = (d, st)) (f : Path) (e : Cached α) :
    ((f, e) ∈ (refresh d st).cache → held d parse f = some e.result) ∧
    ((f, e) ∈ st.cache → (∀ s, mget d.fs f = some (.file s) → e.mtime = d.mtime f ∧ e.size = byteLen s) → (∃ s, mget d.fs f = some (.file s)) → (f, e) ∈ (refresh d st).cache) := by
  obtain ⟨hd, hfr⟩ := after_fresh (parse := parse) cfg acts (d0, {}) h0 ha (fun f e he => by cases he)
  have he' : acts.foldl (step cfg parse) (d0, {}) = (d, st) := he
  rw [he'] at hd hfr
  refine ⟨fun h => ?_, fun h hs hx => ?_⟩
  · obtain ⟨h1, h2⟩ := List.mem_filter.1 h
    exact (valid_held hd hfr h1 h2).1
  · refine List.mem_filter.2 ⟨h, ?_⟩
    obtain ⟨s, hx⟩ := hx
    obtain ⟨a, b⟩ := hs s hx
    show valid d e = true
    unfold valid
    rw [(hfr f e h).1, hx]
    simp [a, b]

/-! ## Witnesses -/

namespace ScannerExample

/-- A file that starts with `!` does not parse; the package is the text. -/
def parse : Str → Option Str
  | '!' :: _ => none
  | s => some s

/-- A repository with two versions, a file that does not parse, and one in the root. -/
def fs : FS :=
  [([], .dir), ([c!"r"], .dir), ([c!"r", c!"package.py"], .file c!"root"), ([c!"r", c!"a"], .dir), ([c!"r", c!"a", c!"1"], .dir),
    ([c!"r", c!"a", c!"1", c!"package.py"], .file c!"one"), ([c!"r", c!"a", c!"2"], .dir), ([c!"r", c!"a", c!"2", c!"package.py"], .file c!"two"),
    ([c!"r", c!"bad"], .dir), ([c!"r", c!"bad", c!"package.py"], .file c!"!"), ([c!"r", c!".git"], .dir), ([c!"r", c!".git", c!"package.py"], .file c!"git")]

/-- It, at a time. -/
def disk (t : Nat) : Disk := ⟨fs, fun _ => t, fun _ => true⟩

/-- It, after the file of the first version was written again. -/
def disk' (t : Nat) : Disk := ⟨mset fs [c!"r", c!"a", c!"1", c!"package.py"] (.file c!"new"), fun _ => t, fun _ => true⟩

/-- Everything in the order of the list. -/
def w : Sched Str := ⟨id, id, id, fun _ => 0⟩

/-- What is in the files at what time. -/
def content (f : Path) (t _ : Nat) : Str :=
  match mget (if t = 1 then fs else (disk' 2).fs) f with
  | some (.file s) => s
  | _ => []

theorem honest1 : Honest content (disk 1) := by
  intro f s h
  show content f 1 _ = s
  have h' : mget fs f = some (.file s) := h
  simp only [content, if_true, h']

theorem honest2 : Honest content (disk' 2) := by
  intro f s h
  show content f 2 _ = s
  have h' : mget (disk' 2).fs f = some (.file s) := h
  simp only [content]
  rw [if_neg (by decide), h']

theorem ok : Ok fs where
  nodup := by decide
  parents := by
    intro p q hq hne hs
    obtain ⟨e, he⟩ := Option.isSome_iff_exists.1 hs
    have hm := mget_some_mem he
    have key : ∀ x ∈ fs, ∀ n < x.1.length, mget fs (x.1.take n) = some .dir := by decide +kernel
    have := key _ hm q.length (by
      rcases Nat.lt_or_ge q.length p.length with h | h
      · exact h
      · exact absurd (hq.eq_of_length_le h) hne)
    rwa [← List.prefix_iff_eq_take.1 hq] at this

/-- A scan, a change that the time shows, and a scan: the second finds what is there now (five files, in six directories). -/
example : ((scanRepository {} (disk' 2) parse w (after {} parse (disk 1) [.scan w [c!"r"], .change (disk' 2)]).2 [c!"r"]).1.map fun r =>
    (mget r.packages [c!"r", c!"a", c!"1", c!"package.py"], r.files, r.directories, r.errors)) =
    some (some ⟨c!"new", [c!"r", c!"a", c!"1", c!"package.py"], 3⟩, 5, 6, [[c!"r", c!"bad", c!"package.py"]]) := by decide +kernel

example : ∃ r, (scanRepository {} (disk 1) parse w (after {} parse (disk 1) [.scan w [c!"r"]]).2 [c!"r"]).1 = some r ∧
    mget r.packages [c!"r", c!"a", c!"2", c!"package.py"] = some ⟨c!"two", [c!"r", c!"a", c!"2", c!"package.py"], 3⟩ := by
  cases h : (scanRepository {} (disk 1) parse w (after {} parse (disk 1) [.scan w [c!"r"]]).2 [c!"r"]).1 with
  | none =>
    exact absurd h (by decide +kernel)
  | some r =>
    have hd : (after {} parse (disk 1) [.scan w [c!"r"]]).1 = disk 1 := rfl
    have := (C190_result {} parse content (disk 1) [.scan w [c!"r"]] honest1 (by intro d h; simp at h) _ _ rfl ok w (fun l => List.Perm.refl _) (fun l => List.Perm.refl _) [c!"r"] r h).1
      [c!"r", c!"a", c!"2", c!"package.py"] c!"two" ⟨[c!"r", c!"a", c!"2"], c!"package.py", c!"two", rfl, ⟨[c!"a", c!"2"], rfl, by decide, fun m h1 h2 => by
        obtain ⟨k, rfl⟩ := h1
        have h3 : k <+: [c!"a", c!"2"] := by
          have : [c!"r"] ++ k <+: [c!"r"] ++ [c!"a", c!"2"] := h2
          exact (List.prefix_append_right_inj _).1 this
        have key : ∀ n ≤ 2, mget fs ([c!"r"] ++ [c!"a", c!"2"].take n) = some .dir ∧ excluded {} ([c!"r"] ++ [c!"a", c!"2"].take n) = false := by decide
        have := key k.length (h3.length_le)
        rwa [← List.prefix_iff_eq_take.1 h3] at this⟩, rfl, by decide⟩ rfl
    exact ⟨r, rfl, (this.1 c!"two" rfl).1⟩

end ScannerExample

open ScannerExample in
/-- **C188** for what is right in such a directory: the patterns leave out what is below, so the directory itself is come to, and its files
are examined. -/
theorem C188_itself_false : ((scanRepository {} (disk 1) parse w {} [c!"r"]).1.bind fun r => mget r.packages [c!"r", c!".git", c!"package.py"]) =
    some ⟨c!"git", [c!"r", c!".git", c!"package.py"], 3⟩ := by decide +kernel

open ScannerExample in
/-- **C190** needs what it says of time and length: a file that is written again with the same time and length is not read again. -/
theorem C190_stale_false :
    ((scanRepository {} (disk' 1) parse w (after {} parse (disk 1) [.scan w [c!"r"], .change (disk' 1)]).2 [c!"r"]).1.map fun r =>
      mget r.packages [c!"r", c!"a", c!"1", c!"package.py"]) = some (some ⟨c!"one", [c!"r", c!"a", c!"1", c!"package.py"], 3⟩) ∧
    mget (disk' 1).fs [c!"r", c!"a", c!"1", c!"package.py"] = some (.file c!"new") := by
  constructor <;> decide +kernel

open ScannerExample in
/-- **C191** as the scanner does it: the package in the root is missed and the one in `.git` is not; the file that does not parse is not
reported. -/
theorem C191_root_false : ((fastScan (disk 1) parse id 10 100 {} [c!"r"]).1.map fun r => (r.1.map (·.package), r.2)) = some ([c!"git", c!"one", c!"two"], 4) := by
  decide +kernel

open ScannerExample in
/-- **C191** needs a disk that does not change: what was read once is not read again, whatever its time; and the number of examined
files is that of all scans together. -/
theorem C191_stale_false : ((fastScan (disk' 2) parse id 10 100 (fastScan (disk 1) parse id 10 100 {} [c!"r"]).2 [c!"r"]).1.map fun r => (r.1.map (·.package), r.2)) =
    some ([c!"git", c!"one", c!"two"], 8) := by decide +kernel

open ScannerExample in
example : ∃ n, ∀ fuel, n ≤ fuel → ∃ (files : List Path) (k : Nat), files.Pairwise (· < ·) ∧ (∀ f, f ∈ files ↔ PackagePy (disk 1) [c!"r"] f) ∧
    (fastScan (disk 1) parse id 2 fuel ([(100, [c!"r", c!"a"]), (3, [c!"r"])].foldl (fun st e => (fastScan (disk 1) parse id 2 e.1 st e.2).2) {}) [c!"r"]).1 =
      some (files.filterMap (held (disk 1) parse), k) :=
  C191_packages (disk 1) parse id 2 ok (fun _ => List.Perm.refl _) [(100, [c!"r", c!"a"]), (3, [c!"r"])] [c!"r"]

open ScannerExample in
/-- **C192** for a directory: which of its packages is found depends on the order of the cache. -/
theorem C192_directory_false :
    let st := (after {} parse (disk 1) [.scan w [c!"r"]]).2
    (getByPrefix {} (disk 1) id 5 st [c!"r", c!"a"]).1.map (·.package) = some c!"two" ∧
    (getByPrefix {} (disk 1) List.reverse 5 st [c!"r", c!"a"]).1.map (·.package) = some c!"one" := by decide +kernel

open ScannerExample in
example : (getByPrefix {} (disk 1) List.reverse 5 (after {} parse (disk 1) [.scan w [c!"r"]]).2 [c!"r", c!"a", c!"2", c!"package.py"]).1.map (·.package) = some c!"two" := by
  decide +kernel

/-- A bound of nothing: what is kept goes at once. -/
example : (evict { maxCache := 0 } id [([c!"f"], (⟨⟨c!"p", [c!"f"], 1⟩, 1, 1, 1⟩ : Cached Str))]) = [] := by decide

end Rez.Props
